import Verif.Proofs.SpaceEf
import Verif.Proofs.UnsortedList
/-!
# The sizes of compact vectors and of range-minimum structures
-/
namespace AC

theorem CV.build_bytes {vs : List W} {w : Nat} {after : W} {c : CV} (h : CV.build vs w after = .ok c) :
    c.bytes = 32 + 8 * ((vs.length * w + 63) / 64) := by
  by_cases hw : 1 ≤ w ∧ w ≤ 64
  · obtain ⟨c', h', hr, _⟩ := CV.build_spec vs w after hw.1 hw.2
    obtain rfl : c = c' := by rw [h] at h'; cases h'; rfl
    unfold CV.bytes vecBytes
    rw [hr.len]
    unfold wordsFor
    omega
  · rw [CV.build_width0 vs w after (by omega)] at h
    cases h

/-- the number of bits of the largest value -/
theorem ceilLog2_succ {m : Nat} (hm : m ≠ 0) : ceilLog2 (m + 1) = Nat.log2 m + 1 := by
  unfold ceilLog2 msbNat
  rw [if_pos (by omega)]
  rfl

namespace RS

theorem hintLoop_zeros {pairs : List W} : ∀ (fuel i threshold : Nat) (hs hs' : List Nat), 2 * hs.length ≤ i → threshold = 1024 * (hs.length + 1) →
    hintLoop true pairs fuel i threshold hs = .ok hs' → 2 * hs'.length ≤ i + fuel
  | 0, _, _, _, _, h1, _, h => by
      unfold hintLoop at h
      cases h
      omega
  | fuel + 1, i, threshold, hs, hs', h1, h2, h => by
      unfold hintLoop at h
      obtain ⟨r, hr, h⟩ := bind_ok h
      split at h
      · rename_i hgt
        have hle : r ≤ 512 * (i + 1) := by
          unfold blockRankOf at hr
          rw [if_pos rfl] at hr
          unfold blockRank0 at hr
          obtain ⟨x, _, hr⟩ := bind_ok hr
          cases hr
          omega
        have := hintLoop_zeros fuel (i + 1) (threshold + 1024) (hs ++ [i]) hs' (by rw [List.length_append, List.length_singleton]; omega)
          (by rw [List.length_append, List.length_singleton]; omega) h
        omega
      · have := hintLoop_zeros fuel (i + 1) threshold hs hs' (by omega) h2 h
        omega

theorem buildHints_zeros {pairs : List W} {hs : List Nat} (h : buildHints true true pairs = .ok hs) : 2 * hs.length ≤ numBlocks pairs + 2 := by
  unfold buildHints at h
  rw [if_pos rfl] at h
  obtain ⟨hs', h1, h⟩ := bind_ok h
  cases h
  have := hintLoop_zeros _ _ _ _ _ (by simp) (by simp) h1
  rw [List.length_append, List.length_singleton]
  omega

end RS

namespace BP

theorem leaves_small {n : Nat} : ∀ (fuel k r : Nat), leaves n fuel k = .ok r → r = k ∨ r < 2 * n
  | 0, _, _, h => by unfold leaves at h; cases h
  | fuel + 1, k, r, h => by
      unfold leaves at h
      split at h
      · rcases leaves_small fuel (2 * k) r h with h | h
        · right; omega
        · exact Or.inr h
      · cases h; exact Or.inl rfl

end BP

namespace CT

/-- the parts of the structure -/
theorem build_sizes {v : List Nat} {after : W} {t : BP} (hv : v.length < 2 ^ 30 - 1) (h : build v after = .ok t) :
    t.rs.bv.bits.length = (2 * v.length + 65) / 64 ∧ t.rs.pairs.length = 2 * ((t.rs.bv.bits.length + 7) / 8 + 1) ∧ t.rs.hints = [] ∧
      2 * t.rs.hints0.length ≤ (t.rs.bv.bits.length + 7) / 8 + 2 ∧ t.blockMin.length = (t.rs.bv.bits.length + 3) / 4 ∧
      t.superMin.length + 1 ≤ 3 * (((t.rs.bv.bits.length + 3) / 4 + 31) / 32) := by
  obtain ⟨t', h', hr⟩ := build_spec v after hv
  obtain rfl : t = t' := by rw [h] at h'; cases h'; rfl
  have hlen : t.rs.bv.bits.length = (2 * v.length + 65) / 64 := by
    rw [hr.rep.rs.wf, hr.size, wordsFor]
  refine ⟨hlen, hr.rep.rs.pairs.len, ?_⟩
  unfold build BP.build at h
  obtain ⟨rs, h1, h⟩ := bind_ok h
  have hsz : (BV.build (finalize (v.foldl push ⟨[], BVB.empty⟩)) after).size ≠ 0 := by
    intro h0
    rw [if_pos h0] at h
    cases h
    unfold RS.build at h1
    obtain ⟨_, _, h1⟩ := bind_ok h1
    obtain ⟨_, _, h1⟩ := bind_ok h1
    cases h1
    have := hr.size
    dsimp only at this
    omega
  rw [if_neg hsz] at h
  have hpl := hr.rep.rs.pairs.len
  have hbm := congrArg List.length hr.rep.blocks
  rw [List.length_map, List.length_range] at hbm
  have hsl := hr.rep.len
  unfold BP.buildTree at h
  obtain ⟨internal, h3, h⟩ := bind_ok h
  obtain ⟨l, _, h⟩ := bind_ok h
  obtain ⟨tree, _, h⟩ := bind_ok h
  have hb := BP.leaves_small _ _ _ h3
  cases h
  dsimp only at hlen hpl hbm hsl ⊢
  unfold RS.build at h1
  obtain ⟨hints, h4, h1⟩ := bind_ok h1
  obtain ⟨hints0, h5, h1⟩ := bind_ok h1
  cases h1
  have h6 := RS.buildHints_zeros h5
  unfold RS.buildHints at h4
  rw [if_neg (by simp)] at h4
  cases h4
  dsimp only at hlen hpl hbm hsl hb ⊢
  unfold RS.numBlocks at h6
  unfold ceilDiv at hb
  refine ⟨rfl, by omega, hbm, ?_⟩
  rw [hsl]
  omega

theorem bytes_le {v : List Nat} {after : W} {t : BP} (hv : v.length < 2 ^ 30 - 1) (h : build v after = .ok t) :
    1024 * t.bytes ≤ 355 * v.length + 1024 * 126 := by
  obtain ⟨h1, h2, h3, h4, h5, h6⟩ := build_sizes hv h
  unfold BP.bytes RS.bytes BV.bytes vecBytes
  rw [h3]
  simp only [List.length_nil]
  omega

/-- the balanced parentheses alone need this much -/
theorem le_bytes {v : List Nat} {after : W} {t : BP} (hv : v.length < 2 ^ 30 - 1) (h : build v after = .ok t) :
    v.length ≤ 4 * t.bytes := by
  obtain ⟨h1, h2, h3, h4, h5, h6⟩ := build_sizes hv h
  unfold BP.bytes RS.bytes BV.bytes vecBytes
  omega

end CT
end AC
