import Verif.Model.DebugAll
import Verif.Proofs.DebugStoreSeq
import Verif.Proofs.DebugSearch
/-! # Integer codes and searches of sequences in a build with all assertions: the assertions hold -/
namespace AC

/-! ## Sequences -/

namespace EF

theorem compressLoop_sorted (l : Nat) : ∀ (vs : List W) (i : Nat) (last : W) (lowB highB : BVB) (r : BVB × BVB),
    compressLoop l i last vs lowB highB = .ok r → (i ≠ 0 → ∀ v ∈ vs.head?, last.toNat ≤ v.toNat) ∧ sortedW vs = true
  | [], _, _, _, _, _, _ => ⟨by simp, rfl⟩
  | v :: vs, i, last, lowB, highB, r, h => by
      unfold compressLoop at h
      split at h
      · cases h
      · rename_i hc
        obtain ⟨hb, _, h⟩ := bind_ok h
        obtain ⟨h1, h2⟩ := compressLoop_sorted l vs (i + 1) v _ hb r h
        refine ⟨?_, ?_⟩
        · intro hi w hw
          simp only [List.head?_cons, Option.mem_def, Option.some.injEq] at hw
          subst hw
          exact Nat.le_of_not_lt fun hlt => hc ⟨hi, hlt⟩
        · cases vs with
          | nil => rfl
          | cons w ws =>
              have := h1 (by omega) w (by simp)
              unfold sortedW
              rw [h2, decide_eq_true this]; rfl

theorem pairwise_of_sortedW : ∀ vs : List W, sortedW vs = true → vs.Pairwise (fun a b => a.toNat ≤ b.toNat)
  | [], _ => .nil
  | [_], _ => by simp
  | a :: b :: vs, h => by
      unfold sortedW at h
      rw [Bool.and_eq_true, decide_eq_true_eq] at h
      have ih := pairwise_of_sortedW (b :: vs) h.2
      refine List.pairwise_cons.mpr ⟨?_, ih⟩
      intro x hx
      rcases List.mem_cons.mp hx with rfl | hx
      · exact h.1
      · exact Nat.le_trans h.1 ((List.pairwise_cons.mp ih).1 x hx)

theorem build_sorted {vs : List W} {e : EF} (h : build vs = .ok e) : vs ≠ [] ∧ sortedW vs = true := by
  unfold build at h
  cases h1 : vs.getLast? with
  | none => rw [h1] at h; cases h
  | some u =>
      rw [h1] at h
      unfold compress at h
      obtain ⟨r, e1, h⟩ := bind_ok h
      refine ⟨?_, (compressLoop_sorted _ _ _ _ _ _ _ e1).2⟩
      rintro rfl
      cases h1

/-- whatever is built represents what it was built from -/
theorem build_repD {vs : List W} {e : EF} (h : build vs = .ok e) : e.RepD vs := by
  obtain ⟨h1, h2⟩ := build_sorted h
  obtain ⟨e', _, e2, e3⟩ := buildD_spec vs h1 (pairwise_of_sortedW vs h2)
  rw [h] at e2
  cases e2
  exact e3

theorem sumLoop_out_length : ∀ (vs : List W) (ps : List Nat) (endP run within : Nat) (prev : W) (values r : List W),
    sumLoop ps endP run within prev values vs = .ok r → r.length = values.length + vs.length
  | [], _, _, _, _, _, _, _, h => by cases h; simp
  | v :: vs, ps, endP, run, within, prev, values, r, h => by
      unfold sumLoop at h
      split at h
      · obtain ⟨⟨a, b, c⟩, _, h⟩ := bind_ok h
        have := sumLoop_out_length vs _ _ _ _ _ _ _ h
        simp only [List.length_append, List.length_cons, List.length_nil] at this ⊢
        omega
      · have := sumLoop_out_length vs _ _ _ _ _ _ _ h
        simp only [List.length_append, List.length_cons, List.length_nil] at this ⊢
        omega

theorem buildRuns_repD {vs : List W} {ps : List Nat} {e : EF} (h : buildRuns vs ps = .ok e) :
    buildRunsD vs ps = .ok e ∧ ∃ xs, e.RepD xs ∧ xs.length = vs.length := by
  unfold buildRuns at h
  obtain ⟨p0, e1, h⟩ := bind_ok h
  obtain ⟨p1, e2, h⟩ := bind_ok h
  obtain ⟨xs, e3, h⟩ := bind_ok h
  have hl : xs.length = vs.length := by simpa using sumLoop_out_length _ _ _ _ _ _ _ _ e3
  refine ⟨?_, xs, build_repD h, hl⟩
  unfold buildRunsD
  rw [e1, M.ok_bind, e2, M.ok_bind, e3, M.ok_bind, check_bind hl, check_bind (build_sorted h).2, buildD_eq, h]

theorem buildD_stays (vs : List W) : Stays (buildD vs) (build vs) := by rw [buildD_eq]; exact .refl _

theorem buildRunsD_stays (vs : List W) (ps : List Nat) : Stays (buildRunsD vs ps) (buildRuns vs ps) := fun _ h => (buildRuns_repD h).1

end EF

/-! ## Two representations of one sequence are searched alike -/

namespace Seq

/-- the sequence itself -/
def ofList (xs : List Nat) : Seq := ⟨rd xs, Nat, .ok, fun i => do let v ← rd xs i; .ok (v, i), fun i => .ok (i + 1)⟩

variable {S : Seq} {xs : List Nat}

theorem ofList_deref {pos : Nat} (h : pos < xs.length) : (ofList xs).deref pos = .ok (xs[pos], pos) := by
  show (rd xs pos >>= fun v => (.ok (v, pos) : M (Nat × Nat))) = _
  rw [rd_ok h]; rfl

theorem ofList_scanEq (id n : Nat) {pos : Nat} (h : pos < xs.length) : (ofList xs).scanEq id (n + 1) pos pos =
    if xs[pos] = id then .ok (some pos) else (ofList xs).scanEq id n (pos + 1) (pos + 1) := by
  show ((ofList xs).deref pos >>= fun p => if p.1 = id then .ok (some pos) else (ofList xs).inc p.2 >>= fun it => (ofList xs).scanEq id n (pos + 1) it) = _
  rw [ofList_deref h]; rfl

theorem ofList_scanGe (x n : Nat) {pos : Nat} (h : pos < xs.length) : (ofList xs).scanGe x (n + 1) pos pos =
    if xs[pos] ≥ x then .ok (some pos) else (ofList xs).scanGe x n (pos + 1) (pos + 1) := by
  show ((ofList xs).deref pos >>= fun p => if p.1 ≥ x then .ok (some pos) else (ofList xs).inc p.2 >>= fun it => (ofList xs).scanGe x n (pos + 1) it) = _
  rw [ofList_deref h]; rfl

theorem scanEq_list (id : Nat) (I J : S.It → Nat → Prop)
    (hd : ∀ it i (h : i < xs.length), I it i → ∃ it', S.deref it = .ok (xs[i], it') ∧ J it' i)
    (hi : ∀ it i, i < xs.length → J it i → ∃ it', S.inc it = .ok it' ∧ (i + 1 < xs.length → I it' (i + 1))) :
    ∀ (n pos : Nat) (it : S.It), pos + n ≤ xs.length → (0 < n → I it pos) → S.scanEq id n pos it = (ofList xs).scanEq id n pos pos
  | 0, _, _, _, _ => rfl
  | n + 1, pos, it, hn, hI => by
      obtain ⟨it', d1, d2⟩ := hd it pos (by omega) (hI (by omega))
      obtain ⟨it2, e1, e2⟩ := hi it' pos (by omega) d2
      have ih := scanEq_list id I J hd hi n (pos + 1) it2 (by omega) (fun h0 => e2 (by omega))
      refine Eq.trans ?_ (ofList_scanEq _ _ (by omega)).symm
      show (S.deref it >>= fun p => if p.1 = id then .ok (some pos) else S.inc p.2 >>= fun it => S.scanEq id n (pos + 1) it) = _
      rw [d1, M.ok_bind]
      dsimp only
      rw [e1, M.ok_bind]
      split
      · rfl
      · exact ih

theorem scanGe_list (x : Nat) (I J : S.It → Nat → Prop)
    (hd : ∀ it i (h : i < xs.length), I it i → ∃ it', S.deref it = .ok (xs[i], it') ∧ J it' i)
    (hi : ∀ it i, i < xs.length → J it i → ∃ it', S.inc it = .ok it' ∧ (i + 1 < xs.length → I it' (i + 1))) :
    ∀ (n pos : Nat) (it : S.It), pos + n ≤ xs.length → (0 < n → I it pos) → S.scanGe x n pos it = (ofList xs).scanGe x n pos pos
  | 0, _, _, _, _ => rfl
  | n + 1, pos, it, hn, hI => by
      obtain ⟨it', d1, d2⟩ := hd it pos (by omega) (hI (by omega))
      obtain ⟨it2, e1, e2⟩ := hi it' pos (by omega) d2
      have ih := scanGe_list x I J hd hi n (pos + 1) it2 (by omega) (fun h0 => e2 (by omega))
      refine Eq.trans ?_ (ofList_scanGe _ _ (by omega)).symm
      show (S.deref it >>= fun p => if p.1 ≥ x then .ok (some pos) else S.inc p.2 >>= fun it => S.scanGe x n (pos + 1) it) = _
      rw [d1, M.ok_bind]
      dsimp only
      rw [e1, M.ok_bind]
      split
      · rfl
      · exact ih

theorem access_list (h : S.Rep xs) {i : Nat} (hi : i < xs.length) : S.access i = (ofList xs).access i := by
  rw [h.access i hi]
  exact (rd_ok hi).symm

theorem findScan_list (h : S.Rep xs) (id : Nat) {lo hi : Nat} (hl : lo ≤ hi) (hh : hi < xs.length) : S.findScan id lo hi = (ofList xs).findScan id lo hi := by
  unfold findScan
  split
  · obtain ⟨I, J, i1, i2, i3⟩ := h.iter
    obtain ⟨it, a1, a2⟩ := i1 lo (by omega)
    rw [a1, M.ok_bind]
    exact scanEq_list id I J i2 i3 _ _ _ (by omega) (fun _ => a2)
  · rfl

theorem find_list (h : S.Rep xs) (id : Nat) : ∀ (fuel lo hi : Nat), hi < xs.length → S.find id fuel lo hi = (ofList xs).find id fuel lo hi
  | 0, _, _, _ => rfl
  | fuel + 1, lo, hi, hh => by
      unfold find
      split
      · rename_i hle
        rw [findScan_list h id hle hh]
        apply M.bind_congr_ok
        intro r _
        cases r with
        | some p => rfl
        | none =>
            dsimp only
            rw [access_list h (i := lo + (hi - lo) / 2) (by omega), find_list h id fuel lo (lo + (hi - lo) / 2 - 1) (by omega),
              find_list h id fuel (lo + (hi - lo) / 2 + 1) hi hh]
      · rfl

theorem nextGeq_list (h : S.Rep xs) (x : Nat) : ∀ (fuel lo hi : Nat), hi < xs.length → S.nextGeq x fuel lo hi = (ofList xs).nextGeq x fuel lo hi
  | 0, _, _, _ => rfl
  | fuel + 1, lo, hi, hh => by
      unfold nextGeq
      split
      · split
        · obtain ⟨I, J, i1, i2, i3⟩ := h.iter
          obtain ⟨it, a1, a2⟩ := i1 lo (by omega)
          rw [a1, M.ok_bind, scanGe_list x I J i2 i3 _ _ _ (by omega) (fun _ => a2)]
          rfl
        · dsimp only
          have hh' : (if (lo + hi) / 2 ≠ 0 then (lo + hi) / 2 - 1 else 0) < xs.length := by split <;> omega
          rw [access_list h (i := (lo + hi) / 2) (by omega), access_list h hh', nextGeq_list h x fuel lo _ hh', nextGeq_list h x fuel _ hi hh]
      · rfl

/-- what `nextGeq` finds is in the range -/
theorem nextGeq_list_lt (x : Nat) : ∀ (fuel lo hi p : Nat), hi < xs.length → (ofList xs).nextGeq x fuel lo hi = .ok p → p = NOT_FOUND ∨ p < xs.length
  | 0, _, _, _, _, h => by cases h
  | fuel + 1, lo, hi, p, hh, h => by
      have hscan : ∀ (n pos : Nat) (r : Option Nat), pos + n ≤ xs.length → (ofList xs).scanGe x n pos pos = .ok r → ∀ q, r = some q → q < xs.length := by
        intro n
        induction n with
        | zero => intro pos r _ h q hq; cases h; cases hq
        | succ n ih =>
            intro pos r hn h q hq
            rw [ofList_scanGe _ _ (by omega)] at h
            split at h
            · cases h; cases hq; omega
            · exact ih _ _ (by omega) h q hq
      unfold nextGeq at h
      split at h
      · split at h
        · obtain ⟨it, e1, h⟩ := bind_ok h
          cases e1
          obtain ⟨r, e2, h⟩ := bind_ok h
          cases h
          cases r with
          | none => exact Or.inl rfl
          | some q => exact Or.inr (hscan _ _ _ (by omega) e2 q rfl)
        · dsimp only at h
          have hh' : (if (lo + hi) / 2 ≠ 0 then (lo + hi) / 2 - 1 else 0) < xs.length := by split <;> omega
          obtain ⟨v, e1, h⟩ := bind_ok h
          split at h
          · obtain ⟨w, e2, h⟩ := bind_ok h
            split at h
            · cases h; right; omega
            · exact nextGeq_list_lt x fuel lo _ p hh' h
          · split at h
            · exact nextGeq_list_lt x fuel _ hi p hh h
            · cases h; right; omega
      · cases h; exact Or.inl rfl

theorem findIn_list (h : S.Rep xs) {r : Range} (hlt : r.b < r.e) (hle : r.e ≤ xs.length) (id : Nat) : S.findIn r id = (ofList xs).findIn r id := by
  have hp : S.prevUpper r = (ofList xs).prevUpper r := by
    unfold prevUpper
    split
    · exact access_list h (by omega)
    · rfl
  unfold findIn lastIn
  rw [hp, if_neg (by omega)]
  apply M.bind_congr_ok
  intro u _
  rw [M.ok_bind, M.ok_bind]
  exact find_list h _ _ _ _ (by omega)

theorem findRange_list (h : S.Rep xs) {r : Range} (hlt : r.b < r.e) (hle : r.e ≤ xs.length) (lex : Range) :
    S.findRange r lex = (ofList xs).findRange r lex := by
  have hp : S.prevUpper r = (ofList xs).prevUpper r := by
    unfold prevUpper
    split
    · exact access_list h (by omega)
    · rfl
  unfold findRange lastIn
  rw [hp, if_neg (by omega)]
  apply M.bind_congr_ok
  intro u _
  rw [M.ok_bind, M.ok_bind, nextGeq_list h _ _ _ _ (by omega : r.e - 1 < xs.length)]
  apply M.bind_congr_ok
  intro b hb
  split
  · rfl
  · rename_i hnf
    have hbl := (nextGeq_list_lt _ _ _ _ _ (by omega) hb).resolve_left hnf
    rw [access_list h hbl]
    apply M.bind_congr_ok
    intro v _
    split
    · rfl
    · split
      · rfl
      · unfold findRangeEnd
        rw [nextGeq_list h _ _ _ _ (by omega : r.e - 1 < xs.length)]
        apply M.bind_congr_ok
        intro e he
        split
        · rfl
        · rename_i hnf'
          rw [access_list h ((nextGeq_list_lt _ _ _ _ _ (by omega) he).resolve_left hnf')]

end Seq

namespace EF

theorem seq_list {e : EF} {vs : List W} (h : e.RepD vs) {r : Range} (hlt : r.b < r.e) (hle : r.e ≤ vs.length) (hs : vs.length < 2 ^ 32) :
    (∀ id, e.findInD r id = e.seq.findIn r id) ∧ ∀ lex, e.findRangeD r lex = e.seq.findRange r lex := by
  have h1 := EF.seq_rep h.rep
  have h2 := seqD_rep h
  have hv : r.validAssert := by unfold Range.validAssert NOT_FOUND; omega
  refine ⟨fun id => ?_, fun lex => ?_⟩
  · unfold findInD
    rw [check_bind hv, check_bind (by rw [h.rep.size]; exact hle), Seq.findIn_list h1 hlt (by simpa using hle), Seq.findIn_list h2 hlt (by simpa using hle)]
  · unfold findRangeD
    rw [check_bind hv, check_bind (by rw [h.rep.size]; exact hle), Seq.findRange_list h1 hlt (by simpa using hle),
      Seq.findRange_list h2 hlt (by simpa using hle)]

end EF

/-! ## Integer codes -/

theorem BI.fillBufA_eq (v : BV) (b : BI) (h : b.pos < v.size) : b.fillBufA v = b.fillBuf v := by
  unfold BI.fillBufA BI.fillBuf BV.getWord64D
  rw [check_bind h]

theorem BI.skipLoopA_eq (v : BV) (q : Nat) (hq : q < v.size) (hq' : q < 64 * v.bits.length) (hfq : bitAt v.bits q = true) :
    ∀ (fuel zs : Nat) (b : BI), b.Inv v → b.pos ≤ q → (∀ i, b.pos ≤ i → i < q → bitAt v.bits i = false) →
      BI.skipLoopA v fuel zs b = BI.skipLoop v fuel zs b ∧ ∀ zs' b', BI.skipLoop v fuel zs b = .ok (zs', b') → b'.buf ≠ 0
  | 0, _, _, _, _, _ => ⟨rfl, fun _ _ h => by cases h⟩
  | fuel + 1, zs, b, h1, h2, h3 => by
      unfold BI.skipLoopA BI.skipLoop
      split
      · rename_i h0
        have hnb : ∀ j, j < b.avail → bitAt v.bits (b.pos + j) = false := by
          intro j hj
          have := h1.buf j (by have := h1.avail; omega)
          rw [h0] at this
          simpa [hj] using this.symm
        have hpa : b.pos + b.avail ≤ q := by
          apply Nat.le_of_not_lt
          intro hlt
          have := hnb (q - b.pos) (by omega)
          rw [show b.pos + (q - b.pos) = q by omega, hfq] at this
          cases this
        obtain ⟨b', g1, g2, g3, g4⟩ := BI.fillBuf_spec v { b with pos := b.pos + b.avail, avail := 0 } (by simp only; omega)
        dsimp only at g2 ⊢
        rw [BI.fillBufA_eq v _ (by simp only; omega), g1, M.ok_bind, M.ok_bind]
        exact BI.skipLoopA_eq v q hq hq' hfq fuel _ b' g4 (by omega) (fun i i1 i2 => h3 i (by omega) i2)
      · rename_i h0
        refine ⟨rfl, fun zs' b' h => ?_⟩
        cases h
        exact h0

theorem readGammaA_eq (v : BV) (b : BI) (n : W) (hi : b.Inv v) (hg : GammaAt v.bits b.pos n) (hend : b.pos + gammaLen n ≤ v.size)
    (hend' : b.pos + gammaLen n ≤ 64 * v.bits.length) : readGammaA v b = readGamma v b := by
  unfold GammaAt at hg
  unfold gammaLen at hend hend'
  simp only at hg
  obtain ⟨g0, g1, g2, g3⟩ := hg
  obtain ⟨h1, h2, h3⟩ := log2_bits _ g0
  have hmin : ∀ i, b.pos ≤ i → i < b.pos + msbNat (n + 1).toNat → bitAt v.bits i = false := by
    intro i i1 i2
    have := g1 (i - b.pos) (by omega)
    rwa [show b.pos + (i - b.pos) = i by omega] at this
  obtain ⟨k1, k2⟩ := BI.skipLoopA_eq v (b.pos + msbNat (n + 1).toNat) (by omega) (by omega) g2 (v.bits.length + 2) 0 b hi (by omega) hmin
  have hskip : b.skipZerosA v = b.skipZeros v := by
    unfold BI.skipZerosA BI.skipZeros
    rw [k1]
    apply M.bind_congr_ok
    rintro ⟨zs, b'⟩ hb'
    dsimp only
    rw [check_bind (k2 zs b' hb')]
  obtain ⟨b1, s1, s2, s3⟩ := BI.skipZeros_spec v b (b.pos + msbNat (n + 1).toNat) hi (by omega) g2 (by omega) hmin
  rw [show b.pos + msbNat (n + 1).toNat - b.pos = msbNat (n + 1).toNat by omega] at s1
  unfold readGammaA readGamma
  rw [hskip, s1, M.ok_bind, M.ok_bind]
  dsimp only
  have hget : b1.getBitsA v (msbNat (n + 1).toNat) = b1.getBits v (msbNat (n + 1).toNat) := by
    unfold BI.getBitsA BI.getBits
    have : b1.refillA v (msbNat (n + 1).toNat) = b1.refill v (msbNat (n + 1).toNat) := by
      unfold BI.refillA BI.refill
      split
      · exact BI.fillBufA_eq v b1 (by omega)
      · rfl
    rw [this]
  rw [hget]

theorem writeGammaA_eq (b : BVB) (n : W) (hn : n + 1 ≠ 0) : writeGammaA b n = writeGamma b n := by
  obtain ⟨h1, h2, h3⟩ := log2_bits _ hn
  have hne : (n + 1).toNat ≠ 0 := by
    intro h0
    exact hn (BitVec.eq_of_toNat_eq (by rw [h0]; rfl))
  have ha : ∀ (b : BVB) (x : W) (len : Nat), x.toNat < 2 ^ len → b.appendBitsD x len = .ok (b.appendBits x len) := by
    intro b x len hx
    unfold BVB.appendBitsD
    split
    · rename_i h0
      unfold BVB.appendBits
      rw [if_pos h0]
    · rw [check_bind (fits_of_lt hx)]
  unfold writeGammaA writeGamma msbNatD
  dsimp only
  rw [if_neg hn, check_bind hne, M.ok_bind, ha _ _ _ (hb_lt _ h1), M.ok_bind, ha _ _ _ (code_low_lt _ hn)]

/-- reading a posting list -/
theorem readListA_eq {v : BV} {p u : Nat} {vs : List Nat} (h : ListAt v.bits p u vs) (hs : listEnd p u vs ≤ v.size) :
    readGammaNonzeroA v (BI.mk' p) = readGammaNonzero v (BI.mk' p) := by
  have hle := h.le_end
  have hf := h.list.fits
  have hp : (BI.mk' p).pos = p := rfl
  unfold readGammaNonzeroA readGammaNonzero
  rw [readGammaA_eq v (BI.mk' p) (lenW vs) (BI.mk'_inv v p) h.len (by rw [hp]; omega) (by rw [hp]; unfold listEnd at hle; omega)]

/-- writing a posting list -/
theorem writeLenA_eq {u : Nat} {vs : List Nat} (h : CEF.Valid u vs) (b : BVB) :
    writeGammaNonzeroA b (BitVec.ofNat 64 vs.length) = writeGammaNonzero b (BitVec.ofNat 64 vs.length) := by
  have hn : 0 < vs.length := List.length_pos_iff.mpr h.ne
  have := h.small
  unfold writeGammaNonzeroA writeGammaNonzero
  rw [check_bind (by rw [BitVec.toNat_ofNat, Nat.mod_eq_of_lt (by omega)]; exact hn)]
  exact writeGammaA_eq b _ (lenW_ne h)

end AC
