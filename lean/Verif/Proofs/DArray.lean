import Verif.Proofs.BitRead
import Verif.Model.DArray
/-! # Select by sampling -/
namespace AC

/-- the bits seen through the getter -/
def seen (neg : Bool) (bits : List W) (i : Nat) : Bool := bitAt bits i ^^ neg

theorem getter_getLsbD (neg : Bool) (w : W) (j : Nat) (hj : j < 64) :
    (DA.getter neg w).getLsbD j = (w.getLsbD j ^^ neg) := by
  unfold DA.getter
  cases neg
  · simp
  · simp [hj]

theorem filter_range_step (f : Nat → Bool) (p l : Nat) (h0 : ∀ j, p ≤ j → j < p + l → f j = false)
    : (List.range (p + l)).filter f = (List.range p).filter f := by
  induction l with
  | zero => rfl
  | succ l ih =>
      rw [show p + (l + 1) = (p + l) + 1 by omega, List.range_succ, List.filter_append,
        ih (fun j h1 h2 => h0 j h1 (by omega))]
      simp [h0 (p + l) (by omega) (by omega)]

theorem filter_range_sorted (f : Nat → Bool) (n : Nat) : ((List.range n).filter f).Pairwise (· < ·) :=
  (List.pairwise_lt_range (n := n)).sublist List.filter_sublist

namespace DA

/-- the sampled positions `qs` are represented -/
structure Good (d : DA) (qs : List Nat) : Prop where
  blen : d.blocks.length = (qs.length + 1023) / 1024
  slen : d.subs.length = (qs.length + 31) / 32
  data : ∀ i (_ : i < qs.length), ∃ b, d.blocks[i / 1024]? = some b ∧
    (0 ≤ b → ∃ s, d.subs[i / 32]? = some s ∧ ∃ h : i / 32 * 32 < qs.length, b.toNat + s = qs[i / 32 * 32]) ∧
    (b < 0 → d.over[(-b - 1).toNat + i % 1024]? = some qs[i])
  olen : ∀ b, d.blocks.getLast? = some b → b < 0 → (-b - 1).toNat + (qs.length - 1) % 1024 + 1 = d.over.length

theorem headD_le_getLastD (L : List Nat) (hs : L.Pairwise (· < ·)) (i : Nat) (hi : i < L.length) :
    L.headD 0 ≤ L[i] ∧ L[i] ≤ L.getLastD 0 ∧ L.headD 0 = L[0]'(by omega) := by
  have h0 : L.headD 0 = L[0]'(by omega) := by
    cases L with
    | nil => simp at hi
    | cons a L => rfl
  have hl : L.getLastD 0 = L[L.length - 1]'(by omega) := by
    rw [List.getLastD_eq_getLast?, List.getLast?_eq_getElem?, List.getElem?_eq_getElem (by omega)]; rfl
  rw [h0, hl]
  rw [List.pairwise_iff_getElem] at hs
  refine ⟨?_, ?_, rfl⟩
  · rcases Nat.eq_zero_or_pos i with h | h
    · subst h; exact Nat.le_refl _
    · exact Nat.le_of_lt (hs 0 i (by omega) hi h)
  · rcases Nat.lt_or_ge i (L.length - 1) with h | h
    · exact Nat.le_of_lt (hs i (L.length - 1) hi (by omega) h)
    · have : i = L.length - 1 := by omega
      subst this; exact Nat.le_refl _

theorem flush_good (s : St) (qs : List Nat) (h : Good s.da qs) (hq : qs.length % 1024 = 0) (hc0 : s.cur ≠ [])
    (hc : s.cur.length ≤ 1024) (hs : s.cur.Pairwise (· < ·)) :
    Good (flush s).da (qs ++ s.cur) ∧ (flush s).cur = [] ∧ (flush s).da.positions = s.da.positions := by
  have hlen : 0 < s.cur.length := by cases hh : s.cur <;> simp_all
  have hb := h.blen
  have hsl := h.slen
  -- old entries are not affected
  have old : ∀ (d : DA) (B : List Int) (S O : List Nat), d.blocks = s.da.blocks ++ B → d.subs = s.da.subs ++ S →
      d.over = s.da.over ++ O → ∀ i (hi : i < qs.length), ∃ b, d.blocks[i / 1024]? = some b ∧
    (0 ≤ b → ∃ s', d.subs[i / 32]? = some s' ∧ ∃ h : i / 32 * 32 < (qs ++ s.cur).length,
      b.toNat + s' = (qs ++ s.cur)[i / 32 * 32]) ∧
    (b < 0 → d.over[(-b - 1).toNat + i % 1024]? = some ((qs ++ s.cur)[i]'(by simp; omega))) := by
    intro d B S O e1 e2 e3 i hi
    obtain ⟨b, b1, b2, b3⟩ := h.data i hi
    refine ⟨b, ?_, ?_, ?_⟩
    · rw [e1, List.getElem?_append_left (by omega)]; exact b1
    · intro hb0
      obtain ⟨s', c1, c2, c3⟩ := b2 hb0
      refine ⟨s', ?_, by simp; omega, ?_⟩
      · rw [e2, List.getElem?_append_left (by omega)]; exact c1
      · rw [List.getElem_append_left c2]; exact c3
    · intro hb0
      have := b3 hb0
      obtain ⟨hlt, _⟩ := List.getElem?_eq_some_iff.mp this
      rw [e3, List.getElem?_append_left hlt, this, List.getElem_append_left hi]
  unfold flush
  simp only
  split
  · rename_i hdist
    refine ⟨⟨?_, ?_, ?_, ?_⟩, by simp, by simp⟩
    · simp only [List.length_append, List.length_cons, List.length_nil, hb]; omega
    · simp only [List.length_append, List.length_map, List.length_range, hsl, ceilDiv, subblockSize]; omega
    rotate_left
    · intro b hb1 hb2
      simp only [List.getLast?_concat, Option.some.injEq] at hb1
      omega
    · intro i hi
      rw [List.length_append] at hi
      by_cases hiq : i < qs.length
      · exact old _ _ _ [] rfl rfl (by simp) i hiq
      · refine ⟨(s.cur.headD 0 : Int), ?_, ?_, ?_⟩
        · simp only
          rw [List.getElem?_append_right (by omega), show i / 1024 - s.da.blocks.length = 0 by omega]; rfl
        · intro _
          have hj : i / 32 * 32 - qs.length < s.cur.length := by omega
          refine ⟨(s.cur.getD (i / 32 * 32 - qs.length) 0 - s.cur.headD 0) % 2 ^ 16, ?_, by simp; omega, ?_⟩
          · simp only
            rw [List.getElem?_append_right (by omega), List.getElem?_map, List.getElem?_map, List.getElem?_range
              (by unfold ceilDiv subblockSize; omega)]
            simp only [Option.map_some, subblockSize]
            rw [show 32 * (i / 32 - s.da.subs.length) = i / 32 * 32 - qs.length by omega]
          · obtain ⟨f1, f2, f3⟩ := headD_le_getLastD s.cur hs _ hj
            rw [List.getElem_append_right (by omega), List.getD_eq_getElem?_getD, List.getElem?_eq_getElem hj]
            simp only [Option.getD_some, Int.toNat_natCast]
            unfold maxInBlockDistance at hdist
            rw [Nat.mod_eq_of_lt (by omega)]
            omega
        · intro hneg; omega
  · rename_i hdist
    refine ⟨⟨?_, ?_, ?_, ?_⟩, by simp, by simp⟩
    · simp only [List.length_append, List.length_cons, List.length_nil, hb]; omega
    · simp only [List.length_append, List.length_map, List.length_range, hsl, ceilDiv, subblockSize]; omega
    rotate_left
    · intro b hb1 hb2
      simp only [List.getLast?_concat, Option.some.injEq] at hb1
      simp only [List.length_append]
      omega
    · intro i hi
      rw [List.length_append] at hi
      by_cases hiq : i < qs.length
      · exact old _ _ _ _ rfl rfl rfl i hiq
      · refine ⟨-(s.da.over.length : Int) - 1, ?_, ?_, ?_⟩
        · simp only
          rw [List.getElem?_append_right (by omega), show i / 1024 - s.da.blocks.length = 0 by omega]; rfl
        · intro hneg; omega
        · intro _
          simp only
          rw [show (-(-(s.da.over.length : Int) - 1) - 1).toNat = s.da.over.length by omega,
            List.getElem?_append_right (by omega), List.getElem_append_right (by omega), List.getElem?_eq_getElem (by omega)]
          congr 2; omega

/-- state of the constructor after the positions `ps` -/
structure Inv (s : St) (ps : List Nat) : Prop where
  ex : ∃ qs, ps = qs ++ s.cur ∧ qs.length % 1024 = 0 ∧ Good s.da qs
  lt : s.cur.length < 1024
  pos : s.da.positions = ps.length

theorem push_inv (s : St) (ps : List Nat) (p : Nat) (h : Inv s ps) (hs : (ps ++ [p]).Pairwise (· < ·)) :
    Inv (push s p) (ps ++ [p]) := by
  obtain ⟨qs, e, hq, hg⟩ := h.ex
  have hlt := h.lt
  unfold push
  simp only
  split
  · rename_i hl
    have hsorted : (s.cur ++ [p]).Pairwise (· < ·) := by
      rw [e, List.append_assoc] at hs
      exact (List.pairwise_append.mp hs).2.1
    obtain ⟨g1, g2, g3⟩ := flush_good ⟨s.cur ++ [p], s.da⟩ qs hg hq (by simp) (by unfold blockSize at hl; simp only; omega) hsorted
    refine ⟨⟨qs ++ (s.cur ++ [p]), ?_, ?_, ?_⟩, ?_, ?_⟩
    · rw [g2, e]; simp
    · rw [List.length_append, hl]; unfold blockSize; omega
    · exact ⟨g1.blen, g1.slen, g1.data, g1.olen⟩
    · rw [g2]; simp
    · simp only [g3, h.pos, List.length_append, List.length_cons, List.length_nil]
  · rename_i hl
    refine ⟨⟨qs, by simp [e], hq, ⟨hg.blen, hg.slen, hg.data, hg.olen⟩⟩, ?_, ?_⟩
    · simp only [List.length_append, List.length_cons, List.length_nil, blockSize] at hl ⊢; omega
    · simp only [h.pos, List.length_append, List.length_cons, List.length_nil]

theorem wordLoop_spec (f : Nat → Bool) (size e : Nat) :
    ∀ (fuel pos : Nat) (word : W) (s : St), pos ≤ e → e < pos + fuel → pos ≤ size → e ≤ pos + 64 →
      (∀ j, j < 64 → word.getLsbD j = (f (pos + j) && decide (pos + j < e))) →
      Inv s ((List.range pos).filter f) →
      ∃ s', wordLoop size fuel pos word s = .ok s' ∧ Inv s' ((List.range (min e size)).filter f) := by
  intro fuel
  induction fuel with
  | zero => intro pos word s h1 h2; omega
  | succ fuel ih =>
      intro pos word s h1 h2 h3 h4 hw hi
      unfold wordLoop
      cases hl : word.lsb with
      | none =>
          refine ⟨s, rfl, ?_⟩
          have h0 := W.lsb_none word hl
          have : ∀ j, pos ≤ j → j < pos + (min e size - pos) → f j = false := by
            intro j h5 h6
            have := hw (j - pos) (by omega)
            rw [h0, show pos + (j - pos) = j by omega, decide_eq_true (show j < e by omega)] at this
            simpa using this.symm
          rw [← filter_range_step f pos _ this, show pos + (min e size - pos) = min e size by omega] at hi
          exact hi
      | some l =>
          obtain ⟨l1, l2, l3⟩ := W.lsb_some word l hl
          rw [hw l l1] at l2
          simp only [Bool.and_eq_true, decide_eq_true_eq] at l2
          have hz : ∀ j, pos ≤ j → j < pos + l → f j = false := by
            intro j h5 h6
            have h7 := l3 (j - pos) (by omega)
            rw [hw (j - pos) (by omega), show pos + (j - pos) = j by omega, decide_eq_true (show j < e by omega)] at h7
            simpa using h7
          simp only
          split
          · rename_i hge
            refine ⟨s, rfl, ?_⟩
            rw [← filter_range_step f pos (min e size - pos) (fun j h5 h6 => hz j h5 (by omega)),
              show pos + (min e size - pos) = min e size by omega] at hi
            exact hi
          · rename_i hge
            have hnew : (List.range (pos + l + 1)).filter f = (List.range pos).filter f ++ [pos + l] := by
              rw [List.range_succ, List.filter_append, filter_range_step f pos l hz]
              simp [l2.1]
            apply ih (pos + l + 1) _ _ (by omega) (by omega) (by omega) (by omega)
            · intro j hj
              rw [BitVec.getLsbD_ushiftRight, BitVec.getLsbD_ushiftRight]
              by_cases h5 : l + (1 + j) < 64
              · rw [hw _ h5]
                have : pos + (l + (1 + j)) = pos + l + 1 + j := by omega
                rw [this]
              · rw [getLsbD_ge _ _ (by omega), decide_eq_false (show ¬ pos + l + 1 + j < e by omega)]; simp
            · rw [hnew]
              apply push_inv _ _ _ hi
              rw [← hnew]
              exact filter_range_sorted f _

theorem wordsLoop_spec (neg : Bool) (bits : List W) (size : Nat) :
    ∀ (ws : List W) (k : Nat) (s : St), k + ws.length = bits.length → ws = bits.drop k →
      Inv s ((List.range (min (64 * k) size)).filter (seen neg bits)) →
      ∃ s', wordsLoop neg size k ws s = .ok s' ∧
        Inv s' ((List.range (min (64 * bits.length) size)).filter (seen neg bits)) := by
  intro ws
  induction ws with
  | nil =>
      intro k s h1 h2 hi
      refine ⟨s, rfl, ?_⟩
      simp at h1
      rw [← h1]; exact hi
  | cons w ws ih =>
      intro k s h1 h2 hi
      simp only [List.length_cons] at h1
      have hk : k < bits.length := by omega
      rw [List.drop_eq_getElem_cons hk] at h2
      obtain ⟨rfl, h3⟩ := List.cons.inj h2
      unfold wordsLoop
      have hstep : ∃ s', wordLoop size 65 (64 * k) (getter neg bits[k]) s = .ok s' ∧
          Inv s' ((List.range (min (64 * (k + 1)) size)).filter (seen neg bits)) := by
        have hw : ∀ j, j < 64 → (getter neg bits[k]).getLsbD j = seen neg bits (64 * k + j) := by
          intro j hj
          rw [getter_getLsbD _ _ _ hj, bitAt_word _ _ _ hk hj]; rfl
        by_cases hsz : 64 * k ≤ size
        · apply wordLoop_spec (seen neg bits) size (64 * (k + 1)) 65 (64 * k) _ s (by omega) (by omega) hsz (by omega)
          · intro j hj
            rw [hw j hj, decide_eq_true (by omega)]; simp
          · rw [Nat.min_eq_left hsz] at hi; exact hi
        · have e1 : min (64 * k) size = size := by omega
          have e2 : min (64 * (k + 1)) size = size := by omega
          rw [e1] at hi
          rw [e2]
          unfold wordLoop
          cases (getter neg bits[k]).lsb with
          | none => exact ⟨s, rfl, hi⟩
          | some l =>
              simp only
              rw [if_pos (by omega)]
              exact ⟨s, rfl, hi⟩
      obtain ⟨s', s1, s2⟩ := hstep
      simp only [s1, M.ok_bind]
      exact ih (k + 1) s' (by omega) h3 s2

/-- what a built index represents -/
structure Rep (neg : Bool) (d : DA) (v : BV) : Prop where
  good : Good d ((List.range v.size).filter (seen neg v.bits))
  pos : d.positions = cnt (seen neg v.bits) v.size

theorem build_spec (neg : Bool) (v : BV) (hv : v.size ≤ 64 * v.bits.length) :
    ∃ d, build neg v = .ok d ∧ Rep neg d v := by
  obtain ⟨s, s1, s2⟩ := wordsLoop_spec neg v.bits v.size v.bits 0 ⟨[], ⟨0, [], [], []⟩⟩ (by omega) (by simp)
    (by
      refine ⟨⟨[], by simp, by simp, ⟨by simp, by simp, by simp, by simp⟩⟩, by simp, by simp⟩)
  rw [Nat.min_eq_right hv] at s2
  obtain ⟨qs, e, hq, hg⟩ := s2.ex
  have hp := s2.pos
  rw [filter_range_length] at hp
  unfold build
  rw [s1]
  simp only [M.ok_bind]
  split
  · rename_i hne
    have hsorted := filter_range_sorted (seen neg v.bits) v.size
    rw [e] at hsorted
    obtain ⟨g1, _, g3⟩ := flush_good s qs hg hq (by intro h; simp [h] at hne) (by have := s2.lt; omega)
      (List.pairwise_append.mp hsorted).2.1
    exact ⟨_, rfl, by rw [e]; exact g1, by rw [g3]; exact hp⟩
  · rename_i hne
    have : s.cur = [] := by simpa using hne
    rw [this, List.append_nil] at e
    exact ⟨_, rfl, by rw [e]; exact hg, hp⟩

theorem selLoop_spec (neg : Bool) (bits : List W) (h : Nat → Bool) (r q : Nat) (hq : q < 64 * bits.length)
    (hsel : IsSelect h r q) :
    ∀ (fuel k : Nat) (word : W) (rem : Nat), k ≤ q / 64 → q / 64 < k + fuel → rem + cnt h (64 * k) = r →
      (∀ j, j < 64 → word.getLsbD j = h (64 * k + j)) →
      (∀ i, 64 * k + 64 ≤ i → i < 64 * bits.length → h i = seen neg bits i) →
      ∃ word' rem', selLoop neg bits fuel k word rem = .ok (q / 64, word', rem') ∧
        rem' < word'.popcount ∧ IsSelect (word'.getLsbD) rem' (q % 64) := by
  intro fuel
  induction fuel with
  | zero => intro k word rem h1 h2; omega
  | succ fuel ih =>
      intro k word rem h1 h2 h3 h4 h5
      have hpc : word.popcount + cnt h (64 * k) = cnt h (64 * k + 64) := by
        rw [W.popcount_eq, cnt_add, cnt_congr (g := fun i => h (64 * k + i)) h4]; omega
      unfold selLoop
      split
      · rename_i hlt
        have hqlt : q < 64 * k + 64 := by
          apply hsel.lt_of_lt_cnt; omega
        have hk : q / 64 = k := by omega
        refine ⟨word, rem, by rw [hk], hlt, ?_, ?_⟩
        · rw [h4 _ (by omega), ← hk, show 64 * (q / 64) + q % 64 = q by omega]; exact hsel.1
        · rw [cnt_congr (g := fun i => h (64 * k + i)) (fun i hi => h4 i (by omega))]
          have := cnt_add h (64 * k) (q % 64)
          rw [show 64 * k + q % 64 = q by omega, hsel.2] at this
          omega
      · rename_i hge
        have hqge : 64 * k + 64 ≤ q := by
          apply Nat.le_of_not_lt
          intro hlt
          have := hsel.lt_cnt hlt
          omega
        have hk1 : k + 1 < bits.length := by omega
        simp only [rd_ok hk1, M.ok_bind]
        apply ih (k + 1) _ _ (by omega) (by omega)
        · rw [show 64 * (k + 1) = 64 * k + 64 by omega]; omega
        · intro j hj
          rw [getter_getLsbD _ _ _ hj, bitAt_word _ _ _ hk1 hj, h5 _ (by omega) (by omega)]; rfl
        · intro i hi1 hi2
          exact h5 i (by omega) hi2

theorem select_spec {neg : Bool} {d : DA} {v : BV} (hr : Rep neg d v) (hv : v.size ≤ 64 * v.bits.length) (idx : Nat)
    (hidx : idx < cnt (seen neg v.bits) v.size) :
    ∃ q, select neg d v idx = .ok q ∧ q < v.size ∧ IsSelect (seen neg v.bits) idx q := by
  obtain ⟨q, q1, q2, q3⟩ := filter_range_select _ _ _ hidx
  obtain ⟨hlt, q1'⟩ := List.getElem?_eq_some_iff.mp q1
  obtain ⟨b, b1, b2, b3⟩ := hr.good.data idx hlt
  refine ⟨q, ?_, q2, q3⟩
  unfold select
  rw [show idx / blockSize = idx / 1024 from rfl, rd_of_getElem? b1]
  simp only [M.ok_bind]
  split
  · rename_i hneg
    have := b3 hneg
    rw [q1'] at this
    rw [show idx % blockSize = idx % 1024 from rfl, rd_of_getElem? this]
  · rename_i hneg
    obtain ⟨s, c1, c2, c3⟩ := b2 (by omega)
    rw [show idx / subblockSize = idx / 32 from rfl, rd_of_getElem? c1]
    simp only [M.ok_bind]
    rw [c3, show idx % subblockSize = idx % 32 from rfl]
    obtain ⟨p, p1, p2, p3⟩ := filter_range_select (seen neg v.bits) v.size (idx / 32 * 32) (by omega)
    have hp : ((List.range v.size).filter (seen neg v.bits))[idx / 32 * 32] = p := by
      rw [List.getElem?_eq_getElem c2] at p1; exact Option.some.inj p1
    rw [hp]
    split
    · rename_i hrem
      have : p = q := p3.unique (by rw [show idx / 32 * 32 = idx by omega]; exact q3)
      rw [this]
    · rename_i hrem
      have hk : p / 64 < v.bits.length := by omega
      simp only [rd_ok hk, M.ok_bind]
      have hcz : cnt (fun i => seen neg v.bits i && decide (p ≤ i)) p = 0 :=
        cnt_zero (fun i hi => by rw [decide_eq_false (by omega)]; simp)
      have hcnt : ∀ n, cnt (fun i => seen neg v.bits i && decide (p ≤ i)) (p + n) + cnt (seen neg v.bits) p =
          cnt (seen neg v.bits) (p + n) := by
        intro n
        rw [cnt_add, cnt_add, hcz]
        rw [cnt_congr (f := fun i => seen neg v.bits (p + i) && decide (p ≤ p + i))
          (g := fun i => seen neg v.bits (p + i)) (fun i hi => by rw [decide_eq_true (by omega)]; simp)]
        omega
      have hpq : p < q := by
        apply Nat.lt_of_not_le
        intro hle
        have := cnt_mono (seen neg v.bits) hle
        rw [q3.2, p3.2] at this; omega
      have hsel : IsSelect (fun i => seen neg v.bits i && decide (p ≤ i)) (idx % 32) q := by
        refine ⟨?_, ?_⟩
        · simp only; rw [q3.1, decide_eq_true (by omega)]; rfl
        · have := hcnt (q - p)
          rw [show p + (q - p) = q by omega, q3.2, p3.2] at this
          omega
      obtain ⟨word, rem, w1, w2, w3⟩ := selLoop_spec neg v.bits _ _ q (by omega) hsel (v.bits.length + 1) (p / 64)
        (getter neg v.bits[p / 64] &&& (W.all <<< (p % 64))) (idx % 32) (by omega) (by omega)
        (by
          rw [cnt_zero]
          · rfl
          · intro i hi; rw [decide_eq_false (by omega)]; simp)
        (by
          intro j hj
          rw [BitVec.getLsbD_and, getter_getLsbD _ _ _ hj, bitAt_word _ _ _ hk hj, all_shl_getLsbD,
            decide_eq_true (show j < 64 from hj)]
          unfold seen
          by_cases hc : p % 64 ≤ j
          · rw [decide_eq_true hc, decide_eq_true (by omega)]; simp
          · rw [decide_eq_false hc, decide_eq_false (by omega)]; simp)
        (by
          intro i hi1 hi2
          rw [decide_eq_true (by omega)]; simp)
      rw [w1]
      simp only [M.ok_bind]
      have := (W.select_eq word rem w2).2.unique w3
      rw [this, show 64 * (q / 64) + q % 64 = q by omega]

/-- the loop finds no one after the last one -/
theorem selLoop_past (neg : Bool) (bits : List W) (h : Nat → Bool) (r : Nat) (hr : cnt h (64 * bits.length) ≤ r) :
    ∀ (fuel k : Nat) (word : W) (rem : Nat), k < bits.length → bits.length ≤ k + fuel → rem + cnt h (64 * k) = r →
      (∀ j, j < 64 → word.getLsbD j = h (64 * k + j)) →
      (∀ i, 64 * k + 64 ≤ i → i < 64 * bits.length → h i = seen neg bits i) →
      selLoop neg bits fuel k word rem = .error .oob := by
  intro fuel
  induction fuel with
  | zero => intro k word rem h1 h2; omega
  | succ fuel ih =>
      intro k word rem h1 h2 h3 h4 h5
      have hpc : word.popcount + cnt h (64 * k) = cnt h (64 * k + 64) := by
        rw [W.popcount_eq, cnt_add, cnt_congr (g := fun i => h (64 * k + i)) h4]; omega
      have hle := cnt_mono h (show 64 * k + 64 ≤ 64 * bits.length by omega)
      unfold selLoop
      rw [if_neg (by omega)]
      by_cases hk1 : k + 1 < bits.length
      · simp only [rd_ok hk1, M.ok_bind]
        apply ih (k + 1) _ _ (by omega) (by omega)
        · rw [show 64 * (k + 1) = 64 * k + 64 by omega]; omega
        · intro j hj
          rw [getter_getLsbD _ _ _ hj, bitAt_word _ _ _ hk1 hj, h5 _ (by omega) (by omega)]; rfl
        · intro i hi1 hi2
          exact h5 i (by omega) hi2
      · simp only [rd, List.getElem?_eq_none (show bits.length ≤ k + 1 by omega), M.error_bind]

/-- the position of a one that does not exist is looked for beyond the end -/
theorem select_past {neg : Bool} {d : DA} {v : BV} (hr : Rep neg d v) (hv : v.size ≤ 64 * v.bits.length)
    (hpad : ∀ i, v.size ≤ i → i < 64 * v.bits.length → seen neg v.bits i = false) :
    select neg d v (cnt (seen neg v.bits) v.size) = .error .oob := by
  generalize hn : cnt (seen neg v.bits) v.size = n
  have hlen : ((List.range v.size).filter (seen neg v.bits)).length = n := by rw [filter_range_length, hn]
  have hb := hr.good.blen
  have hs := hr.good.slen
  rw [hlen] at hb hs
  unfold select
  rw [show n / blockSize = n / 1024 from rfl, show n % blockSize = n % 1024 from rfl, show n / subblockSize = n / 32 from rfl,
    show n % subblockSize = n % 32 from rfl]
  by_cases h0 : n % 1024 = 0
  · simp only [rd, List.getElem?_eq_none (show d.blocks.length ≤ n / 1024 by omega), M.error_bind]
  · have a1 : (n - 1) / 1024 = n / 1024 := by omega
    have a2 : d.blocks.length - 1 = n / 1024 := by omega
    have a3 : ∀ x l, x + (n - 1) % 1024 + 1 = l → l ≤ x + n % 1024 := by intros; omega
    have a4 : n % 32 ≠ 0 → (n - 1) / 32 = n / 32 ∧ (n - 1) / 32 * 32 + n % 32 = n ∧ (n - 1) / 32 * 32 < n := by omega
    obtain ⟨b, b1, b2, b3⟩ := hr.good.data (n - 1) (by omega)
    clear b3
    rw [a1] at b1
    rw [rd_of_getElem? b1]
    simp only [M.ok_bind]
    split
    · rename_i hneg
      have := hr.good.olen b (by rw [List.getLast?_eq_getElem?, a2]; exact b1) hneg
      rw [hlen] at this
      simp only [rd, List.getElem?_eq_none (a3 _ _ this)]
    · rename_i hneg
      obtain ⟨s, c1, c2, c3⟩ := b2 (Int.not_lt.mp hneg)
      by_cases h1 : n % 32 = 0
      · simp only [rd, List.getElem?_eq_none (show d.subs.length ≤ n / 32 by omega), M.error_bind]
      · obtain ⟨a5, a6, a7⟩ := a4 h1
        rw [a5] at c1
        rw [rd_of_getElem? c1]
        simp only [M.ok_bind]
        rw [c3, if_neg h1]
        obtain ⟨p, p1, p2, p3⟩ := filter_range_select (seen neg v.bits) v.size ((n - 1) / 32 * 32) (by rw [hn]; exact a7)
        have hp : ((List.range v.size).filter (seen neg v.bits))[(n - 1) / 32 * 32] = p := by
          rw [List.getElem?_eq_getElem c2] at p1; exact Option.some.inj p1
        rw [hp]
        have hk : p / 64 < v.bits.length := by omega
        simp only [rd_ok hk, M.ok_bind]
        have hcz : cnt (fun i => seen neg v.bits i && decide (p ≤ i)) p = 0 :=
          cnt_zero (fun i hi => by rw [decide_eq_false (by omega)]; simp)
        have hcnt : ∀ n, cnt (fun i => seen neg v.bits i && decide (p ≤ i)) (p + n) + cnt (seen neg v.bits) p =
            cnt (seen neg v.bits) (p + n) := by
          intro n
          rw [cnt_add, cnt_add, hcz]
          rw [cnt_congr (f := fun i => seen neg v.bits (p + i) && decide (p ≤ p + i))
            (g := fun i => seen neg v.bits (p + i)) (fun i hi => by rw [decide_eq_true (by omega)]; simp)]
          omega
        have hall : cnt (seen neg v.bits) (64 * v.bits.length) = n := by
          have := cnt_add (seen neg v.bits) v.size (64 * v.bits.length - v.size)
          rw [show v.size + (64 * v.bits.length - v.size) = 64 * v.bits.length by omega, hn,
            cnt_zero (f := fun i => seen neg v.bits (v.size + i)) (fun i hi => hpad _ (by omega) (by omega))] at this
          omega
        have := hcnt (64 * v.bits.length - p)
        rw [show p + (64 * v.bits.length - p) = 64 * v.bits.length by omega, hall, p3.2] at this
        rw [selLoop_past neg v.bits (fun i => seen neg v.bits i && decide (p ≤ i)) (n % 32) (by omega) (v.bits.length + 1) (p / 64)
          (getter neg v.bits[p / 64] &&& (W.all <<< (p % 64))) (n % 32) hk (by omega)
          (by
            rw [cnt_zero]
            · rfl
            · intro i hi; rw [decide_eq_false (by omega)]; simp)
          (by
            intro j hj
            rw [BitVec.getLsbD_and, getter_getLsbD _ _ _ hj, bitAt_word _ _ _ hk hj, all_shl_getLsbD,
              decide_eq_true (show j < 64 from hj)]
            unfold seen
            by_cases hc : p % 64 ≤ j
            · rw [decide_eq_true hc, decide_eq_true (by omega)]; simp
            · rw [decide_eq_false hc, decide_eq_false (by omega)]; simp)
          (by
            intro i hi1 hi2
            rw [decide_eq_true (by omega)]; simp)]
        rfl

end DA
end AC
