import Verif.Proofs.TestsInverted
import Verif.Proofs.ConjQuery
import Verif.Props.TopK
/-!
# The tests of the list of documents
-/
namespace AC.Tests
open Spec

theorem unique_full : ∀ {l : List Nat}, l.Pairwise (· ≤ ·) → (unique l).length = l.length → unique l = l
  | [], _, _ => rfl
  | [_], _, _ => rfl
  | x :: y :: l, h, hl => by
      obtain ⟨h1, h2⟩ := List.pairwise_cons.mp h
      have h3 := (unique_spec h2).2.2
      unfold unique at hl ⊢
      split at hl
      · rename_i e; simp only [List.length_cons] at hl h3; omega
      · rename_i e
        rw [if_neg e]
        simp only [List.length_cons] at hl
        rw [unique_full h2 (by simp only [List.length_cons]; omega)]

/-- the values are all different iff none was dropped -/
theorem unique_length {l : List Nat} (h : l.Pairwise (· ≤ ·)) : (unique l).length = l.length ↔ l.Nodup := by
  obtain ⟨h1, h2, _⟩ := unique_spec h
  constructor
  · intro hl
    have := h1
    rw [unique_full h hl] at this
    exact inc_nodup this
  · intro hn
    have hs : l.Pairwise (· < ·) := (List.Pairwise.and h hn).imp fun ⟨a, b⟩ => by omega
    rw [inc_ext h1 hs h2]

theorem copyInto_spec {input : List Nat} {b : Nat} : ∀ (n i : Nat) (v : List Nat), b + i + n ≤ input.length → i + n ≤ v.length →
    ∃ v', copyInto input b n i v = .ok v' ∧ v'.length = v.length ∧ v'.take (i + n) = v.take i ++ (input.drop (b + i)).take n
  | 0, i, v, _, _ => ⟨v, rfl, rfl, by simp⟩
  | n + 1, i, v, h1, h2 => by
      unfold copyInto
      rw [rd_ok (show b + i < input.length by omega), M.ok_bind, wr_ok (show i < v.length by omega), M.ok_bind]
      obtain ⟨v', e1, e2, e3⟩ := copyInto_spec (input := input) (b := b) n (i + 1) (v.set i input[b + i]) (by omega) (by simpa using (by omega : i + 1 + n ≤ v.length))
      refine ⟨v', e1, by simpa using e2, ?_⟩
      rw [show i + (n + 1) = i + 1 + n by omega, e3, List.take_succ_eq_append_getElem (show i < (v.set i input[b + i]).length by rw [List.length_set]; omega), List.getElem_set_self,
        List.take_set_of_le (Nat.le_refl _), List.append_assoc, List.drop_eq_getElem_cons (show b + i < input.length by omega)]
      rfl

theorem valuesOk_spec {topk expected : List Nat} : ∀ (n i : Nat), i + n ≤ topk.length → i + n ≤ expected.length →
    valuesOk topk expected n i = .ok (decide ((topk.drop i).take n = (expected.drop i).take n))
  | 0, i, _, _ => by simp [valuesOk]
  | n + 1, i, h1, h2 => by
      unfold valuesOk
      rw [rd_ok (by omega), M.ok_bind, rd_ok (by omega), M.ok_bind, valuesOk_spec n (i + 1) (by omega) (by omega),
        List.drop_eq_getElem_cons (show i < topk.length by omega), List.drop_eq_getElem_cons (show i < expected.length by omega),
        List.take_succ_cons, List.take_succ_cons]
      by_cases h : topk[i] = expected[i]
      · rw [if_neg (by simpa using h)]; simp only [h, List.cons.injEq, true_and]
      · rw [if_pos (by simpa using h)]
        rw [decide_eq_false]
        simp only [List.cons.injEq, not_and]
        exact fun e => absurd e h

/-- the part of the list -/
abbrev part (v : List Nat) (b e : Nat) : List Nat := (v.drop b).take (e - b)

theorem part_length {v : List Nat} {b e : Nat} (hbe : b ≤ e) (he : e ≤ v.length) : (part v b e).length = e - b := by
  simp only [part, List.length_take, List.length_drop]; omega

theorem naiveTopk_plain (std : StdLib) {v expected : List Nat} {b e : Nat} (k : Nat) (hbe : b ≤ e) (he : e ≤ v.length) (hx : v.length ≤ expected.length) :
    ∃ x, naiveTopk std v b e k false expected = .ok (min k (e - b), x) ∧ x.length = expected.length ∧
      x.take (min k (e - b)) = (std.sort id (part v b e)).take k := by
  obtain ⟨v', e1, e2, e3⟩ := copyInto_spec (input := v) (b := b) (e - b) 0 expected (by omega) (by omega)
  rw [Nat.zero_add, List.take_zero, List.nil_append, Nat.add_zero] at e3
  change v'.take (e - b) = part v b e at e3
  have hl : (std.sort id (part v b e)).length = e - b := by rw [(std.sort_perm id _).length_eq, part_length hbe he]
  unfold naiveTopk
  dsimp only
  rw [e1, M.ok_bind, if_neg (by simp), e3]
  refine ⟨_, rfl, ?_, ?_⟩
  · rw [List.length_append, List.length_drop, hl]; omega
  · rw [List.take_append_of_le_length (by omega)]
    by_cases h : k ≤ e - b
    · rw [Nat.min_eq_left h]
    · rw [Nat.min_eq_right (by omega), List.take_of_length_le (by omega), List.take_of_length_le (by omega)]

theorem naiveTopk_uniq (std : StdLib) {v expected : List Nat} {b e : Nat} (k : Nat) (hbe : b ≤ e) (he : e ≤ v.length) (hx : v.length ≤ expected.length) :
    ∃ x, naiveTopk std v b e k true expected = .ok (min k (unique (std.sort id (part v b e))).length, x) ∧ x.length = expected.length ∧
      x.take (min k (unique (std.sort id (part v b e))).length) = (unique (std.sort id (part v b e))).take k := by
  obtain ⟨v', e1, e2, e3⟩ := copyInto_spec (input := v) (b := b) (e - b) 0 expected (by omega) (by omega)
  rw [Nat.zero_add, List.take_zero, List.nil_append, Nat.add_zero] at e3
  change v'.take (e - b) = part v b e at e3
  have hl : (std.sort id (part v b e)).length = e - b := by rw [(std.sort_perm id _).length_eq, part_length hbe he]
  have hu := (unique_spec (l := std.sort id (part v b e)) (std.sort_sorted id _)).2.2
  unfold naiveTopk
  dsimp only
  rw [e1, M.ok_bind, if_pos rfl, e3]
  refine ⟨_, rfl, ?_, ?_⟩
  · rw [List.length_append, List.length_drop]; omega
  · rw [List.take_append_of_le_length (by omega)]
    generalize unique (std.sort id (part v b e)) = l
    by_cases h : k ≤ l.length
    · rw [Nat.min_eq_left h]
    · rw [Nat.min_eq_right (by omega), List.take_of_length_le (Nat.le_refl _), List.take_of_length_le (by omega)]

/-- what the list returns -/
structure Serves (std : StdLib) (u : UL) (v : List Nat) : Prop where
  size : u.size = v.length
  plain : ∀ a b k (buf : List Nat), a ≤ b → b ≤ v.length → (1 ≤ k ∨ a = b) → min k (b - a) ≤ buf.length →
    ∃ buf', UL.topk std u a b k false buf = .ok (buf', min k (b - a)) ∧ buf'.length = buf.length ∧ IsSortedPrefix (part v a b) k (buf'.take (min k (b - a)))
  uniq : ∀ a b k (buf : List Nat), a ≤ b → b ≤ v.length → 1 ≤ k → k < b - a → k ≤ buf.length →
    ∃ buf' n, UL.topk std u a b k true buf = .ok (buf', n) ∧ buf'.length = buf.length ∧ n ≤ k ∧ IsTopK (fun x => x ∈ part v a b) k (buf'.take n)

theorem serves (std : StdLib) (v : List Nat) (after1 after2 : W) (hlen : v.length < 2 ^ 30 - 1) (hsmall : ∀ x ∈ v, x < 2 ^ 32) (hpos : ∃ x ∈ v, x ≠ 0) :
    ∃ u, UL.build v after1 after2 = .ok u ∧ Serves std u v := by
  obtain ⟨u, e1, e2, e3⟩ := Props.C14_topk std v after1 after2 hlen hsmall hpos
  obtain ⟨u', f1, f2⟩ := Props.C14_unique_partial std v after1 after2 hlen hsmall hpos
  rw [e1] at f1
  cases f1
  exact ⟨u, e1, e2, e3, f2⟩

theorem rangesOk_plain {std : StdLib} {u : UL} {v : List Nat} (h : Serves std u v) : ∀ (qs : List (Nat × Nat)) (topk expected : List Nat),
    (∀ q ∈ qs, q.1 ≤ q.2 ∧ q.2 ≤ v.length) → topk.length = MAX_K → expected.length = v.length → rangesOk std u v false qs topk expected = .ok true
  | [], _, _, _, _, _ => rfl
  | (b, e) :: qs, topk, expected, hq, ht, hx => by
      obtain ⟨h1, h2⟩ := hq (b, e) (List.mem_cons_self ..)
      dsimp only at h1 h2
      obtain ⟨x, e1, e2, e3⟩ := naiveTopk_plain std k h1 h2 (Nat.le_of_eq hx.symm)
      have hk : k = 10 := rfl
      have hm : MAX_K = 15 := rfl
      obtain ⟨t, f1, f2, f3⟩ := h.plain b e k topk h1 h2 (Or.inl (by decide)) (by omega)
      have hs := IsSortedPrefix.unique f3 ⟨_, std.sort_perm id _, std.sort_sorted id _, rfl⟩
      unfold rangesOk
      rw [e1, M.ok_bind]
      dsimp only
      rw [f1, M.ok_bind]
      dsimp only
      rw [if_neg (by simp), valuesOk_spec _ 0 (by omega) (by omega), List.drop_zero, List.drop_zero, hs, e3, M.ok_bind,
        if_pos (by simp), rangesOk_plain h qs t x (fun q hq' => hq q (List.mem_cons_of_mem _ hq')) (by omega) (by omega)]

theorem rangesOk_uniq {std : StdLib} {u : UL} {v : List Nat} (h : Serves std u v) : ∀ (qs : List (Nat × Nat)) (topk expected : List Nat),
    (∀ q ∈ qs, q.1 ≤ q.2 ∧ q.2 ≤ v.length) → topk.length = MAX_K → expected.length = v.length →
    ∃ r, rangesOk std u v true qs topk expected = .ok r ∧ (r = true ↔ ∀ q ∈ qs, q.2 - q.1 ≤ k → (part v q.1 q.2).Nodup)
  | [], _, _, _, _, _ => ⟨true, rfl, by simp⟩
  | (b, e) :: qs, topk, expected, hq, ht, hx => by
      obtain ⟨h1, h2⟩ := hq (b, e) (List.mem_cons_self ..)
      dsimp only at h1 h2
      obtain ⟨x, e1, e2, e3⟩ := naiveTopk_uniq std k h1 h2 (Nat.le_of_eq hx.symm)
      have hk : k = 10 := rfl
      have hm : MAX_K = 15 := rfl
      have hl : (std.sort id (part v b e)).length = e - b := by rw [(std.sort_perm id _).length_eq, part_length h1 h2]
      have hsort : (std.sort id (part v b e)).Pairwise (· ≤ ·) := std.sort_sorted id _
      obtain ⟨u1, u2, u3⟩ := unique_spec hsort
      have hnd := unique_length hsort
      rw [(std.sort_perm id (part v b e)).nodup_iff] at hnd
      have hfull := unique_full hsort
      unfold rangesOk
      rw [e1, M.ok_bind]
      dsimp only
      simp only [List.mem_cons, forall_eq_or_imp]
      by_cases hle : e - b ≤ k
      · obtain ⟨t, f1, f2, f3⟩ := h.plain b e k topk h1 h2 (Or.inl (by decide)) (by omega)
        have hs := IsSortedPrefix.unique f3 ⟨_, std.sort_perm id _, std.sort_sorted id _, rfl⟩
        rw [Props.C14_unique_ignored std u b e k topk hle, f1, M.ok_bind]
        dsimp only
        by_cases hn : (part v b e).Nodup
        · have hu := hfull (hnd.mpr hn)
          rw [hu] at e3 ⊢
          rw [hl] at e3 ⊢
          obtain ⟨r, r1, r2⟩ := rangesOk_uniq h qs t x (fun q hq' => hq q (List.mem_cons_of_mem _ hq')) (by omega) (by omega)
          refine ⟨r, ?_, by rw [r2]; exact ⟨fun hh => ⟨fun _ => hn, hh⟩, fun hh => hh.2⟩⟩
          rw [if_neg (by simp), valuesOk_spec _ 0 (by omega) (by omega), List.drop_zero, List.drop_zero, hs, e3, M.ok_bind, if_pos (by simp), r1]
        · have hne : (unique (std.sort id (part v b e))).length ≠ e - b := fun hh => hn (hnd.mp (by omega))
          refine ⟨false, by rw [if_pos (by omega)], ?_⟩
          simp only [Bool.false_eq_true, false_iff]
          exact fun hh => hn (hh.1 hle)
      · obtain ⟨t, n, f1, f2, f3, f4⟩ := h.uniq b e k topk h1 h2 (by decide) (by omega) (by omega)
        have hs := IsTopK.unique (fun x => Iff.rfl) f4 (topk_take u1 (fun y => by rw [u2, (std.sort_perm id _).mem_iff]) k)
        have hn : n = min k (unique (std.sort id (part v b e))).length := by
          have := congrArg List.length hs
          rw [List.length_take, List.length_take] at this
          omega
        rw [f1, M.ok_bind]
        dsimp only
        obtain ⟨r, r1, r2⟩ := rangesOk_uniq h qs t x (fun q hq' => hq q (List.mem_cons_of_mem _ hq')) (by omega) (by omega)
        refine ⟨r, ?_, by rw [r2]; exact ⟨fun hh => ⟨fun hc => absurd hc hle, hh⟩, fun hh => hh.2⟩⟩
        rw [hn] at hs ⊢
        rw [if_neg (by simp), valuesOk_spec _ 0 (by omega) (by omega), List.drop_zero, List.drop_zero, hs, e3, M.ok_bind, if_pos (by simp), r1]

theorem genRanges_eq (draws : List (Nat × Nat)) : genRanges draws = draws.map fun d => (min d.1 d.2, max d.1 d.2) := by
  unfold genRanges
  apply List.map_congr_left
  rintro ⟨x, y⟩ _
  dsimp only
  split
  · rw [Nat.min_eq_left (by omega), Nat.max_eq_right (by omega)]
  · rw [Nat.min_eq_right (by omega), Nat.max_eq_left (by omega)]

section
variable (std : StdLib) (v : List Nat) (after1 after2 : W) (hlen : v.length < 2 ^ 30 - 1) (hsmall : ∀ x ∈ v, x < 2 ^ 32) (hpos : ∃ x ∈ v, x ≠ 0)
  (draws : List (Nat × Nat)) (hd : ∀ d ∈ draws, d.1 ≤ v.length ∧ d.2 ≤ v.length)
include hlen hsmall hpos hd

theorem unsorted_plain : unsorted std false v after1 after2 draws = .ok true := by
  obtain ⟨u, e1, e2⟩ := serves std v after1 after2 hlen hsmall hpos
  unfold unsorted
  rw [e1, M.ok_bind, if_neg (by rw [e2.size]; simp), genRanges_eq]
  refine rangesOk_plain e2 _ _ _ ?_ (by simp) (by simp)
  intro q hq
  obtain ⟨d, hd', rfl⟩ := List.mem_map.mp hq
  have := hd d hd'
  dsimp only
  omega

theorem unsorted_uniq : ∃ r, unsorted std true v after1 after2 draws = .ok r ∧
    (r = true ↔ ∀ d ∈ draws, max d.1 d.2 - min d.1 d.2 ≤ 10 → (part v (min d.1 d.2) (max d.1 d.2)).Nodup) := by
  obtain ⟨u, e1, e2⟩ := serves std v after1 after2 hlen hsmall hpos
  unfold unsorted
  rw [e1, M.ok_bind, if_neg (by rw [e2.size]; simp), genRanges_eq]
  obtain ⟨r, r1, r2⟩ := rangesOk_uniq e2 (draws.map fun d => (min d.1 d.2, max d.1 d.2)) (List.replicate MAX_K 0) (List.replicate v.length 0) (by
    intro q hq
    obtain ⟨d, hd', rfl⟩ := List.mem_map.mp hq
    have := hd d hd'
    dsimp only
    omega) (by simp) (by simp)
  refine ⟨r, r1, ?_⟩
  rw [r2]
  constructor
  · intro h d hd'
    exact h _ (List.mem_map.mpr ⟨d, hd', rfl⟩)
  · intro h q hq
    obtain ⟨d, hd', rfl⟩ := List.mem_map.mp hq
    exact h d hd'

end

end AC.Tests
