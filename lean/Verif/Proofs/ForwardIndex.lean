import Verif.Model.ForwardIndex
import Verif.Proofs.CompactVector
import Verif.Proofs.TrieRep
/-!
# The forward index
-/
namespace AC

/-- what a forward index is built from: the terms of each document, ids from 1 to `numTerms` -/
structure FwdLists (numTerms : Nat) (lists : List (List Nat)) : Prop where
  terms : 0 < numTerms
  small : numTerms < 2 ^ 32
  each : ∀ l ∈ lists, ∀ x ∈ l, x ≤ numTerms
  total : (lists.map List.length).sum < 2 ^ 64

/-- the starts of the lists after `p` -/
def ends : Nat → List (List Nat) → List Nat
  | _, [] => []
  | p, l :: ls => (p + l.length) :: ends (p + l.length) ls

theorem ends_length (p : Nat) (ls : List (List Nat)) : (ends p ls).length = ls.length := by
  induction ls generalizing p with
  | nil => rfl
  | cons l ls ih => simp [ends, ih]

theorem ends_le (p : Nat) (ls : List (List Nat)) : ∀ x ∈ ends p ls, p ≤ x ∧ x ≤ p + (ls.map List.length).sum := by
  induction ls generalizing p with
  | nil => intro x hx; simp [ends] at hx
  | cons l ls ih =>
      intro x hx
      rw [ends] at hx
      simp only [List.map_cons, List.sum_cons]
      rcases List.mem_cons.mp hx with h | h
      · omega
      · have := ih _ x h; omega

theorem ends_sorted (p : Nat) (ls : List (List Nat)) : (p :: ends p ls).Pairwise (· ≤ ·) := by
  induction ls generalizing p with
  | nil => simp [ends]
  | cons l ls ih =>
      rw [List.pairwise_cons]
      refine ⟨fun x hx => (ends_le p (l :: ls) x hx).1, ?_⟩
      rw [ends]; exact ih _

theorem readLists_eq (ls : List (List Nat)) : ∀ (size : Nat) (ptrs terms : List Nat),
    FwdIdx.readLists ls size ptrs terms = (ptrs ++ ends size ls, terms ++ ls.flatten) := by
  induction ls with
  | nil => intro size ptrs terms; simp [FwdIdx.readLists, ends]
  | cons l ls ih => intro size ptrs terms; simp [FwdIdx.readLists, ends, ih]

/-- where list `i` is in the concatenation -/
theorem ends_get (p : Nat) (ls : List (List Nat)) : ∀ (i : Nat) (hi : i < ls.length),
    ∃ a, (p :: ends p ls)[i]? = some (p + a) ∧ (p :: ends p ls)[i + 1]? = some (p + a + (ls[i]).length) ∧
      ∀ j (hj : j < (ls[i]).length), ls.flatten[a + j]? = some (ls[i])[j] := by
  induction ls generalizing p with
  | nil => intro i hi; simp at hi
  | cons l ls ih =>
      intro i hi
      cases i with
      | zero =>
          refine ⟨0, by simp, by simp [ends], ?_⟩
          intro j hj
          simp only [List.getElem_cons_zero] at hj ⊢
          rw [List.flatten_cons, Nat.zero_add, List.getElem?_append_left hj, List.getElem?_eq_getElem hj]
      | succ i =>
          obtain ⟨a, a1, a2, a3⟩ := ih (p + l.length) i (by simpa using hi)
          refine ⟨l.length + a, ?_, ?_, ?_⟩
          · rw [ends, List.getElem?_cons_succ, a1, Nat.add_assoc]
          · rw [ends, List.getElem?_cons_succ, a2]
            simp only [List.getElem_cons_succ, Option.some.injEq]; omega
          · intro j hj
            simp only [List.getElem_cons_succ] at hj ⊢
            rw [List.flatten_cons, List.getElem?_append_right (by omega), ← a3 j hj]
            congr 1; omega

/-- the index holds the lists -/
structure FwdIdx.Rep (fi : FwdIdx) (numTerms : Nat) (lists : List (List Nat)) : Prop where
  valid : FwdLists numTerms lists
  docs : fi.numDocs = lists.length
  terms : fi.numTerms = numTerms
  ints : fi.numIntegers = (lists.map List.length).sum
  at' : ∀ i (hi : i < lists.length), ∃ p, fi.iterator i = .ok ⟨p, (lists[i]).length, 0⟩ ∧
    ∀ j (hj : j < (lists[i]).length), ∃ x, fi.data.get (p + j) = .ok x ∧ x.toNat = (lists[i])[j]

theorem FwdIdx.build_spec {numTerms : Nat} {lists : List (List Nat)} (h : FwdLists numTerms lists) (after : W) :
    ∃ fi, FwdIdx.build numTerms lists after = .ok fi ∧ fi.Rep numTerms lists := by
  have ht := h.terms
  have hs := h.small
  have w1 := ceilLog2_pos (numTerms + 1) (by omega)
  have w64 := ceilLog2_le (numTerms + 1) 32 (by omega)
  have wlt := lt_two_pow_ceilLog2 (numTerms + 1) (by omega)
  obtain ⟨c, c1, c2, _⟩ := CV.build_spec (toWords lists.flatten) (ceilLog2 (numTerms + 1)) after w1 (by omega)
  have hle := ends_le 0 lists
  obtain ⟨e, e1, e2, e3, _⟩ := Trie.ef_words (xs := 0 :: ends 0 lists) (by simp)
    (by
      intro x hx
      rcases List.mem_cons.mp hx with hx | hx
      · omega
      · have := hle x hx; have := h.total; omega)
    (ends_sorted 0 lists)
  refine ⟨⟨lists.flatten.length, numTerms, e, c⟩, ?_, ?_⟩
  · unfold FwdIdx.build
    rw [readLists_eq]
    simp only [List.nil_append]
    rw [c1]
    simp only [M.ok_bind, List.cons_append, List.nil_append]
    rw [show toWords (0 :: ends 0 lists) = Trie.words (0 :: ends 0 lists) from rfl, e1]
    rfl
  · refine ⟨h, ?_, rfl, by simp [List.length_flatten], ?_⟩
    · show e.size - 1 = _
      rw [e2]; simp [ends_length]
    · intro i hi
      obtain ⟨a, a1, a2, a3⟩ := ends_get 0 lists i hi
      rw [Nat.zero_add] at a1 a2
      have i1 : i < (0 :: ends 0 lists).length := by simp [ends_length]; omega
      have i2 : i + 1 < (0 :: ends 0 lists).length := by simp [ends_length]; omega
      rw [List.getElem?_eq_getElem i1] at a1
      rw [List.getElem?_eq_getElem i2] at a2
      refine ⟨a, ?_, ?_⟩
      · unfold FwdIdx.iterator
        simp only
        rw [e3 i i1, e3 (i + 1) i2]
        simp only [M.ok_bind]
        rw [Option.some.inj a1, Option.some.inj a2]
        congr 2; omega
      · intro j hj
        have hf := a3 j hj
        have hlt : a + j < lists.flatten.length := (List.getElem?_eq_some_iff.mp hf).1
        obtain ⟨x, x1, x2⟩ := CV.get_spec c2 (a + j) (by unfold toWords; rw [List.length_map]; exact hlt)
        refine ⟨x, x1, ?_⟩
        rw [x2]
        simp only [toWords, List.getElem_map, BitVec.toNat_ofNat]
        have hv : lists.flatten[a + j] = (lists[i])[j] := by
          rw [List.getElem?_eq_getElem hlt] at hf; exact Option.some.inj hf
        rw [hv]
        have := h.each lists[i] (List.getElem_mem hi) (lists[i])[j] (List.getElem_mem hj)
        rw [Nat.mod_eq_of_lt (by omega : (lists[i])[j] < 2 ^ 64), Nat.mod_eq_of_lt (by omega)]

theorem FwdIt.intersectsLoop_spec {fi : FwdIdx} {p : Nat} {l : List Nat} (r : Range) (it : FwdIt) (hp : it.base = p)
    (h : ∀ j (hj : j < l.length), ∃ x, fi.data.get (p + j) = .ok x ∧ x.toNat = l[j]) :
    ∀ (k i : Nat), i + k = l.length → it.intersectsLoop fi r k i = .ok ((l.drop i).any (fun x => r.contains x)) := by
  intro k
  induction k with
  | zero => intro i hi; simp [FwdIt.intersectsLoop, List.drop_eq_nil_of_le (by omega : l.length ≤ i)]
  | succ k ih =>
      intro i hi
      obtain ⟨x, x1, x2⟩ := h i (by omega)
      unfold FwdIt.intersectsLoop
      rw [hp, x1]
      simp only [M.ok_bind]
      rw [x2, ih (i + 1) (by omega), List.drop_eq_getElem_cons (by omega : i < l.length), List.any_cons]
      cases hc : r.contains l[i] <;> simp

theorem FwdIdx.intersects_spec {fi : FwdIdx} {numTerms : Nat} {lists : List (List Nat)} (h : fi.Rep numTerms lists) (r : Range)
    (i : Nat) (hi : i < lists.length) : fi.intersects i r = .ok (lists[i].any (fun x => r.contains x)) := by
  obtain ⟨p, p1, p2⟩ := h.at' i hi
  unfold FwdIdx.intersects
  rw [p1]
  simp only [M.ok_bind]
  unfold FwdIt.intersects
  rw [FwdIt.intersectsLoop_spec r _ rfl p2 _ 0 (by simp), List.drop_zero]

theorem FwdIt.scan_spec {fi : FwdIdx} {l : List Nat} {p n : Nat}
    (h : ∀ j (hj : j < l.length), ∃ x, fi.data.get (p + j) = .ok x ∧ x.toNat = l[j]) (hs : ∀ x ∈ l, x < 2 ^ 32) :
    ∀ (k i : Nat), i + k = l.length → FwdIt.scan fi k ⟨p, n, i⟩ = .ok (l.drop i) := by
  intro k
  induction k with
  | zero => intro i hi; simp [FwdIt.scan, List.drop_eq_nil_of_le (by omega : l.length ≤ i)]
  | succ k ih =>
      intro i hi
      obtain ⟨x, x1, x2⟩ := h i (by omega)
      have hm := hs l[i] (List.getElem_mem _)
      unfold FwdIt.scan FwdIt.deref FwdIt.inc
      simp only
      rw [x1]
      simp only [M.ok_bind]
      rw [ih (i + 1) (by omega), List.drop_eq_getElem_cons (by omega : i < l.length)]
      simp only [M.ok_bind, x2, id32]
      rw [Nat.mod_eq_of_lt hm]

end AC
