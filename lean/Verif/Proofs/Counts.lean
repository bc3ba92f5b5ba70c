import Verif.Proofs.Fits
import Verif.Proofs.Suits
import Verif.Proofs.Type4Blocks
import Verif.Spec.Sizes
/-!
# What is counted by the statistics of an index, and the parts of its size
-/
namespace AC
open Spec

/-! ## Sums -/

theorem sum_filter_zero {α : Type} (g : α → Nat) (p : α → Bool) : ∀ l : List α, (∀ a ∈ l, p a = false → g a = 0) →
    ((l.filter p).map g).sum = (l.map g).sum
  | [], _ => rfl
  | a :: l, h => by
      have ih := sum_filter_zero g p l (fun b hb => h b (List.mem_cons_of_mem _ hb))
      cases e : p a with
      | true => rw [List.filter_cons_of_pos e]; simp only [List.map_cons, List.sum_cons, ih]
      | false =>
          rw [List.filter_cons_of_neg (by simp [e])]
          simp only [List.map_cons, List.sum_cons, ih, h a (List.mem_cons_self ..) e, Nat.zero_add]

theorem sum_support {α : Type} [DecidableEq α] (g : α → Nat) {A B : List α} (hA : A.Nodup) (hB : B.Nodup) (hs : ∀ b ∈ B, b ∈ A)
    (h0 : ∀ a ∈ A, a ∉ B → g a = 0) : (A.map g).sum = (B.map g).sum := by
  rw [← sum_filter_zero g (fun a => decide (a ∈ B)) A (fun a ha hp => h0 a ha (by simpa using hp))]
  apply List.Perm.sum_nat
  apply List.Perm.map
  rw [List.perm_ext_iff_of_nodup (hA.filter _) hB]
  intro a
  rw [List.mem_filter]
  constructor
  · intro h; simpa using h.2
  · intro h; exact ⟨hs a h, by simpa using h⟩

theorem sum_add_map {α : Type} (f g : α → Nat) : ∀ l : List α, (l.map (fun a => f a + g a)).sum = (l.map f).sum + (l.map g).sum
  | [] => rfl
  | a :: l => by simp only [List.map_cons, List.sum_cons, sum_add_map f g l]; omega

theorem sum_swap {α β : Type} (f : α → β → Nat) : ∀ (A : List α) (B : List β),
    (A.map (fun a => (B.map (fun b => f a b)).sum)).sum = (B.map (fun b => (A.map (fun a => f a b)).sum)).sum
  | [], B => by
      induction B with
      | nil => rfl
      | cons b B ih => simpa using ih
  | a :: A, B => by
      simp only [List.map_cons, List.sum_cons]
      rw [sum_swap f A B, sum_add_map]

theorem sum_ite {α : Type} (p : α → Bool) : ∀ l : List α, (l.map (fun a => if p a then 1 else 0)).sum = (l.filter p).length
  | [] => rfl
  | a :: l => by
      simp only [List.map_cons, List.sum_cons, sum_ite p l]
      cases e : p a with
      | true => rw [List.filter_cons_of_pos e]; simp; omega
      | false => rw [List.filter_cons_of_neg (by simp [e])]; simp

theorem length_eq_of_nodup {α : Type} [DecidableEq α] {A B : List α} (hA : A.Nodup) (hB : B.Nodup) (h : ∀ a, a ∈ A ↔ a ∈ B) : A.length = B.length :=
  ((List.perm_ext_iff_of_nodup hA hB).mpr h).length_eq

/-! ## Counts -/

theorem FC.buildLoop_keeps {E : Elem} {lcpOf : List Nat → List Nat → Nat} {tl : Nat} : ∀ (nb : Nat) (input : List (List Nat)) (d d' : FC),
    FC.buildLoop E lcpOf tl nb input d = .ok d' → d'.size = d.size
  | 0, _, _, _, h => by cases h; rfl
  | _ + 1, [], _, _, h => by cases h
  | nb + 1, header :: input, d, d', h => by
      unfold FC.buildLoop at h
      obtain ⟨⟨i, bk⟩, _, h⟩ := bind_ok h
      have := FC.buildLoop_keeps nb _ _ d' h
      exact this

theorem FC.build_size {E : Elem} {lcpOf : List Nat → List Nat → Nat} {ss : List (List Nat)} {d : FC} (h : FC.build E lcpOf ss = .ok d) :
    d.size = ss.length := by
  unfold FC.build at h
  obtain ⟨d', e, h⟩ := bind_ok h
  cases h
  exact FC.buildLoop_keeps _ _ _ _ e

theorem distinct_spec : ∀ l : List Str, ∃ L : List Str, L.Nodup ∧ (∀ t, t ∈ L ↔ t ∈ l) ∧ L.length = distinct l
  | [] => ⟨[], by simp, fun _ => Iff.rfl, rfl⟩
  | t :: ts => by
      obtain ⟨L, h1, h2, h3⟩ := distinct_spec ts
      unfold distinct
      split
      · rename_i ht
        refine ⟨L, h1, fun u => ?_, h3⟩
        rw [h2, List.mem_cons]
        constructor
        · exact Or.inr
        · rintro (rfl | h)
          · exact ht
          · exact h
      · rename_i ht
        refine ⟨t :: L, List.nodup_cons.mpr ⟨fun h => ht ((h2 t).mp h), h1⟩, fun u => ?_, by simp [h3]⟩
        rw [List.mem_cons, List.mem_cons, h2]

namespace Ready
variable {C : Coll} {F : Files} (h : Ready C F)
include h

theorem numTokens : (F.forward.map List.length).sum = numTokens C := by
  have e : F.forward.map List.length = (List.range F.univ).map (fun d => (F.forward.getD d []).length) := by
    apply List.ext_getElem
    · simp [h.files.numDocs]
    · intro i h1 h2
      simp only [List.length_map] at h1
      simp [List.getD_eq_getElem?_getD, List.getElem?_eq_getElem h1]
  rw [e, sum_support _ List.nodup_range h.coll.docs (fun d hd => ?_) (fun d _ hd => ?_)]
  · rw [List.map_map]
    unfold Spec.numTokens
    congr 1
    apply List.map_congr_left
    intro r hr
    simp only [Function.comp_apply, h.files.forward r hr, List.length_map]
  · obtain ⟨r, hr, rfl⟩ := List.mem_map.mp hd
    exact List.mem_range.mpr (h.files.lt_univ r hr)
  · rw [h.files.noDoc d hd]; rfl

theorem numPostings : (F.inverted.map List.length).sum = numPostings C := by
  have hnd := nodup_of_strict h.files.terms
  have e : F.inverted.map List.length = F.terms.map (fun t => (C.filter (fun r => decide (t ∈ r.2))).length) := by
    apply List.ext_getElem
    · simp [h.files.numLists]
    · intro i h1 h2
      simp only [List.length_map] at h1 h2
      have hg : F.inverted.getD i [] = F.inverted[i] := by simp [List.getD_eq_getElem?_getD, List.getElem?_eq_getElem h1]
      have ht : F.terms.getD i [] = F.terms[i] := by simp [List.getD_eq_getElem?_getD, List.getElem?_eq_getElem h2]
      have h3 := h.files.sortedList i h2
      have h4 := fun d => h.files.memList i d h2
      rw [hg] at h3 h4
      rw [ht] at h4
      simp only [List.getElem_map]
      rw [← List.length_map (f := (·.1)) (as := C.filter _)]
      refine length_eq_of_nodup (h3.imp (fun hlt he => by omega)) (h.coll.docs.sublist (List.Sublist.map _ List.filter_sublist)) (fun d => ?_)
      rw [h4]
      simp only [List.mem_map, List.mem_filter, decide_eq_true_eq]
      constructor
      · rintro ⟨c, h5, h6⟩; exact ⟨(d, c), ⟨h5, h6⟩, rfl⟩
      · rintro ⟨⟨d', c⟩, ⟨h5, h6⟩, rfl⟩; exact ⟨c, h5, h6⟩
  rw [e]
  simp only [← sum_ite]
  rw [sum_swap (fun (t : Str) (r : Nat × List Str) => if decide (t ∈ r.2) then 1 else 0)]
  simp only [sum_ite]
  unfold Spec.numPostings
  congr 1
  apply List.map_congr_left
  intro r hr
  obtain ⟨L, l1, l2, l3⟩ := distinct_spec r.2
  rw [← l3]
  refine length_eq_of_nodup (hnd.filter _) l1 (fun t => ?_)
  rw [List.mem_filter, l2]
  constructor
  · intro h1; simpa using h1.2
  · intro h1; exact ⟨(h.files.memTerms t).mpr ⟨r, hr, h1⟩, by simpa using h1⟩

theorem inverted_ints {a : W} {ib : InvBuilder} {x : InvIdx} (hb : InvBuilder.mk' F.univ F.inverted = .ok ib) (hx : ib.build a = .ok x) :
    x.numIntegers = Spec.numPostings C := by
  obtain ⟨ib', b1, b2, b3⟩ := InvBuilder.build_spec h.invLists
  rw [hb] at b1
  cases b1
  obtain ⟨y, c1, c2⟩ := b3 a
  rw [hx] at c1
  cases c1
  rw [c2.ints, h.numPostings]

theorem base_counts {mem : Nat → W} {x : Base} (hx : Base.build F mem = .ok x) : x.completions.size = C.length ∧ x.dict.size = F.terms.length := by
  unfold Base.build at hx
  obtain ⟨⟨c, d⟩, e1, hx⟩ := bind_ok hx
  obtain ⟨lex, e2, hx⟩ := bind_ok hx
  obtain ⟨docs, e3, hx⟩ := bind_ok hx
  obtain ⟨dict, e4, hx⟩ := bind_ok hx
  cases hx
  unfold IntDict.build at e1
  obtain ⟨v, f1, e1⟩ := bind_ok e1
  obtain ⟨c', f2, e1⟩ := bind_ok e1
  cases e1
  refine ⟨?_, FC.build_size e4⟩
  have := FC.build_size f2
  rw [List.length_map, h.length_mapped] at this
  exact this

end Ready

theorem Index1.counts_spec {C : Coll} {F : Files} (h : Ready C F) {mem : Nat → W} {x : Index1} (hx : Index1.build F mem = .ok x) :
    x.counts = [C.length, F.terms.length, Spec.numPostings C, Spec.numTokens C] := by
  unfold Index1.build at hx
  obtain ⟨ib, e1, hx⟩ := bind_ok hx
  obtain ⟨docs, e2, hx⟩ := bind_ok hx
  obtain ⟨minimal, e3, hx⟩ := bind_ok hx
  obtain ⟨compl, e4, hx⟩ := bind_ok hx
  obtain ⟨dict, e5, hx⟩ := bind_ok hx
  obtain ⟨inv, e6, hx⟩ := bind_ok hx
  obtain ⟨fwd, e7, hx⟩ := bind_ok hx
  cases hx
  obtain ⟨fi, f1, f2⟩ := FwdIdx.build_spec h.fwdLists (mem 5)
  rw [e7] at f1
  cases f1
  have h1 := h.inverted_ints e1 e6
  have h2 := f2.ints
  rw [h.numTokens] at h2
  have h3 := FC.build_size e5
  unfold Index1.counts
  dsimp only
  rw [h1, h2, h3, h.length_mapped]

theorem Index2.counts_spec {C : Coll} {F : Files} (h : Ready C F) {mem : Nat → W} {x : Index2} (hx : Index2.build F mem = .ok x) :
    x.counts = [C.length, F.terms.length, Spec.numPostings C] := by
  unfold Index2.build at hx
  obtain ⟨ib, e1, hx⟩ := bind_ok hx
  obtain ⟨base, e2, hx⟩ := bind_ok hx
  obtain ⟨minimal, e3, hx⟩ := bind_ok hx
  obtain ⟨inv, e4, hx⟩ := bind_ok hx
  cases hx
  obtain ⟨b1, b2⟩ := h.base_counts e2
  unfold Index2.counts
  dsimp only
  rw [h.inverted_ints e1 e4, b1, b2]

theorem Index3.counts_spec {C : Coll} {F : Files} (h : Ready C F) {mem : Nat → W} {x : Index3} (hx : Index3.build F mem = .ok x) :
    x.counts = [C.length, Spec.numPostings C] := by
  unfold Index3.build at hx
  obtain ⟨ib, e1, hx⟩ := bind_ok hx
  obtain ⟨base, e2, hx⟩ := bind_ok hx
  obtain ⟨inv, e3, hx⟩ := bind_ok hx
  cases hx
  obtain ⟨b1, b2⟩ := h.base_counts e2
  unfold Index3.counts
  dsimp only
  rw [h.inverted_ints e1 e3, b1]

theorem Index4.counts_spec {C : Coll} {F : Files} (h : Ready C F) {std : StdLib} {m : Nat} {mem : Nat → W} {x : Index4}
    (hx : Index4.build std m F mem = .ok x) : ∃ B, IsBlocks C m B ∧ x.counts = [C.length, Spec.numPostings C, B.length] := by
  unfold Index4.build at hx
  obtain ⟨ib, e1, hx⟩ := bind_ok hx
  obtain ⟨base, e2, hx⟩ := bind_ok hx
  obtain ⟨inv, e3, hx⟩ := bind_ok hx
  cases hx
  have hp := h.postings_lt
  obtain ⟨ib', b1, b2, b3⟩ := BlkBuilder.build_spec ⟨h.invLists, by omega⟩ std m
  rw [e1] at b1
  cases b1
  obtain ⟨y, docss, c1, c2⟩ := b3 (fun i => mem (7 + i))
  rw [e3] at c1
  cases c1
  refine ⟨_, h.blocks c2.cut, ?_⟩
  have h1 := c2.ints
  rw [h.numPostings] at h1
  obtain ⟨b4, _⟩ := h.base_counts e2
  unfold Index4.counts BlkIdx.numBlocks
  dsimp only
  rw [h1, b4]
  simp [blocksOf]

/-! ## Sizes -/

theorem foldl_sum {α : Type} (g : α → Nat) : ∀ (l : List α) (n : Nat), l.foldl (fun b t => b + g t) n = n + (l.map g).sum
  | [], n => rfl
  | a :: l, n => by
      rw [List.foldl_cons, foldl_sum g l]
      simp only [List.map_cons, List.sum_cons]
      omega

theorem Trie.pointersLoop_ok : ∀ (x : List Trie.CLevel) (n : Nat), (∀ t ∈ x, t.ptrs.isSome) →
    Trie.pointersLoop x n = .ok (n + Trip.ptrSum x)
  | [], n, _ => rfl
  | t :: ts, n, h => by
      obtain ⟨p, e⟩ := Option.isSome_iff_exists.mp (h t (List.mem_cons_self ..))
      have ih := Trie.pointersLoop_ok ts (n + p.bytes) (fun u hu => h u (List.mem_cons_of_mem _ hu))
      unfold Trie.pointersLoop Trie.ptrBytes
      rw [e, M.ok_bind, ih]
      unfold Trip.ptrSum
      rw [List.filterMap_cons_some e]
      simp only [List.map_cons, List.sum_cons]
      rw [Nat.add_assoc]

theorem Trie.pointersBytes_ok {x : List Trie.CLevel} (h : Trie.Linked x) : Trie.pointersBytes x = .ok (8 + Trip.ptrSum x) := by
  unfold Trie.pointersBytes
  rw [Trie.pointersLoop_ok]
  · congr 2
    by_cases hne : x = []
    · subst hne; rfl
    · have hl := List.length_pos_iff.mpr hne
      have hlast : (x.getLast hne).ptrs = none := by
        have := h (x.length - 1) (x.getLast hne) (by rw [List.getLast_eq_getElem]; exact List.getElem?_eq_getElem _)
        cases e : (x.getLast hne).ptrs with
        | none => rfl
        | some p => rw [e] at this; simp at this; omega
      conv => rhs; rw [← List.dropLast_concat_getLast hne]
      unfold Trip.ptrSum
      rw [List.filterMap_append, List.filterMap_cons_none hlast]
      simp
  · intro t ht
    obtain ⟨i, hi, rfl⟩ := List.mem_iff_getElem.mp ht
    rw [List.length_dropLast] at hi
    rw [List.getElem_dropLast]
    exact (h i _ (List.getElem?_eq_getElem (by omega))).mpr (by omega)

/-- the sizes of the parts of a trie -/
theorem Trie.parts {x : List Trie.CLevel} (h : Trie.Linked x) : ∃ c p, Trie.bytes x = .ok c ∧ Trie.pointersBytes x = .ok p ∧
    c = 4 + (Trie.nodesBytes x + p + Trie.leftBytes x + Trie.sizesBytes x) := by
  refine ⟨_, _, Trie.bytes_ok h, Trie.pointersBytes_ok h, ?_⟩
  unfold Trie.nodesBytes Trie.leftBytes Trie.sizesBytes
  rw [foldl_sum (fun t : Trie.CLevel => t.nodes.bytes), foldl_sum (fun t : Trie.CLevel => t.left.bytes), foldl_sum (fun t : Trie.CLevel => t.sizes.bytes)]
  simp only [List.map_map, Function.comp_def]
  omega

theorem Index1.bytes_ok {x : Index1} (h : Trie.Linked x.completions) : ∃ n, x.bytes = .ok n := by
  unfold Index1.bytes
  rw [Trie.bytes_ok h, M.ok_bind]
  exact ⟨_, rfl⟩

end AC
