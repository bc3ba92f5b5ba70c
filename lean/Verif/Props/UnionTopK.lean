import Verif.Proofs.UnionTopK
import Verif.Props.InvertedIndex
/-!
# C27: the k smallest documents of a union of posting lists
-/
namespace AC.Props
open AC

/-- the documents of the lists of the terms `[a, b)`, counted from 0 -/
def inSomeList (lists : List (List Nat)) (a b : Nat) (d : Nat) : Prop :=
  ∃ t, a ≤ t ∧ t < b ∧ d ∈ lists.getD t []

theorem inSomeList_iff (lists : List (List Nat)) (a b d : Nat) (hb : b ≤ lists.length) :
    (∃ l ∈ (lists.drop a).take (b - a), d ∈ l) ↔ inSomeList lists a b d := by
  constructor
  · rintro ⟨l, hl, hd⟩
    obtain ⟨i, hi, rfl⟩ := List.getElem_of_mem hl
    simp only [List.length_take, List.length_drop] at hi
    refine ⟨a + i, by omega, by omega, ?_⟩
    rw [List.getElem_take, List.getElem_drop] at hd
    rw [List.getD_eq_getElem?_getD, List.getElem?_eq_getElem (by omega)]
    exact hd
  · rintro ⟨t, t1, t2, hd⟩
    rw [List.getD_eq_getElem?_getD, List.getElem?_eq_getElem (by omega), Option.getD_some] at hd
    refine ⟨lists[t], ?_, hd⟩
    rw [List.mem_iff_getElem]
    refine ⟨t - a, by simp; omega, ?_⟩
    rw [List.getElem_take, List.getElem_drop]
    congr 1
    omega

/-- C27: over a heap of iterators, for the terms with identifiers `[a, b]` (from 1): the `k` smallest documents of the union of
their lists are at the beginning of the buffer -/
theorem C27_heap_topk (std : StdLib) (u : Nat) (lists : List (List Nat)) (h : InvLists u lists) (after : W) :
    ∃ ii, buildInverted u lists after = .ok ii ∧
      ∀ a b k (buf : List Nat), 1 ≤ a → a ≤ b → b ≤ lists.length → 1 ≤ k → k ≤ buf.length →
        ∃ buf' n, HeapTopK.topk std ii a b k buf = .ok (buf', n) ∧ buf'.length = buf.length ∧ n ≤ k ∧
          Spec.IsTopK (inSomeList lists (a - 1) b) k (buf'.take n) := by
  obtain ⟨b, e1, e2, e3⟩ := InvBuilder.build_spec h
  obtain ⟨ii, f1, f2⟩ := e3 after
  refine ⟨ii, by unfold buildInverted; rw [e1]; exact f1, ?_⟩
  intro a b k buf ha hab hb hk hbuf
  obtain ⟨buf', n, r1, r2, r3, r4⟩ := HeapTopK.topk_spec std f2 ha (by omega) hb hk hbuf
  refine ⟨buf', n, r1, r2, r3, IsTopK_congr (fun d => ?_) r4⟩
  rw [show b + 1 - a = b - (a - 1) by omega]
  exact inSomeList_iff lists (a - 1) b d hb

/-- C27: over the minimal documents of the terms, for the terms `[a, b)` (from 0): the `k` smallest documents of the union of
their lists are at the beginning of the buffer. The structure can be built unless document 0 contains all the terms
(`C27_minimal_zero`). -/
theorem C27_minimal_docids (std : StdLib) (u : Nat) (lists : List (List Nat)) (h : InvLists u lists) (after after1 after2 : W)
    (hlen : lists.length < 2 ^ 30 - 1) (h0 : ∃ l ∈ lists, 0 ∉ l) :
    ∃ ib ii ul, InvBuilder.mk' u lists = .ok ib ∧ ib.build after = .ok ii ∧ UL.build ib.minimal after1 after2 = .ok ul ∧
      ∀ a b k (buf : List Nat), a < b → b ≤ lists.length → 1 ≤ k → k ≤ buf.length →
        ∃ buf' n, MinDocs.topk std ii ul a b k buf = .ok (buf', n) ∧ buf'.length = buf.length ∧ n ≤ k ∧
          Spec.IsTopK (inSomeList lists a b) k (buf'.take n) := by
  obtain ⟨ib, e1, e2, e3⟩ := InvBuilder.build_spec h
  obtain ⟨ii, f1, f2⟩ := e3 after
  have hhead : ∀ l ∈ lists, l.headD 0 ∈ l := by
    intro l hl
    have := (h.each l hl).1
    cases l with
    | nil => exact absurd rfl this
    | cons x xs => simp
  obtain ⟨ul, u1, u2⟩ := UL.build_spec (lists.map (fun l => l.headD 0)) after1 after2 (by simpa using hlen)
    (by
      intro x hx
      obtain ⟨l, hl, rfl⟩ := List.mem_map.mp hx
      have := (h.each l hl).2.2 _ (hhead l hl)
      have := h.univ
      omega)
    (by
      obtain ⟨l, hl, hl0⟩ := h0
      refine ⟨_, List.mem_map.mpr ⟨l, hl, rfl⟩, ?_⟩
      intro he
      exact hl0 (he ▸ hhead l hl))
  refine ⟨ib, ii, ul, e1, f1, by rw [e2]; exact u1, ?_⟩
  intro a b k buf hab hb hk hbuf
  obtain ⟨buf', n, r1, r2, r3, r4⟩ := MinDocs.topk_spec std f2 u2 hab hb hk hbuf
  exact ⟨buf', n, r1, r2, r3, IsTopK_congr (fun d => inSomeList_iff lists a b d hb) r4⟩

/-- what is excluded by the hypotheses of `C27_minimal_docids`: when document 0 contains all the terms, the construction of the
minimal documents throws -/
theorem C27_minimal_zero (u : Nat) (lists : List (List Nat)) (h : InvLists u lists) (after1 after2 : W)
    (hlen : lists.length < 2 ^ 30 - 1) (h0 : ∀ l ∈ lists, 0 ∈ l) :
    ∃ ib, InvBuilder.mk' u lists = .ok ib ∧ UL.build ib.minimal after1 after2 = .error .thrown := by
  obtain ⟨ib, e1, e2, e3⟩ := InvBuilder.build_spec h
  refine ⟨ib, e1, ?_⟩
  have hz : lists.map (fun l => l.headD 0) = List.replicate (lists.length - 1 + 1) 0 := by
    rw [List.eq_replicate_iff]
    refine ⟨by have := List.length_pos_iff.mpr h.ne; simp; omega, ?_⟩
    intro x hx
    obtain ⟨l, hl, rfl⟩ := List.mem_map.mp hx
    have hs := (h.each l hl).2.1
    have hm := h0 l hl
    cases l with
    | nil => rfl
    | cons y ys =>
        rw [List.pairwise_cons] at hs
        rcases List.mem_cons.mp hm with hm | hm
        · simp [hm.symm]
        · have := hs.1 0 hm; omega
  rw [e2, hz]
  exact UL.build_zero _ _ _ (by omega)

/-- three lists with common documents, for which both structures can be built -/
example : InvLists 9 [[0, 3, 8], [3], [1, 3, 5, 8]] ∧ ∃ l ∈ [[0, 3, 8], [3], [1, 3, 5, 8]], 0 ∉ l :=
  ⟨⟨by decide, by decide, by decide, by decide⟩, by decide⟩

/-- the three smallest documents of the second and third lists -/
example : (buildInverted 9 [[0, 3, 8], [3], [1, 3, 5, 8]] 0 >>= fun ii =>
    HeapTopK.topk StdLib.bySorting ii 2 3 3 [0, 0, 0, 77]) = .ok ([1, 3, 5, 77], 3) := by decide +kernel

example : (buildInverted 9 [[0, 3, 8], [3], [1, 3, 5, 8]] 0 >>= fun ii => UL.build [0, 3, 1] 0 0 >>= fun ul =>
    MinDocs.topk StdLib.bySorting ii ul 1 3 3 [0, 0, 0, 77]) = .ok ([1, 3, 5, 77], 3) := by decide +kernel

end AC.Props
