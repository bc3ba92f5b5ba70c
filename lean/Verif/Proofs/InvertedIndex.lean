import Verif.Proofs.ListAt
/-!
# Building the inverted index and reading its lists
-/
namespace AC

/-- what an inverted index is built from -/
structure InvLists (u : Nat) (lists : List (List Nat)) : Prop where
  ne : lists ≠ []
  each : ∀ l ∈ lists, l ≠ [] ∧ l.Pairwise (· < ·) ∧ ∀ x ∈ l, x < u
  univ : u < 2 ^ 32
  total : (lists.map List.length).sum < 2 ^ 54

theorem length_le_sum {lists : List (List Nat)} {l : List Nat} (h : l ∈ lists) : l.length ≤ (lists.map List.length).sum := by
  induction lists with
  | nil => simp at h
  | cons a as ih =>
      simp only [List.map_cons, List.sum_cons]
      rcases List.mem_cons.mp h with h | h
      · subst h; omega
      · have := ih h; omega

theorem count_le_sum {lists : List (List Nat)} (h : ∀ l ∈ lists, l ≠ []) : lists.length ≤ (lists.map List.length).sum := by
  induction lists with
  | nil => simp
  | cons a as ih =>
      simp only [List.map_cons, List.sum_cons, List.length_cons]
      have := ih (fun l hl => h l (List.mem_cons_of_mem _ hl))
      have := List.length_pos_iff.mpr (h a (List.mem_cons_self ..))
      omega

theorem InvLists.valid {u : Nat} {lists : List (List Nat)} (h : InvLists u lists) {l : List Nat} (hl : l ∈ lists) :
    CEF.Valid u l := by
  obtain ⟨h1, h2, h3⟩ := h.each l hl
  have := length_le_sum hl
  have := h.total
  have := h.univ
  exact ⟨h1, h2.imp (fun h => Nat.le_of_lt h), fun x hx => Nat.le_of_lt (h3 x hx), by omega⟩

/-- the invariant of the loop over the terms -/
structure InvBuilder.Inv (b : InvBuilder) (u : Nat) (done : List (List Nat)) (init : List Nat) : Prop where
  wf : b.bvb.WF
  docs : b.numDocs = u
  ints : b.numIntegers = (done.map List.length).sum
  min : b.minimal = done.map (fun l => l.headD 0)
  ptrs : b.pointers = init ++ [b.bvb.size]
  len : init.length = done.length
  sorted : b.pointers.Pairwise (· ≤ ·)
  at' : ∀ (i : Nat) (l : List Nat), done[i]? = some l → ∃ p, init[i]? = some p ∧ ListAt b.bvb.bits p u l ∧ listEnd p u l ≤ b.bvb.size
  size : b.bvb.size ≤ 128 * (done.map List.length).sum + 256 * done.length

theorem InvBuilder.add_spec {b : InvBuilder} {u : Nat} {done : List (List Nat)} {init : List Nat} (h : b.Inv u done init)
    {l : List Nat} (hl : CEF.Valid u l) :
    ∃ b', b.add l = .ok b' ∧ b'.Inv u (done ++ [l]) b.pointers := by
  obtain ⟨b1, b2, e1, e2, e3, e4, e5, e6, e7⟩ := writeList_spec b.bvb u l h.wf hl
  obtain ⟨x, xs, rfl⟩ : ∃ x xs, l = x :: xs := by
    cases l with
    | nil => exact absurd rfl hl.ne
    | cons x xs => exact ⟨x, xs, rfl⟩
  have hadd : b.add (x :: xs) = .ok { b with
      numIntegers := b.numIntegers + (x :: xs).length, minimal := b.minimal ++ [x], bvb := b2,
      pointers := b.pointers ++ [b2.size] } := by
    unfold InvBuilder.add
    rw [rd_ok (by simp), e1, h.docs]
    simp only [M.ok_bind, e2, h.docs, List.getElem_cons_zero]
  refine ⟨_, hadd, ?_⟩
  constructor
  · exact e3
  · exact h.docs
  · simp only [h.ints, List.map_append, List.sum_append]; simp
  · simp only [h.min, List.map_append]; simp
  · rfl
  · rw [h.ptrs]; simp [h.len]
  · simp only
    rw [List.pairwise_append]
    refine ⟨h.sorted, List.pairwise_singleton _ _, ?_⟩
    intro a ha c hc
    rw [List.mem_singleton.mp hc]
    have hs := h.sorted
    rw [h.ptrs] at ha hs
    rcases List.mem_append.mp ha with ha | ha
    · have := (List.pairwise_append.mp hs).2.2 a ha b.bvb.size (by simp)
      omega
    · rw [List.mem_singleton.mp ha]; exact e5
  · intro i l' hl'
    have hlt : i < (done ++ [x :: xs]).length := by
      rw [List.getElem?_eq_some_iff] at hl'; exact hl'.1
    simp only [List.length_append, List.length_singleton] at hlt
    by_cases hi : i < done.length
    · rw [List.getElem?_append_left hi] at hl'
      obtain ⟨p, p1, p2, p3⟩ := h.at' i l' hl'
      refine ⟨p, ?_, ?_, by simp only; omega⟩
      · rw [h.ptrs, List.getElem?_append_left (by rw [h.len]; exact hi)]; exact p1
      · apply p2.frame
        · have := wf_room e3; simp only; omega
        · intro j _ hj; exact e6 j (by omega)
    · have hi' : i = done.length := by omega
      subst hi'
      rw [List.getElem?_concat_length] at hl'
      cases hl'
      refine ⟨b.bvb.size, ?_, e7, by simp only; omega⟩
      rw [h.ptrs, ← h.len, List.getElem?_concat_length]
  · have := listEnd_le (p := b.bvb.size) hl
    have := h.size
    simp only [List.map_append, List.sum_append, List.map_cons, List.map_nil, List.sum_cons, List.sum_nil,
      List.length_append, List.length_cons, List.length_nil] at *
    omega

theorem InvBuilder.addAll_spec {u : Nat} : ∀ (ls : List (List Nat)) (b : InvBuilder) (done : List (List Nat)) (init : List Nat),
    b.Inv u done init → (∀ l ∈ ls, CEF.Valid u l) →
    ∃ b' init', b.addAll ls = .ok b' ∧ b'.Inv u (done ++ ls) init' := by
  intro ls
  induction ls with
  | nil => intro b done init h _; exact ⟨b, init, rfl, by simpa using h⟩
  | cons l ls ih =>
      intro b done init h hv
      obtain ⟨b1, e1, e2⟩ := InvBuilder.add_spec h (hv l (List.mem_cons_self ..))
      obtain ⟨b', init', f1, f2⟩ := ih b1 _ _ e2 (fun l' hl' => hv l' (List.mem_cons_of_mem _ hl'))
      refine ⟨b', init', ?_, by simpa using f2⟩
      unfold InvBuilder.addAll
      rw [e1]; exact f1

/-- the index holds the lists -/
structure InvIdx.Rep (ii : InvIdx) (u : Nat) (lists : List (List Nat)) : Prop where
  valid : InvLists u lists
  docs : ii.numDocs = u
  ints : ii.numIntegers = (lists.map List.length).sum
  terms : ii.numTerms = lists.length
  at' : ∀ i (hi : i < lists.length), ∃ p, ii.pointers.access i = .ok p ∧ ListAt ii.data.bits p u lists[i]

theorem InvBuilder.build_spec {u : Nat} {lists : List (List Nat)} (h : InvLists u lists) :
    ∃ b, InvBuilder.mk' u lists = .ok b ∧ b.minimal = lists.map (fun l => l.headD 0) ∧
      ∀ after, ∃ ii, b.build after = .ok ii ∧ ii.Rep u lists := by
  obtain ⟨b, init, e1, e2⟩ := InvBuilder.addAll_spec lists ⟨0, u, [0], [], BVB.empty⟩ [] [] (u := u)
    (by
      refine ⟨?_, rfl, rfl, rfl, rfl, rfl, by simp, by intro i l hl; simp at hl, by simp [BVB.empty]⟩
      exact BVB.empty_wf)
    (fun l hl => h.valid hl)
  rw [List.nil_append] at e2
  have hinit : b.pointers.dropLast = init := by rw [e2.ptrs]; simp
  refine ⟨{ b with pointers := init }, ?_, e2.min, ?_⟩
  · unfold InvBuilder.mk'
    rw [e1]
    simp only [M.ok_bind, hinit]
  · intro after
    have hsz := e2.size
    have hc := count_le_sum (lists := lists) (fun l hl => (h.each l hl).1)
    have ht := h.total
    have hs : init.Pairwise (· ≤ ·) ∧ ∀ x ∈ init, x ≤ b.bvb.size := by
      have hs := e2.sorted
      rw [e2.ptrs, List.pairwise_append] at hs
      exact ⟨hs.1, fun x hx => hs.2.2 x hx _ (by simp)⟩
    obtain ⟨e, f1, f2, f3, f4⟩ := Trie.ef_words (xs := init)
      (by
        intro hn
        have := e2.len
        rw [hn] at this
        exact h.ne (List.length_eq_zero_iff.mp this.symm))
      (fun x hx => by have := hs.2 x hx; omega) hs.1
    refine ⟨⟨b.numIntegers, b.numDocs, e, BV.build b.bvb after⟩, ?_, ?_⟩
    · unfold InvBuilder.build
      rw [show toWords init = Trie.words init from rfl, f1]
      rfl
    · refine ⟨h, e2.docs, e2.ints, ?_, ?_⟩
      · show e.size = _
        rw [f2, e2.len]
      · intro i hi
        obtain ⟨p, p1, p2, p3⟩ := e2.at' i lists[i] (by rw [List.getElem?_eq_getElem hi])
        refine ⟨p, ?_, p2⟩
        have hi2 : i < init.length := by rw [e2.len]; exact hi
        rw [List.getElem?_eq_getElem hi2] at p1
        show e.access i = _
        rw [f3 i hi2, Option.some.inj p1]

/-- an iterator of the increasing list `xs`, stored in `v`, at position `p` -/
def CEF.ItAt (v : BV) (u : Nat) (xs : List Nat) (it : CEI) (p : Nat) : Prop :=
  ∃ base, CEF.Rep v.bits base u xs ∧ (∀ x ∈ xs, x < u) ∧ xs.Pairwise (· < ·) ∧ CEF.At v base u xs it p

/-- an iterator of list `xs` of the index at position `p` -/
abbrev InvIdx.ItAt (ii : InvIdx) (u : Nat) (xs : List Nat) (it : CEI) (p : Nat) : Prop := CEF.ItAt ii.data u xs it p

theorem InvIdx.iteratorOf_pos {ii : InvIdx} {id : Nat} (h : 0 < id) : ii.iteratorOf id = ii.iterator (id - 1) := by
  unfold InvIdx.iteratorOf
  rw [if_neg (by omega)]

theorem InvIdx.iterator_spec {ii : InvIdx} {u : Nat} {lists : List (List Nat)} (h : ii.Rep u lists) (t : Nat)
    (ht : t < lists.length) : ∃ it, ii.iterator t = .ok it ∧ ii.ItAt u lists[t] it 0 := by
  obtain ⟨p, p1, p2⟩ := h.at' t ht
  obtain ⟨bi, it, e1, e2, e3, e4⟩ := readList_spec p2
  have hm := h.valid.each lists[t] (List.getElem_mem ht)
  refine ⟨it, ?_, _, p2.list, hm.2.2, hm.2.1, e4⟩
  unfold InvIdx.iterator
  rw [p1]
  simp only [M.ok_bind, e1, e2, h.docs]
  exact e3

namespace CEF.ItAt
variable {v : BV} {u : Nat} {xs : List Nat} {it : CEI} {p : Nat}

theorem size (h : CEF.ItAt v u xs it p) : it.off.n = xs.length := by
  obtain ⟨base, h1, h2, h3, h4⟩ := h
  exact (h4.ctx h1).ok.n

theorem le (h : CEF.ItAt v u xs it p) : p ≤ xs.length := by
  obtain ⟨base, h1, h2, h3, h4⟩ := h; exact h4.le

theorem pos (h : CEF.ItAt v u xs it p) : it.pos = p := by
  obtain ⟨base, h1, h2, h3, h4⟩ := h; exact h4.pos

theorem value (h : CEF.ItAt v u xs it p) : it.value = xs[p]?.getD u := by
  obtain ⟨base, h1, h2, h3, h4⟩ := h
  rw [h4.value]
  split
  · rename_i hp; rw [List.getD_eq_getElem?_getD, List.getElem?_eq_getElem hp]; rfl
  · rename_i hp; rw [List.getElem?_eq_none (by omega)]; rfl

theorem sorted (h : CEF.ItAt v u xs it p) : xs.Pairwise (· < ·) := by
  obtain ⟨base, h1, h2, h3, h4⟩ := h; exact h3

theorem bound (h : CEF.ItAt v u xs it p) : ∀ x ∈ xs, x < u := by
  obtain ⟨base, h1, h2, h3, h4⟩ := h; exact h2

theorem value_le (h : CEF.ItAt v u xs it p) : it.value ≤ u := by
  rw [h.value]
  cases hp : xs[p]? with
  | none => exact Nat.le_refl _
  | some x => exact Nat.le_of_lt (h.bound x (List.mem_of_getElem? hp))

theorem value_mem (h : CEF.ItAt v u xs it p) (hv : it.value < u) : p < xs.length ∧ it.value ∈ xs := by
  rw [h.value] at hv ⊢
  cases hp : xs[p]? with
  | none => rw [hp] at hv; simp at hv
  | some x => exact ⟨(List.getElem?_eq_some_iff.mp hp).1, List.mem_of_getElem? hp⟩

theorem lt_of_value (h : CEF.ItAt v u xs it p) (hp : p < xs.length) : it.value < u := by
  rw [h.value, List.getElem?_eq_getElem hp]
  exact h.bound _ (List.getElem_mem hp)

/-- `next` -/
theorem next (h : CEF.ItAt v u xs it p) (hp : p < xs.length) : ∃ it', it.next v = .ok it' ∧ CEF.ItAt v u xs it' (p + 1) := by
  obtain ⟨base, h1, h2, h3, h4⟩ := h
  obtain ⟨it', e1, e2⟩ := CEF.next_spec h1 h4 hp
  exact ⟨it', e1, base, h1, h2, h3, e2⟩

theorem access (h : CEF.ItAt v u xs it p) {i : Nat} (hi : i ≤ xs.length) :
    ∃ it', it.access v i = .ok it' ∧ CEF.ItAt v u xs it' i := by
  obtain ⟨base, h1, h2, h3, h4⟩ := h
  obtain ⟨it', e1, e2⟩ := CEF.access_spec h1 h4 hi
  exact ⟨it', e1, base, h1, h2, h3, e2⟩

/-- after `next()`: the value is the first element greater than the former value -/
theorem next_value (h : CEF.ItAt v u xs it p) (h' : CEF.ItAt v u xs it' (p + 1)) (hp : p < xs.length) :
    it.value < it'.value ∧ ∀ x ∈ xs, it.value < x → it'.value ≤ x := by
  have hs := h.sorted
  rw [List.pairwise_iff_getElem] at hs
  have hv : it.value = xs[p] := by rw [h.value, List.getElem?_eq_getElem hp]; rfl
  constructor
  · by_cases hp1 : p + 1 < xs.length
    · rw [hv, h'.value, List.getElem?_eq_getElem hp1]
      exact hs p (p + 1) hp hp1 (by omega)
    · rw [h'.value, List.getElem?_eq_none (by omega)]
      exact h.lt_of_value hp
  · intro x hx hlt
    obtain ⟨j, hj, rfl⟩ := List.getElem_of_mem hx
    have hpj : p < j := by
      rcases Nat.lt_or_ge p j with hc | hc
      · exact hc
      · rcases Nat.lt_or_eq_of_le hc with hc | hc
        · have := hs j p hj hp hc; omega
        · subst hc; omega
    rw [h'.value, List.getElem?_eq_getElem (by omega : p + 1 < xs.length)]
    simp only [Option.getD_some]
    rcases Nat.lt_or_eq_of_le (show p + 1 ≤ j by omega) with hc | hc
    · exact Nat.le_of_lt (hs _ _ _ hj hc)
    · subst hc; exact Nat.le_refl _

/-- `next_geq(y)` leads to the first element that is at least `y` -/
theorem nextGeq (h : CEF.ItAt v u xs it p) {y : Nat} (hy : y ≤ u) :
    ∃ it' p', it.nextGeq v y = .ok it' ∧ CEF.ItAt v u xs it' p' ∧ y ≤ it'.value ∧ ∀ x ∈ xs, y ≤ x → it'.value ≤ x := by
  obtain ⟨base, h1, h2, h3, h4⟩ := h
  obtain ⟨it', p', e1, e2, e3⟩ := CEF.nextGeq_spec h1 h2 h4 (Or.inl hy)
  have hh : CEF.ItAt v u xs it' p' := ⟨base, h1, h2, h3, e2⟩
  refine ⟨it', p', e1, hh, ?_, ?_⟩
  · rw [hh.value]
    by_cases hp : p' < xs.length
    · have := e3.here hp
      rw [List.getD_eq_getElem?_getD, List.getElem?_eq_getElem hp] at this
      rw [List.getElem?_eq_getElem hp]; exact this
    · rw [List.getElem?_eq_none (by omega)]; exact hy
  · intro x hx hyx
    obtain ⟨j, hj, rfl⟩ := List.getElem_of_mem hx
    rcases Nat.lt_or_ge j p' with hc | hc
    · have := e3.before j hc
      rw [List.getD_eq_getElem?_getD, List.getElem?_eq_getElem hj] at this
      simp only [Option.getD_some] at this; omega
    · rw [hh.value, List.getElem?_eq_getElem (by omega : p' < xs.length)]
      simp only [Option.getD_some]
      rw [List.pairwise_iff_getElem] at h3
      rcases Nat.lt_or_eq_of_le hc with hc | hc
      · exact Nat.le_of_lt (h3 _ _ _ hj hc)
      · subst hc; exact Nat.le_refl _

theorem hasNext (h : CEF.ItAt v u xs it p) : it.hasNext = decide (p < xs.length) := by
  unfold CEI.hasNext
  rw [h.size, h.pos]

end CEF.ItAt

end AC
