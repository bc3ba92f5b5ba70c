import Verif.Proofs.TrieDone
import Verif.Props.Sequences
/-! # The compressed levels of the trie -/
namespace AC.Trie
open AC.Props

/-- the nodes `r` of level `i`, whose nodes have the paths `K`: the children of the node with path `path`, and searching
among them -/
structure NodeRun (S : Seq) (K : List Ids) (i : Nat) (path : Ids) (r : Range) : Prop where
  lt : r.b < r.e
  le : r.e ≤ K.length
  mem : ∀ q (_ : q < K.length), (r.b ≤ q ∧ q < r.e) ↔ K[q].take i = path
  find : ∀ x, x < 2 ^ 32 → (∀ q (_ : q < K.length), K[q] = path ++ [x] → S.findIn r x = .ok q) ∧
    (path ++ [x] ∉ K → S.findIn r x = .ok NOT_FOUND)
  range : ∀ lex : Range, lex.b ≤ lex.e → lex.e < 2 ^ 32 → ∃ q, S.findRange r lex = .ok q ∧ q.b ≤ q.e ∧ q.e ≤ K.length ∧
    ∀ p (_ : p < K.length), (q.b ≤ p ∧ p < q.e) ↔ ∃ x, lex.b ≤ x ∧ x ≤ lex.e ∧ K[p] = path ++ [x]
  none : S.findRange r Range.invalid = .ok ⟨r.e, r.e⟩

/-- a path is its parent and its last element -/
theorem path_eq {k : Ids} {i : Nat} (h : k.length = i + 1) : k = k.take i ++ [k.getLastD 0] := by
  have hne : k ≠ [] := by intro hc; rw [hc] at h; simp at h
  rw [List.getLastD_eq_getLast?, List.getLast?_eq_some_getLast hne]
  have := List.dropLast_concat_getLast hne
  rw [List.dropLast_eq_take, h] at this
  simpa using this.symm

theorem last_append (p : Ids) (x : Nat) : (p ++ [x]).getLastD 0 = x := by simp

theorem nodeRun_of {S : Seq} {K : List Ids} {i : Nat} {path : Ids} {r : Range} (hK : ∀ k ∈ K, k.length = i + 1)
    (hp : path.length = i)
    (lt : r.b < r.e) (le : r.e ≤ K.length) (mem : ∀ q (_ : q < K.length), (r.b ≤ q ∧ q < r.e) ↔ K[q].take i = path)
    (ids : List Nat) (hlen : ids.length = r.e - r.b)
    (hids : ∀ j (_ : j < ids.length) (_ : r.b + j < K.length), ids[j] = (K[r.b + j]).getLastD 0)
    (hfind : ∀ id, id < 2 ^ 32 →
          (∀ i (hi : i < ids.length), ids[i] = id → S.findIn r id = .ok (r.b + i)) ∧
          (id ∉ ids → S.findIn r id = .ok NOT_FOUND))
    (hrange : ∀ lex : Range, lex.b ≤ lex.e → lex.e < 2 ^ 32 →
          ∃ q, S.findRange r lex = .ok q ∧ r.b ≤ q.b ∧ q.b ≤ q.e ∧ q.e ≤ r.e ∧
            ∀ i (hi : i < ids.length), (q.b ≤ r.b + i ∧ r.b + i < q.e) ↔ (lex.b ≤ ids[i] ∧ ids[i] ≤ lex.e))
    (hnone : S.findRange r Range.invalid = .ok ⟨r.e, r.e⟩) : NodeRun S K i path r := by
  have inrun : ∀ q (hq : q < K.length) x, K[q] = path ++ [x] → r.b ≤ q ∧ q < r.e := by
    intro q hq x e
    rw [mem q hq, e, ← hp, List.take_left]
  refine ⟨lt, le, mem, ?_, ?_, hnone⟩
  · intro x hx
    obtain ⟨f1, f2⟩ := hfind x hx
    refine ⟨?_, ?_⟩
    · intro q hq e
      have hb := inrun q hq x e
      have := f1 (q - r.b) (by omega) (by
        rw [hids (q - r.b) (by omega) (by omega)]
        simp only [show r.b + (q - r.b) = q by omega, e, last_append])
      rw [this]; congr 1; omega
    · intro hni
      apply f2
      intro hc
      obtain ⟨j, hj, e⟩ := List.getElem_of_mem hc
      rw [hids j hj (by omega)] at e
      apply hni
      have hq : r.b + j < K.length := by omega
      have e2 := path_eq (hK _ (List.getElem_mem hq))
      rw [(mem _ hq).mp (by omega), e] at e2
      rw [← e2]; exact List.getElem_mem _
  · intro lex h1 h2
    obtain ⟨q, q1, q2, q3, q4, q5⟩ := hrange lex h1 h2
    refine ⟨q, q1, q3, by omega, ?_⟩
    intro p hpl
    constructor
    · rintro ⟨a, b⟩
      have := (q5 (p - r.b) (by omega)).mp (by omega)
      rw [hids (p - r.b) (by omega) (by omega)] at this
      simp only [show r.b + (p - r.b) = p by omega] at this
      refine ⟨_, this.1, this.2, ?_⟩
      have e2 := path_eq (hK _ (List.getElem_mem hpl))
      rw [(mem p hpl).mp (by omega)] at e2
      exact e2
    · rintro ⟨x, a, b, e⟩
      have hb := inrun p hpl x e
      have := (q5 (p - r.b) (by omega)).mpr (by
        rw [hids (p - r.b) (by omega) (by omega)]
        simp only [show r.b + (p - r.b) = p by omega, e, last_append]
        exact ⟨a, b⟩)
      omega

theorem concat_lt {p : Ids} {x y : Nat} (h : p ++ [x] < p ++ [y]) : x < y := by
  induction p with
  | nil => simpa [List.cons_lt_cons_iff] using h
  | cons a p ih =>
      simp only [List.cons_append, List.cons_lt_cons_iff] at h
      rcases h with h | h
      · omega
      · exact ih h.2

theorem keys_card (i : Nat) (D : List Ids) : (keys i D).length ≤ D.length := by
  induction D using snocInd with
  | nil => simp [keys]
  | snoc D c ih =>
      rw [keys_snoc]; unfold keyStep; split <;> simp <;> omega

/-- the ids of the nodes are 32-bit -/
theorem last_small {i : Nat} {L : List Ids} (hs : ∀ s ∈ L, ∀ x ∈ s, x < 2 ^ 32) {k : Ids} (hk : k ∈ keys i L) :
    k.getLastD 0 < 2 ^ 32 := by
  obtain ⟨c, c1, c2, c3⟩ := mem_keys hk
  rw [c3, pre_last c2, List.getD_eq_getElem?_getD]
  rcases Nat.lt_or_ge i c.length with h | h
  · rw [List.getElem?_append_left h, List.getElem?_eq_getElem h]
    exact hs c c1 _ (List.getElem_mem _)
  · have : i = c.length := by omega
    subst this; simp

theorem toNat_words {xs : List Nat} (h : ∀ x ∈ xs, x < 2 ^ 64) : (words xs).map BitVec.toNat = xs := by
  unfold words
  rw [List.map_map]
  conv => rhs; rw [← List.map_id xs]
  apply List.map_congr_left
  intro x hx
  simp only [Function.comp, BitVec.toNat_ofNat, id]
  exact Nat.mod_eq_of_lt (h x hx)

theorem words_get {xs : List Nat} (h : ∀ x ∈ xs, x < 2 ^ 64) (i : Nat) (hi : i < xs.length) :
    ((words xs)[i]'(by simpa [words] using hi)).toNat = xs[i] := by
  simp only [words, List.getElem_map, BitVec.toNat_ofNat]
  exact Nat.mod_eq_of_lt (h _ (List.getElem_mem _))

theorem words_sorted {xs : List Nat} (h : ∀ x ∈ xs, x < 2 ^ 64) (hm : xs.Pairwise (fun a b => a ≤ b)) :
    (words xs).Pairwise (fun a b => a.toNat ≤ b.toNat) := by
  unfold words
  rw [List.pairwise_map]
  refine hm.imp_of_mem ?_
  intro a b ha hb hab
  simp only [BitVec.toNat_ofNat]
  rw [Nat.mod_eq_of_lt (h a ha), Nat.mod_eq_of_lt (h b hb)]
  exact hab

/-- building and accessing a sequence of 64-bit numbers -/
theorem ef_words {xs : List Nat} (hne : xs ≠ []) (h : ∀ x ∈ xs, x < 2 ^ 64) (hm : xs.Pairwise (fun a b => a ≤ b)) :
    ∃ e, EF.build (words xs) = .ok e ∧ e.size = xs.length ∧ (∀ i (hi : i < xs.length), e.access i = .ok xs[i]) ∧ e.seq.Rep xs := by
  obtain ⟨e, e1, e2⟩ := EF.build_spec (words xs) (by simpa [words] using hne) (words_sorted h hm)
  refine ⟨e, e1, by rw [e2.size]; simp [words], ?_, ?_⟩
  · intro i hi
    rw [EF.access_spec e2 i (by simpa [words] using hi), words_get h i hi]
  · have := EF.seq_rep e2
    rwa [toNat_words h] at this

section
variable {levels : Nat} {L : List Ids} {i : Nat} {t : Level} {A B : List Nat}

theorem Done.disjoint (d : Done levels L i t A B) (hL : Compl L) {q q' : Nat} (h : q < q') (hq' : q' < (keys i L).length)
    (hb : q < B.length) (ha : q' < A.length) : B[q] < A[q'] := by
  obtain ⟨a, b, s1, s2, s3, s4, s5⟩ := d.span q (by omega)
  obtain ⟨a', b', s1', s2', s3', s4', s5'⟩ := d.span q' hq'
  rw [List.getElem?_eq_getElem hb] at s2
  rw [List.getElem?_eq_getElem ha] at s1'
  have e1 := Option.some.inj s2
  have e2 := Option.some.inj s1'
  rw [e1, e2]
  have k1 := (s5 b s4).mpr ⟨s3, Nat.le_refl _⟩
  have k2 := (s5' a' (by omega)).mpr ⟨Nat.le_refl _, s3'⟩
  have hk := List.pairwise_iff_getElem.mp (keys_sorted (i := i) hL) q q' (by omega) hq' h
  rw [← k1, ← k2] at hk
  have hlt := pre_lt_of hk (hL.pos _ (List.getElem_mem _))
  rcases Nat.lt_trichotomy b a' with h1 | h1 | h1
  · exact h1
  · subst h1; exact absurd hlt (List.lt_irrefl _)
  · exact absurd (List.lt_trans hlt (FC.sorted_lt hL.sorted h1 s4)) (List.lt_irrefl _)

theorem Done.ab (d : Done levels L i t A B) {q : Nat} (h : q < A.length) (h' : q < B.length) : A[q] ≤ B[q] ∧ B[q] < L.length := by
  obtain ⟨a, b, s1, s2, s3, s4, s5⟩ := d.span q (by rw [← d.lenA]; exact h)
  rw [List.getElem?_eq_getElem h'] at s2
  rw [List.getElem?_eq_getElem h] at s1
  have e1 := Option.some.inj s2
  have e2 := Option.some.inj s1
  omega

theorem sumLoop_length : ∀ (s : Nat) (A B : List Nat), (sumLoop s A B).length = B.length
  | _, _, [] => by simp [sumLoop]
  | _, [], e :: es => by simp [sumLoop]
  | s, b :: bs, e :: es => by simp [sumLoop, sumLoop_length]

theorem sumLoop_zero (s : Nat) (A B : List Nat) (h : A.length = B.length) (h0 : 0 < B.length) :
    (sumLoop s A B)[0]'(by rw [sumLoop_length]; exact h0) = B[0] - A[0] + s := by
  cases A with
  | nil => simp at h; omega
  | cons a A => cases B with
    | nil => simp at h0
    | cons b B => simp [sumLoop]

theorem sumLoop_succ : ∀ (k s : Nat) (A B : List Nat) (h : A.length = B.length) (hk : k + 1 < B.length),
    (sumLoop s A B)[k + 1]'(by rw [sumLoop_length]; exact hk) =
      B[k + 1] - A[k + 1] + (sumLoop s A B)[k]'(by rw [sumLoop_length]; omega)
  | k, s, [], B, h, hk => by simp at h; omega
  | k, s, a :: A, [], h, hk => by simp at hk
  | 0, s, a :: A, b :: B, h, hk => by
      simp only [sumLoop, List.getElem_cons_succ, List.getElem_cons_zero]
      exact sumLoop_zero _ A B (by simpa using h) (by simpa using hk)
  | k + 1, s, a :: A, b :: B, h, hk => by
      simp only [sumLoop, List.getElem_cons_succ]
      exact sumLoop_succ k _ A B (by simpa using h) (by simpa using hk)

/-- the sums of the sizes stay below the last completion of the node: they fit 32 bits -/
theorem Done.sums_le (d : Done levels L i t A B) (hL : Compl L) : ∀ k (hk : k < B.length),
    (sumLoop 0 A B)[k]'(by rw [sumLoop_length]; exact hk) ≤ B[k]
  | 0, hk => by rw [sumLoop_zero 0 A B (by rw [d.lenA, d.lenB]) hk]; omega
  | k + 1, hk => by
      rw [sumLoop_succ k 0 A B (by rw [d.lenA, d.lenB]) hk]
      have := d.sums_le hL k (by omega)
      have h1 := d.disjoint hL (q := k) (q' := k + 1) (by omega) (by rw [← d.lenB]; exact hk) (by omega)
        (by rw [d.lenA, ← d.lenB]; exact hk)
      have h2 := d.ab (q := k + 1) (by rw [d.lenA, ← d.lenB]; exact hk) hk
      omega

theorem Done.left_ge (d : Done levels L i t A B) (hL : Compl L) : ∀ k (hk : k < A.length), k ≤ A[k]
  | 0, hk => Nat.zero_le _
  | k + 1, hk => by
      have := d.left_ge hL k (by omega)
      have hB : A.length = B.length := by rw [d.lenA, d.lenB]
      have h1 := d.disjoint hL (q := k) (q' := k + 1) (by omega) (by rw [← d.lenA]; exact hk) (by omega) hk
      have h2 := d.ab (q := k) (by omega) (by omega)
      omega

theorem pairwise_of_step {xs : List Nat} (h : ∀ k (hk : k + 1 < xs.length), xs[k] ≤ xs[k + 1]) : xs.Pairwise (fun a b => a ≤ b) := by
  rw [List.pairwise_iff_getElem]
  intro i j hi hj hij
  obtain ⟨d, rfl⟩ := Nat.exists_eq_add_of_lt hij
  induction d with
  | zero => exact h i hj
  | succ d ih =>
      have h1 := ih (by omega) (by omega)
      have h2 := h (i + d + 1) (by omega)
      have e : i + (d + 1) + 1 = i + d + 1 + 1 := by omega
      simp only [e]
      omega

/-- `extent` of a built level -/
theorem Done.extent (d : Done levels L i t A B) (hL : Compl L) (hne : keys i L ≠ []) (hn : L.length < 2 ^ 32) :
    ∃ l s, EF.build (words t.left) = .ok l ∧ EF.build (words t.sizes) = .ok s ∧
      ∀ (nodes : EF) (ptrs : Option EF) (q : Range), q.b < q.e → q.e ≤ (keys i L).length →
        ∃ a b, A[q.b]? = some a ∧ B[q.e - 1]? = some b ∧ extent ⟨nodes, ptrs, l, s⟩ q = .ok ⟨a, b + 1⟩ := by
  have hlen : A.length = B.length := by rw [d.lenA, d.lenB]
  have hpos : 0 < (keys i L).length := List.length_pos_iff.mpr hne
  have lt1 : t.left.length = A.length := by rw [d.left]; simp
  have lget : ∀ k (hk : k < t.left.length), t.left[k] = A[k]'(by omega) - k := by
    intro k hk
    simp only [d.left, List.getElem_mapIdx]
  have st1 : t.sizes.length = B.length := by rw [d.sizes, sumLoop_length]
  have sget : ∀ k (hk : k < t.sizes.length), t.sizes[k] = (sumLoop 0 A B)[k]'(by rw [sumLoop_length]; omega) := by
    intro k hk
    simp only [d.sizes]
  obtain ⟨l, l1, l2, l3, _⟩ := ef_words (xs := t.left) (by intro hc; rw [hc] at lt1; simp at lt1; have := d.lenA; omega)
    (by
      intro x hx
      obtain ⟨k, hk, rfl⟩ := List.getElem_of_mem hx
      have := d.ab (q := k) (by omega) (by omega)
      rw [lget k hk]; omega)
    (by
      apply pairwise_of_step
      intro k hk
      rw [lget k (by omega), lget (k + 1) hk]
      have h1 := d.disjoint hL (q := k) (q' := k + 1) (by omega) (by rw [← d.lenA]; omega) (by omega) (by omega)
      have h2 := d.ab (q := k) (by omega) (by omega)
      omega)
  obtain ⟨s, s1, s2, s3, _⟩ := ef_words (xs := t.sizes) (by intro hc; rw [hc] at st1; simp at st1; have := d.lenB; omega)
    (by
      intro x hx
      obtain ⟨k, hk, rfl⟩ := List.getElem_of_mem hx
      have := d.sums_le hL k (by omega)
      have := d.ab (q := k) (by omega) (by omega)
      rw [sget k hk]; omega)
    (by
      apply pairwise_of_step
      intro k hk
      rw [sget k (by omega), sget (k + 1) hk, sumLoop_succ k 0 A B hlen (by omega)]
      omega)
  refine ⟨l, s, l1, s1, ?_⟩
  intro nodes ptrs q hq hqe
  have hb : q.b < A.length := by have := d.lenA; omega
  have he : q.e - 1 < B.length := by have := d.lenB; omega
  refine ⟨A[q.b], B[q.e - 1], List.getElem?_eq_getElem hb, List.getElem?_eq_getElem he, ?_⟩
  unfold Trie.extent
  dsimp only
  rw [l3 q.b (by omega)]
  simp only [M.ok_bind]
  have hL1 := d.left_ge hL q.b hb
  have e1 : t.left[q.b]'(by omega) + q.b = A[q.b] := by rw [lget]; omega
  rw [e1]
  have e2 : lastLeft ⟨nodes, ptrs, l, s⟩ q.b (q.e - 1) A[q.b] = .ok (A[q.e - 1]'(by omega)) := by
    unfold lastLeft
    by_cases hc : q.e - 1 = q.b
    · rw [if_neg (by simpa using hc)]; simp only [hc]
    · rw [if_pos hc]
      dsimp only
      rw [l3 (q.e - 1) (by omega)]
      simp only [M.ok_bind]
      have := d.left_ge hL (q.e - 1) (by omega)
      rw [lget]; congr 1; omega
  rw [e2]
  simp only [M.ok_bind]
  rw [s3 (q.e - 1) (by omega)]
  simp only [M.ok_bind]
  have hab := d.ab (q := q.e - 1) (by omega) he
  by_cases hc : q.e - 1 = 0
  · have e3 : sizeBefore ⟨nodes, ptrs, l, s⟩ (q.e - 1) = .ok 0 := by unfold sizeBefore; rw [if_neg (by simpa using hc)]
    rw [e3]
    simp only [M.ok_bind]
    have := sumLoop_zero 0 A B hlen (by omega)
    have h2 := sget (q.e - 1) (by omega)
    simp only [hc] at h2 hab ⊢
    congr 2
    omega
  · obtain ⟨k, hk⟩ : ∃ k, q.e - 1 = k + 1 := ⟨q.e - 2, by omega⟩
    have e3 : sizeBefore ⟨nodes, ptrs, l, s⟩ (q.e - 1) = .ok (t.sizes[k]'(by omega)) := by
      unfold sizeBefore; rw [if_pos hc]; dsimp only
      rw [hk, Nat.add_sub_cancel, s3 k (by omega)]
    rw [e3]
    simp only [M.ok_bind]
    have := sumLoop_succ k 0 A B hlen (by omega)
    have h2 := sget (k + 1) (by omega)
    have h3 := sget k (by omega)
    simp only [hk] at hab ⊢
    congr 2
    omega

end
end AC.Trie
