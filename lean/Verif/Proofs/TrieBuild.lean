import Verif.Proofs.TrieKeys
/-! # The levels the builder of the trie collects -/
namespace AC.Trie

/-- the last node of level `i` is on the path of the last completion -/
def Opened (i : Nat) (D : List Ids) : Prop := ∃ p, D.getLast? = some p ∧ i ≤ p.length

noncomputable instance (i : Nat) (D : List Ids) : Decidable (Opened i D) := Classical.propDecidable _

/-- what level `i` holds once the completions `D` are processed; see `PtrInv` for the pointers -/
structure LevelInv (i : Nat) (D : List Ids) (t : Level) : Prop where
  nodes : t.nodes = (keys i D).map (·.getLastD 0)
  left : t.left.length = (keys i D).length
  opn : Opened i D → t.sizes.length + 1 = (keys i D).length
  closed : ¬ Opened i D → t.sizes.length = (keys i D).length
  span : ∀ q (_ : q < (keys i D).length), ∃ a b, t.left[q]? = some a ∧ (t.sizes[q]? = some b ∨ t.sizes.length ≤ q ∧ b + 1 = D.length) ∧
    a ≤ b ∧ b < D.length ∧ ∀ j (_ : j < D.length), pre i D[j] = (keys i D)[q] ↔ a ≤ j ∧ j ≤ b

/-- the pointers of level `i` -/
structure PtrInv (i : Nat) (D : List Ids) (t : Level) : Prop where
  len : t.ptrs.length = t.sizes.length + 1
  zero : t.ptrs[0]? = some 0
  mono : t.ptrs.Pairwise (fun a b => a ≤ b)
  last : (t.ptrs.getLastD 0 + t.off : Nat) = (keys (i + 1) D).length
  par : ∀ k v, t.ptrs[k]? = some v → v ≤ (keys (i + 1) D).length ∧
    ∀ q (_ : q < (keys (i + 1) D).length), q < v ↔ ∃ k' : Nat, k' < k ∧ (keys i D)[k']? = some ((keys (i + 1) D)[q].take (i + 1))

theorem Compl.init {D : List Ids} {c : Ids} (h : Compl (D ++ [c])) : Compl D := by
  have hs := List.pairwise_append.mp h.sorted
  exact ⟨hs.1, fun s hs => h.pos s (by simp [hs]), fun s hs => h.ne s (by simp [hs])⟩

/-- the previous completion, as the builder keeps it: empty at the beginning -/
def prevOf (D : List Ids) : Ids := D.getLast?.getD []

theorem keys_step {i : Nat} {D : List Ids} {c : Ids} (h : Compl (D ++ [c])) :
    keys i (D ++ [c]) = if FC.lcp c (prevOf D) ≤ i ∧ i ≤ c.length then keys i D ++ [pre i c] else keys i D := by
  induction D using snocInd with
  | nil =>
      have : FC.lcp c (prevOf []) = 0 := by have := (lcp_le c []).2; simpa [prevOf] using this
      rw [this, keys_snoc]
      unfold keyStep
      simp [keys]
  | snoc D p _ =>
      have hp : prevOf (D ++ [p]) = p := by simp [prevOf]
      rw [keys_snoc, hp]
      unfold keyStep
      by_cases hi : i ≤ c.length
      · have := new_key h hi
        by_cases hl : FC.lcp c p ≤ i
        · rw [if_pos ⟨hi, this.mpr hl⟩, if_pos ⟨hl, hi⟩]
        · rw [if_neg (fun hc => hl (this.mp hc.2)), if_neg (fun hc => hl hc.1)]
      · rw [if_neg (fun hc => hi hc.1), if_neg (fun hc => hi hc.2)]

/-- a node that is not new is the last one, and its path is the one of the previous completion -/
theorem not_new {i : Nat} {D : List Ids} {c : Ids} (h : Compl (D ++ [c])) (hl : ¬ FC.lcp c (prevOf D) ≤ i) :
    Opened i D ∧ i ≤ c.length ∧ (keys i D).getLast? = some (pre i c) := by
  induction D using snocInd with
  | nil =>
      have : FC.lcp c (prevOf []) = 0 := by have := (lcp_le c []).2; simpa [prevOf] using this
      omega
  | snoc D p _ =>
      have hp : prevOf (D ++ [p]) = p := by simp [prevOf]
      rw [hp] at hl
      have := lcp_le c p
      have hi : i ≤ c.length := by omega
      refine ⟨⟨p, by simp, by omega⟩, hi, ?_⟩
      have := new_key h hi
      apply Classical.byContradiction
      intro hc
      exact hl (this.mp hc)

theorem prev_pos {D : List Ids} (h : Compl D) (i : Nat) : (0 < (prevOf D).length ∧ i ≤ (prevOf D).length) ↔ Opened i D := by
  unfold Opened prevOf
  cases hd : D.getLast? with
  | none => simp
  | some p =>
      have := h.ne p (List.mem_of_getLast? hd)
      have := List.length_pos_iff.mpr this
      simp [this]

theorem nodup_keys {i : Nat} {D : List Ids} (h : Compl D) {a b : Nat} (ha : a < (keys i D).length) (hb : b < (keys i D).length)
    (e : (keys i D)[a] = (keys i D)[b]) : a = b := by
  have hs := List.pairwise_iff_getElem.mp (keys_sorted (i := i) h)
  rcases Nat.lt_trichotomy a b with h1 | h1 | h1
  · have := hs a b ha hb h1; rw [e] at this; exact absurd this (List.lt_irrefl _)
  · exact h1
  · have := hs b a hb ha h1; rw [e] at this; exact absurd this (List.lt_irrefl _)

theorem Opened.snoc (i : Nat) (D : List Ids) (c : Ids) : Opened i (D ++ [c]) ↔ i ≤ c.length := by
  unfold Opened; simp

/-- the fields of a level after a step -/
theorem step_fields (levels l prevS : Nat) (c : Ids) (n i : Nat) (t : Level) :
    (t.step levels l prevS c n i).nodes = (if l ≤ i ∧ i ≤ c.length then t.nodes ++ [(c ++ [0]).getD i 0] else t.nodes) ∧
    (t.step levels l prevS c n i).left = (if l ≤ i ∧ i ≤ c.length then t.left ++ [n] else t.left) ∧
    (t.step levels l prevS c n i).sizes = (if l ≤ i ∧ 0 < prevS ∧ i ≤ prevS then t.sizes ++ [n - 1] else t.sizes) ∧
    (i < levels - 1 →
    (t.step levels l prevS c n i).ptrs = (if l ≤ i ∧ 0 < prevS ∧ i ≤ prevS then t.ptrs ++ [t.ptrs.getLastD 0 + t.off] else t.ptrs) ∧
    (t.step levels l prevS c n i).off = (if l ≤ i ∧ 0 < prevS ∧ i ≤ prevS then 0 else t.off) +
      (if l ≤ i + 1 ∧ i + 1 ≤ c.length then 1 else 0)) := by
  have e1 : (l ≤ i + (if l > 0 then 1 else 0) ∧ i + (if l > 0 then 1 else 0) < c.length + (if l > 0 then 1 else 0)) ↔
      (l ≤ i + 1 ∧ i + 1 ≤ c.length) := by split <;> omega
  unfold Level.step
  simp only [e1]
  by_cases h1 : l ≤ i <;> by_cases h2 : 0 < prevS <;> by_cases h3 : i < levels - 1 <;> by_cases h4 : i ≤ prevS <;>
    by_cases h5 : i ≤ c.length <;> by_cases h6 : l ≤ i + 1 <;> by_cases h7 : i + 1 ≤ c.length <;>
    simp only [h1, h2, h3, h4, h5, h6, h7, and_self, and_true, and_false, true_and, false_and, if_true, if_false, false_implies,
      true_implies, Nat.add_zero]

theorem pre_last {i : Nat} {c : Ids} (h : i ≤ c.length) : (pre i c).getLastD 0 = (c ++ [0]).getD i 0 := by
  unfold pre
  have h1 : i < (c ++ [0]).length := by simp; omega
  rw [List.getLastD_eq_getLast?, List.getLast?_eq_getElem?, List.getElem?_take, List.length_take,
    if_pos (by omega), List.getD_eq_getElem?_getD]
  congr 2
  omega

theorem LevelInv.step {i : Nat} {D : List Ids} {c : Ids} {t t' : Level} (h : LevelInv i D t) (hD : Compl (D ++ [c]))
    (en : t'.nodes = if FC.lcp c (prevOf D) ≤ i ∧ i ≤ c.length then t.nodes ++ [(c ++ [0]).getD i 0] else t.nodes)
    (el : t'.left = if FC.lcp c (prevOf D) ≤ i ∧ i ≤ c.length then t.left ++ [D.length] else t.left)
    (es : t'.sizes = if FC.lcp c (prevOf D) ≤ i ∧ 0 < (prevOf D).length ∧ i ≤ (prevOf D).length then t.sizes ++ [D.length - 1]
      else t.sizes) : LevelInv i (D ++ [c]) t' := by
  have hks := keys_step (i := i) hD
  have hD0 := hD.init
  simp only [prev_pos hD0 i] at es
  have hsn := Opened.snoc i D c
  have hlen : (D ++ [c]).length = D.length + 1 := by simp
  have hDn : Opened i D → 0 < D.length := by
    rintro ⟨p, hp, _⟩
    exact List.length_pos_of_mem (List.mem_of_getLast? hp)
  by_cases hl : FC.lcp c (prevOf D) ≤ i
  · -- nodes of this level are closed
    have hsz : t'.sizes.length = (keys i D).length := by
      rw [es]
      by_cases ho : Opened i D
      · rw [if_pos ⟨hl, ho⟩]; have := h.opn ho; simp; omega
      · rw [if_neg (fun hc => ho hc.2)]; exact h.closed ho
    have hold : ∀ q (_ : q < (keys i D).length), ∃ a b, t.left[q]? = some a ∧ t'.sizes[q]? = some b ∧ a ≤ b ∧ b < D.length ∧
        ∀ j (_ : j < D.length), pre i D[j] = (keys i D)[q] ↔ a ≤ j ∧ j ≤ b := by
      intro q hq
      obtain ⟨a, b, s1, s2, s3, s4, s5⟩ := h.span q hq
      refine ⟨a, b, s1, ?_, s3, s4, s5⟩
      rw [es]
      by_cases ho : Opened i D
      · rw [if_pos ⟨hl, ho⟩]
        have := h.opn ho
        rcases s2 with s2 | ⟨s2, s2'⟩
        · have hlt : q < t.sizes.length := by
            apply Classical.byContradiction; intro hc
            rw [List.getElem?_eq_none (by omega)] at s2; cases s2
          rw [List.getElem?_append_left hlt]; exact s2
        · have : q = t.sizes.length := by omega
          subst this
          rw [List.getElem?_concat_length]; congr 1; omega
      · rw [if_neg (fun hc => ho hc.2)]
        have := h.closed ho
        rcases s2 with s2 | ⟨s2, s2'⟩
        · exact s2
        · omega
    by_cases hc : i ≤ c.length
    · rw [if_pos ⟨hl, hc⟩] at hks en el
      have hnot : pre i c ∉ keys i D := by
        intro hm
        have hp := keys_sorted (i := i) hD
        rw [hks, List.pairwise_append] at hp
        exact List.lt_irrefl _ (hp.2.2 _ hm (pre i c) (by simp))
      refine ⟨?_, ?_, ?_, ?_, ?_⟩
      · rw [en, hks, h.nodes, List.map_append, List.map_singleton, pre_last hc]
      · rw [el, hks]; simp [h.left]
      · intro _; rw [hsz, hks]; simp
      · intro hc'; exact absurd (hsn.mpr hc) hc'
      · intro q hq
        simp only [hks] at hq ⊢
        rcases Nat.lt_or_ge q (keys i D).length with h1 | h1
        · obtain ⟨a, b, s1, s2, s3, s4, s5⟩ := hold q h1
          refine ⟨a, b, ?_, Or.inl s2, s3, by omega, ?_⟩
          · rw [el, List.getElem?_append_left (by rw [h.left]; exact h1)]; exact s1
          · intro j hj
            rw [List.getElem_append_left h1]
            rcases Nat.lt_or_ge j D.length with h2 | h2
            · rw [List.getElem_append_left h2]; exact s5 j h2
            · have : j = D.length := by omega
              subst this
              simp only [List.getElem_concat_length]
              constructor
              · intro he; exact absurd (by rw [he]; exact List.getElem_mem _) hnot
              · intro _; omega
        · have : q = (keys i D).length := by simp at hq; omega
          subst this
          refine ⟨D.length, D.length, ?_, Or.inr ⟨by omega, by omega⟩, Nat.le_refl _, by omega, ?_⟩
          · rw [el, ← h.left, List.getElem?_concat_length]
          · intro j hj
            simp only [List.getElem_concat_length]
            rcases Nat.lt_or_ge j D.length with h2 | h2
            · rw [List.getElem_append_left h2]
              constructor
              · intro he
                have : i ≤ (D[j]).length := by
                  apply Classical.byContradiction; intro hcc
                  have := pre_short (i := i) (c := D[j]) (by omega)
                  rw [he, pre_length hc] at this; omega
                exact absurd (by rw [← he]; exact keys_mem (List.getElem_mem _) this) hnot
              · intro _; omega
            · have : j = D.length := by omega
              subst this
              simp
    · rw [if_neg (fun hc' => hc hc'.2)] at hks en el
      refine ⟨?_, ?_, ?_, ?_, ?_⟩
      · rw [en, hks, h.nodes]
      · rw [el, hks, h.left]
      · intro ho; exact absurd (hsn.mp ho) hc
      · intro _; rw [hsz, hks]
      · intro q hq
        simp only [hks] at hq ⊢
        obtain ⟨a, b, s1, s2, s3, s4, s5⟩ := hold q hq
        refine ⟨a, b, by rw [el]; exact s1, Or.inl s2, s3, by omega, ?_⟩
        intro j hj
        rcases Nat.lt_or_ge j D.length with h2 | h2
        · rw [List.getElem_append_left h2]; exact s5 j h2
        · have : j = D.length := by omega
          subst this
          simp only [List.getElem_concat_length]
          constructor
          · intro he
            have := pre_short (i := i) (c := c) (by omega)
            rw [he, keys_length (List.getElem_mem _)] at this
            omega
          · intro _; omega
  · -- the last node stays open
    obtain ⟨n1, n2, n3⟩ := not_new hD hl
    rw [if_neg (fun hc => hl hc.1)] at hks en el es
    refine ⟨?_, ?_, ?_, ?_, ?_⟩
    · rw [en, hks, h.nodes]
    · rw [el, hks, h.left]
    · intro _; rw [es, hks]; exact h.opn n1
    · intro hc; exact absurd (hsn.mpr n2) hc
    · intro q hq
      simp only [hks] at hq ⊢
      have ho := h.opn n1
      have hlast : (keys i D)[(keys i D).length - 1]'(by omega) = pre i c := by
        rw [List.getLast?_eq_getElem?, List.getElem?_eq_getElem (by omega)] at n3
        exact Option.some.inj n3
      obtain ⟨a, b, s1, s2, s3, s4, s5⟩ := h.span q hq
      rcases Nat.lt_or_ge q ((keys i D).length - 1) with h1 | h1
      · have s2 : t.sizes[q]? = some b := by
          rcases s2 with s2 | s2
          · exact s2
          · omega
        refine ⟨a, b, by rw [el]; exact s1, Or.inl (by rw [es]; exact s2), s3, by omega, ?_⟩
        intro j hj
        rcases Nat.lt_or_ge j D.length with h2 | h2
        · rw [List.getElem_append_left h2]; exact s5 j h2
        · have : j = D.length := by omega
          subst this
          simp only [List.getElem_concat_length]
          constructor
          · intro he
            rw [← hlast] at he
            have := nodup_keys hD0 _ _ he
            omega
          · intro _; omega
      · have hq' : q = (keys i D).length - 1 := by omega
        have s2 : b + 1 = D.length := by
          rcases s2 with s2 | s2
          · rw [List.getElem?_eq_none (by omega)] at s2; cases s2
          · exact s2.2
        refine ⟨a, D.length, by rw [el]; exact s1, Or.inr ⟨by rw [es]; omega, by omega⟩, by omega, by omega, ?_⟩
        intro j hj
        rcases Nat.lt_or_ge j D.length with h2 | h2
        · rw [List.getElem_append_left h2, s5 j h2]; omega
        · have : j = D.length := by omega
          subst this
          simp only [List.getElem_concat_length]
          subst hq'
          rw [hlast]
          simp; omega

theorem PtrInv.step {i : Nat} {D : List Ids} {c : Ids} {t t' : Level} (hL : LevelInv i D t) (h : PtrInv i D t)
    (hD : Compl (D ++ [c]))
    (es : t'.sizes = if FC.lcp c (prevOf D) ≤ i ∧ 0 < (prevOf D).length ∧ i ≤ (prevOf D).length then t.sizes ++ [D.length - 1]
      else t.sizes)
    (ep : t'.ptrs = if FC.lcp c (prevOf D) ≤ i ∧ 0 < (prevOf D).length ∧ i ≤ (prevOf D).length then
      t.ptrs ++ [t.ptrs.getLastD 0 + t.off] else t.ptrs)
    (eo : t'.off = (if FC.lcp c (prevOf D) ≤ i ∧ 0 < (prevOf D).length ∧ i ≤ (prevOf D).length then 0 else t.off) +
      (if FC.lcp c (prevOf D) ≤ i + 1 ∧ i + 1 ≤ c.length then 1 else 0)) : PtrInv i (D ++ [c]) t' := by
  have hks := keys_step (i := i) hD
  have hks1 := keys_step (i := i + 1) hD
  have hD0 := hD.init
  simp only [prev_pos hD0 i] at es ep eo
  have hK1 : (keys (i + 1) D).length ≤ (keys (i + 1) (D ++ [c])).length := by rw [hks1]; split <;> simp
  have hK : (keys i D).length ≤ (keys i (D ++ [c])).length := by rw [hks]; split <;> simp
  have hget : ∀ k', k' < (keys i D).length → (keys i (D ++ [c]))[k']? = (keys i D)[k']? := by
    intro k' hk'
    rw [hks]; split
    · exact List.getElem?_append_left hk'
    · rfl
  have hget1 : ∀ q (hq : q < (keys (i + 1) D).length), (keys (i + 1) (D ++ [c]))[q]'(by omega) = (keys (i + 1) D)[q] := by
    intro q hq
    simp only [hks1]
    by_cases hc : FC.lcp c (prevOf D) ≤ i + 1 ∧ i + 1 ≤ c.length
    · simp only [hc, and_self, if_true, List.getElem_append_left hq]
    · simp only [hc, if_false]
  -- the new node of the next level comes after all nodes with another parent
  have hnew : ∀ k', k' < t.sizes.length → i + 1 ≤ c.length → (keys i (D ++ [c]))[k']? ≠ some (pre i c) := by
    intro k' hk' hc he
    have hlast : (keys i (D ++ [c])).getLast? = some (pre i c) := keys_last (by omega)
    rw [List.getLast?_eq_getElem?] at hlast
    have hlt : k' + 1 < (keys i (D ++ [c])).length := by
      by_cases ho : Opened i D
      · have := hL.opn ho; omega
      · have := hL.closed ho
        have hl : FC.lcp c (prevOf D) ≤ i := by
          apply Classical.byContradiction; intro hl; exact ho (not_new hD hl).1
        rw [if_pos ⟨hl, by omega⟩] at hks
        rw [hks]; simp; omega
    rw [List.getElem?_eq_getElem (by omega)] at hlast he
    have := nodup_keys hD _ _ ((Option.some.inj hlast).trans (Option.some.inj he).symm)
    omega
  have hszle : t.sizes.length ≤ (keys i D).length := by
    by_cases ho : Opened i D
    · have := hL.opn ho; omega
    · have := hL.closed ho; omega
  -- old pointers stay right
  have hold : ∀ k v, t.ptrs[k]? = some v → v ≤ (keys (i + 1) (D ++ [c])).length ∧
      ∀ q (_ : q < (keys (i + 1) (D ++ [c])).length), q < v ↔
        ∃ k' : Nat, k' < k ∧ (keys i (D ++ [c]))[k']? = some ((keys (i + 1) (D ++ [c]))[q].take (i + 1)) := by
    intro k v hk
    obtain ⟨p1, p2⟩ := h.par k v hk
    have hklt : k < t.ptrs.length := by
      apply Classical.byContradiction; intro hc
      rw [List.getElem?_eq_none (by omega)] at hk; cases hk
    have := h.len
    refine ⟨by omega, ?_⟩
    intro q hq
    rcases Nat.lt_or_ge q (keys (i + 1) D).length with h1 | h1
    · rw [p2 q h1, hget1 q h1]
      constructor
      · rintro ⟨k', a, b⟩; exact ⟨k', a, by rw [hget k' (by omega)]; exact b⟩
      · rintro ⟨k', a, b⟩; exact ⟨k', a, by rw [← hget k' (by omega)]; exact b⟩
    · constructor
      · intro _; omega
      · rintro ⟨k', a, b⟩
        exfalso
        by_cases hc : FC.lcp c (prevOf D) ≤ i + 1 ∧ i + 1 ≤ c.length
        · rw [if_pos hc] at hks1
          simp only [hks1] at b hq
          have : q = (keys (i + 1) D).length := by simp at hq; omega
          subst this
          simp only [List.getElem_concat_length, pre_take] at b
          exact hnew k' (by omega) hc.2 b
        · rw [if_neg hc] at hks1
          rw [hks1] at hq; omega
  have hlast := h.last
  have hplast : ∀ v ∈ t.ptrs, v ≤ t.ptrs.getLastD 0 := by
    intro v hv
    obtain ⟨k, hk, rfl⟩ := List.getElem_of_mem hv
    have hne : t.ptrs ≠ [] := List.ne_nil_of_length_pos (by omega)
    rw [List.getLastD_eq_getLast?, List.getLast?_eq_getElem?, List.getElem?_eq_getElem (by omega)]
    simp only [Option.getD_some]
    rcases Nat.lt_or_ge k (t.ptrs.length - 1) with h1 | h1
    · exact List.pairwise_iff_getElem.mp h.mono _ _ _ _ h1
    · have : t.ptrs.length - 1 = k := by omega
      simp only [this]; exact Nat.le_refl _
  have hk1len : (keys (i + 1) (D ++ [c])).length = (keys (i + 1) D).length +
      (if FC.lcp c (prevOf D) ≤ i + 1 ∧ i + 1 ≤ c.length then 1 else 0) := by
    rw [hks1]; split <;> simp
  by_cases hcl : FC.lcp c (prevOf D) ≤ i ∧ Opened i D
  · rw [if_pos hcl] at es ep eo
    have ho := hL.opn hcl.2
    refine ⟨?_, ?_, ?_, ?_, ?_⟩
    · rw [es, ep]; simp [h.len]
    · rw [ep, List.getElem?_append_left (by rw [h.len]; omega)]; exact h.zero
    · rw [ep, List.pairwise_append]
      refine ⟨h.mono, by simp, ?_⟩
      intro a ha b hb
      have := hplast a ha
      have hb := List.mem_singleton.mp hb
      omega
    · rw [ep, eo, hk1len, List.getLastD_concat]; omega
    · intro k v hk
      rw [ep] at hk
      rcases Nat.lt_or_ge k t.ptrs.length with h1 | h1
      · rw [List.getElem?_append_left h1] at hk; exact hold k v hk
      · have hk' : k = t.ptrs.length := by
          apply Classical.byContradiction; intro hc
          rw [List.getElem?_eq_none (by simp; omega)] at hk; cases hk
        subst hk'
        rw [List.getElem?_concat_length] at hk
        have hv := Option.some.inj hk
        refine ⟨by omega, ?_⟩
        intro q hq
        have hpl := h.len
        rcases Nat.lt_or_ge q (keys (i + 1) D).length with h2 | h2
        · constructor
          · intro _
            rw [hget1 q h2]
            obtain ⟨d, d1, d2, d3⟩ := mem_keys (List.getElem_mem h2)
            have hm : pre i d ∈ keys i D := keys_mem d1 (by omega)
            obtain ⟨k', hk', e⟩ := List.getElem_of_mem hm
            refine ⟨k', by omega, ?_⟩
            rw [hget k' hk', List.getElem?_eq_getElem hk', e, d3, pre_take]
          · intro _; omega
        · constructor
          · intro _; omega
          · rintro ⟨k', a, b⟩
            exfalso
            by_cases hc : FC.lcp c (prevOf D) ≤ i + 1 ∧ i + 1 ≤ c.length
            · rw [if_pos hc] at hks1
              simp only [hks1] at b hq
              have : q = (keys (i + 1) D).length := by simp at hq; omega
              subst this
              simp only [List.getElem_concat_length, pre_take] at b
              rcases Nat.lt_or_ge k' t.sizes.length with h3 | h3
              · exact hnew k' h3 hc.2 b
              · have hkl : (keys i (D ++ [c])).getLast? = some (pre i c) := keys_last (by omega)
                rw [if_pos ⟨hcl.1, by omega⟩] at hks
                have hkk : (keys i (D ++ [c])).length = (keys i D).length + 1 := by rw [hks]; simp
                rw [List.getLast?_eq_getElem?, List.getElem?_eq_getElem (by omega)] at hkl
                rw [List.getElem?_eq_getElem (by omega)] at b
                have := nodup_keys hD _ _ ((Option.some.inj hkl).trans (Option.some.inj b).symm)
                omega
            · rw [if_neg hc] at hks1
              rw [hks1] at hq; omega
  · rw [if_neg hcl] at es ep eo
    refine ⟨by rw [es, ep]; exact h.len, by rw [ep]; exact h.zero, by rw [ep]; exact h.mono, ?_, ?_⟩
    · rw [ep, eo, hk1len]; omega
    · intro k v hk; rw [ep] at hk; exact hold k v hk

end AC.Trie
