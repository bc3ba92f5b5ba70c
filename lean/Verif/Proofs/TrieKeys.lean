import Verif.Model.Trie
import Verif.Proofs.FcDictionary
/-! # The nodes of a level of the trie, as the distinct prefixes of the completions -/
namespace AC.Trie

theorem tabM_ok {α : Type} {f : Nat → M α} {P : Nat → α → Prop} : ∀ n, (∀ i, i < n → ∃ y, f i = .ok y ∧ P i y) →
    ∃ ys, tabM f n = .ok ys ∧ ys.length = n ∧ ∀ i (h : i < ys.length), P i ys[i]
  | 0, _ => ⟨[], rfl, rfl, fun i h => by simp at h⟩
  | n + 1, h => by
      obtain ⟨ys, e1, e2, e3⟩ := tabM_ok n (fun i hi => h i (by omega))
      obtain ⟨y, f1, f2⟩ := h n (by omega)
      refine ⟨ys ++ [y], ?_, by simp [e2], ?_⟩
      · unfold tabM; rw [e1]; simp only [M.ok_bind]; rw [f1]; rfl
      · intro i hi
        rcases Nat.lt_or_ge i ys.length with h1 | h1
        · rw [List.getElem_append_left h1]; exact e3 i h1
        · have : i = ys.length := by simp at hi; omega
          subst this
          simp only [List.getElem_concat_length]
          rw [e2]; exact f2

theorem snocInd {α : Type} {P : List α → Prop} (nil : P []) (snoc : ∀ l a, P l → P (l ++ [a])) (l : List α) : P l := by
  rw [← List.reverse_reverse l]
  generalize l.reverse = r
  induction r with
  | nil => exact nil
  | cons a r ih => rw [List.reverse_cons]; exact snoc _ _ ih

/-- the prefix of length `i + 1` of a completion with its terminator -/
def pre (i : Nat) (c : Ids) : Ids := (c ++ [0]).take (i + 1)

theorem pre_length {i : Nat} {c : Ids} (h : i ≤ c.length) : (pre i c).length = i + 1 := by
  unfold pre; simp; omega

theorem pre_take (i : Nat) (c : Ids) : (pre (i + 1) c).take (i + 1) = pre i c := by
  unfold pre; rw [List.take_take]; congr 1; omega

theorem pre_short {i : Nat} {c : Ids} (h : c.length < i) : (pre i c).length < i + 1 := by
  unfold pre; simp; omega

theorem take_not_lt : ∀ {a b : List Nat} (n : Nat), ¬ b < a → ¬ b.take n < a.take n
  | _, _, 0, _ => by simp
  | [], b, n + 1, _ => by simp
  | a :: as, [], n + 1, h => by exact absurd (List.nil_lt_cons a as) h
  | a :: as, b :: bs, n + 1, h => by
      simp only [List.take_succ_cons, List.cons_lt_cons_iff, not_or, not_and] at h ⊢
      exact ⟨h.1, fun e => take_not_lt n (h.2 e)⟩

theorem eq_of_not_lt {a b : List Nat} (h1 : ¬ a < b) (h2 : ¬ b < a) : a = b := by
  rcases FC.lt_or_eq_or_gt a b with h | h | h
  · exact absurd h h1
  · exact h
  · exact absurd h h2

theorem term_lt : ∀ {a b : Ids}, a < b → (∀ x ∈ b, 0 < x) → a ++ [0] < b ++ [0]
  | [], [], h, _ => absurd h (List.lt_irrefl _)
  | [], b :: bs, _, hb => by
      simp only [List.nil_append, List.cons_append, List.cons_lt_cons_iff]
      exact Or.inl (hb b (by simp))
  | a :: as, [], h, _ => absurd h (List.not_lt_nil _)
  | a :: as, b :: bs, h, hb => by
      simp only [List.cons_append, List.cons_lt_cons_iff] at h ⊢
      rcases h with h | ⟨h, h'⟩
      · exact Or.inl h
      · exact Or.inr ⟨h, term_lt h' (fun x hx => hb x (by simp [hx]))⟩

/-- prefixes of sorted completions are sorted -/
theorem pre_mono {a b : Ids} (h : a < b) (hb : ∀ x ∈ b, 0 < x) (i : Nat) : ¬ pre i b < pre i a :=
  take_not_lt _ (List.lt_asymm (term_lt h hb))

theorem pre_lt_of {a b : Ids} {i : Nat} (h : pre i a < pre i b) (ha : ∀ x ∈ a, 0 < x) : a < b := by
  rcases FC.lt_or_eq_or_gt a b with h' | h' | h'
  · exact h'
  · subst h'; exact absurd h (List.lt_irrefl _)
  · exact absurd h (pre_mono h' ha i)

/-- the common prefix of two different completions ends where their prefixes start to differ -/
theorem lcp_pre : ∀ {a b : Ids} (_ : a ≠ b) (_ : ∀ x ∈ a, 0 < x) (_ : ∀ x ∈ b, 0 < x) (i : Nat),
    FC.lcp a b ≤ i ↔ pre i a ≠ pre i b
  | [], [], h, _, _, _ => absurd rfl h
  | [], b :: bs, _, _, hb, i => by
      have := hb b (by simp)
      simp only [FC.lcp, Nat.zero_le, true_iff, pre, List.nil_append, List.cons_append, List.take_succ_cons]
      intro hc; simp at hc; omega
  | a :: as, [], _, ha, _, i => by
      have := ha a (by simp)
      simp only [FC.lcp, Nat.zero_le, true_iff, pre, List.nil_append, List.cons_append, List.take_succ_cons]
      intro hc; simp at hc; omega
  | a :: as, b :: bs, h, ha, hb, i => by
      unfold FC.lcp
      split
      · rename_i e
        subst e
        cases i with
        | zero => simp [pre]
        | succ i =>
            rw [Nat.add_le_add_iff_right, lcp_pre (by simpa using h) (fun x hx => ha x (by simp [hx])) (fun x hx => hb x (by simp [hx])) i]
            simp [pre]
      · rename_i e
        simp only [Nat.zero_le, true_iff, pre, List.cons_append, List.take_succ_cons]
        intro hc; simp at hc; omega

theorem lcp_le : ∀ (a b : Ids), FC.lcp a b ≤ a.length ∧ FC.lcp a b ≤ b.length
  | [], b => by simp [FC.lcp]
  | a :: as, [] => by simp [FC.lcp]
  | a :: as, b :: bs => by
      unfold FC.lcp
      have := lcp_le as bs
      split <;> simp <;> omega

/-- the distinct prefixes of length `i + 1`, in order -/
def keyStep (i : Nat) (ks : List Ids) (c : Ids) : List Ids :=
  if i ≤ c.length ∧ ks.getLast? ≠ some (pre i c) then ks ++ [pre i c] else ks

def keys (i : Nat) (D : List Ids) : List Ids := D.foldl (keyStep i) []

theorem keys_snoc (i : Nat) (D : List Ids) (c : Ids) : keys i (D ++ [c]) = keyStep i (keys i D) c := by
  simp [keys]

/-- completions a trie can be built from -/
structure Compl (L : List Ids) : Prop where
  sorted : StrictSorted L
  pos : ∀ s ∈ L, ∀ x ∈ s, 0 < x
  ne : ∀ s ∈ L, s ≠ []

theorem mem_keys {i : Nat} {k : Ids} : ∀ {D : List Ids}, k ∈ keys i D → ∃ c ∈ D, i ≤ c.length ∧ k = pre i c := by
  intro D
  induction D using snocInd with
  | nil => intro h; simp [keys] at h
  | snoc D c ih =>
      rw [keys_snoc]
      unfold keyStep
      split
      · rename_i h
        intro hk
        rcases List.mem_append.mp hk with hk | hk
        · obtain ⟨c', a, b⟩ := ih hk; exact ⟨c', by simp [a], b⟩
        · exact ⟨c, by simp, h.1, by simpa using hk⟩
      · intro hk
        obtain ⟨c', a, b⟩ := ih hk; exact ⟨c', by simp [a], b⟩

theorem keys_mem {i : Nat} {c : Ids} : ∀ {D : List Ids}, c ∈ D → i ≤ c.length → pre i c ∈ keys i D := by
  intro D
  induction D using snocInd with
  | nil => intro h; simp at h
  | snoc D c' ih =>
      intro hc hi
      rw [keys_snoc]
      unfold keyStep
      rcases List.mem_append.mp hc with h | h
      · have := ih h hi
        split
        · simp [this]
        · exact this
      · have : c = c' := by simpa using h
        subst this
        split
        · simp
        · rename_i hn
          simp only [not_and, ne_eq, Classical.not_not] at hn
          exact List.mem_of_getLast? (hn hi)

theorem keys_length {i : Nat} {D : List Ids} {k : Ids} (h : k ∈ keys i D) : k.length = i + 1 := by
  obtain ⟨c, _, h2, h3⟩ := mem_keys h
  rw [h3, pre_length h2]

theorem keys_sorted {i : Nat} : ∀ {D : List Ids}, Compl D → (keys i D).Pairwise (· < ·) := by
  intro D
  induction D using snocInd with
  | nil => intro _; simp [keys]
  | snoc D c ih =>
      intro hD
      have hs := List.pairwise_append.mp hD.sorted
      have hD' : Compl D := ⟨hs.1, fun s h => hD.pos s (by simp [h]), fun s h => hD.ne s (by simp [h])⟩
      rw [keys_snoc]
      unfold keyStep
      split
      · rename_i hc
        rw [List.pairwise_append]
        refine ⟨ih hD', by simp, ?_⟩
        intro a ha b hb
        have hb : b = pre i c := by simpa using hb
        subst hb
        have hne : keys i D ≠ [] := by intro h; rw [h] at ha; simp at ha
        -- the last key is smaller, the others are smaller than it
        have hlast := List.getLast_mem hne
        obtain ⟨d, d1, d2, d3⟩ := mem_keys hlast
        have l1 : ¬ pre i c < (keys i D).getLast hne := by
          rw [d3]; exact pre_mono (hs.2.2 d d1 c (by simp)) (hD.pos c (by simp)) i
        have l2 : (keys i D).getLast hne < pre i c := by
          rcases FC.lt_or_eq_or_gt ((keys i D).getLast hne) (pre i c) with h | h | h
          · exact h
          · exact absurd (by rw [List.getLast?_eq_some_getLast hne, h]) hc.2
          · exact absurd h l1
        obtain ⟨j, hj, rfl⟩ := List.getElem_of_mem ha
        rcases Nat.lt_or_ge j ((keys i D).length - 1) with h | h
        · refine List.lt_trans ?_ l2
          rw [List.getLast_eq_getElem]
          exact List.pairwise_iff_getElem.mp (ih hD') j _ hj (by omega) h
        · have : (keys i D).getLast hne = (keys i D)[j] := by
            rw [List.getLast_eq_getElem]; congr 1; omega
          rw [← this]; exact l2
      · exact ih hD'

/-- the last key, when the last completion is long enough -/
theorem keys_last {i : Nat} {D : List Ids} {c : Ids} (h : i ≤ c.length) : (keys i (D ++ [c])).getLast? = some (pre i c) := by
  rw [keys_snoc]
  unfold keyStep
  split
  · simp
  · rename_i hn
    simp only [not_and, ne_eq, Classical.not_not] at hn
    exact hn h

/-- a completion opens a new node exactly at the levels from its common prefix with the previous one -/
theorem new_key {i : Nat} {D : List Ids} {p c : Ids} (hD : Compl (D ++ [p] ++ [c])) (hi : i ≤ c.length) :
    (keys i (D ++ [p])).getLast? ≠ some (pre i c) ↔ FC.lcp c p ≤ i := by
  have hs := List.pairwise_append.mp hD.sorted
  have hpc : p < c := hs.2.2 p (by simp) c (by simp)
  have hne : c ≠ p := by intro h; subst h; exact List.lt_irrefl _ hpc
  rw [lcp_pre hne (hD.pos c (by simp)) (hD.pos p (by simp)) i]
  constructor
  · intro h he
    have hl : i ≤ p.length := by
      have := pre_length hi
      rcases Nat.lt_or_ge p.length i with h' | h'
      · have := pre_short h'; rw [← he] at this; omega
      · exact h'
    rw [keys_last hl, he] at h
    exact h rfl
  · intro h hc
    have hk := List.mem_of_getLast? hc
    obtain ⟨d, d1, d2, d3⟩ := mem_keys hk
    rcases List.mem_append.mp d1 with h1 | h1
    · have hdp : d < p := (List.pairwise_append.mp hs.1).2.2 d h1 p (by simp)
      have a1 := pre_mono hdp (hD.pos p (by simp)) i
      have a2 := pre_mono hpc (hD.pos c (by simp)) i
      rw [d3] at h
      rw [d3] at a2
      exact h (eq_of_not_lt a2 a1).symm.symm
    · have : d = p := by simpa using h1
      subst this; exact h d3

end AC.Trie
