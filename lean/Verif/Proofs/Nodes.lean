import Verif.Proofs.Text
import Verif.Proofs.TrieKeys
/-!
# The numbers of nodes in the file of statistics
-/
namespace AC.Pre
open AC Spec

/-- the number of nodes of level `l` -/
def valAt (l : Nat) (m : List (Nat × Nat)) : Nat := ((m.filter (fun e => e.1 == l)).map (·.2)).sum

theorem valAt_cons (l : Nat) (e : Nat × Nat) (m : List (Nat × Nat)) : valAt l (e :: m) = (if e.1 = l then e.2 else 0) + valAt l m := by
  unfold valAt
  by_cases h : e.1 = l
  · simp [h]
  · simp [h]

theorem valAt_perm {l : Nat} {m m' : List (Nat × Nat)} (h : m.Perm m') : valAt l m = valAt l m' := ((h.filter _).map _).sum_nat

theorem valAt_bump (l k : Nat) : ∀ m : List (Nat × Nat), valAt l (bump k m) = valAt l m + if k = l then 1 else 0
  | [] => by
      unfold bump
      rw [valAt_cons]
      exact Nat.add_comm _ _
  | e :: es => by
      unfold bump
      split
      · rename_i he
        subst he
        rw [valAt_cons, valAt_cons]
        dsimp only
        split <;> omega
      · rw [valAt_cons, valAt_cons, valAt_bump l k es]
        omega

theorem valAt_bumps (l : Nat) : ∀ (n s : Nat) (m : List (Nat × Nat)),
    valAt l ((List.range' s n).foldl (fun m l => bump l m) m) = valAt l m + if s ≤ l ∧ l < s + n then 1 else 0
  | 0, s, m => by
      rw [if_neg (by omega)]
      rfl
  | n + 1, s, m => by
      rw [List.range'_succ, List.foldl_cons, valAt_bumps l n (s + 1), valAt_bump]
      by_cases h : s = l
      · rw [if_pos h, if_neg (by omega), if_pos (by omega)]
      · rw [if_neg h]
        by_cases h2 : s + 1 ≤ l ∧ l < s + 1 + n
        · rw [if_pos h2, if_pos (by omega)]
        · rw [if_neg h2, if_neg (by omega)]

/-- how many of the sequences differ from the one before at level `l` -/
def newAt (l : Nat) : List Ids → Ids → Nat
  | [], _ => 0
  | q :: qs, prev => (if FC.lcp q prev ≤ l ∧ l < q.length then 1 else 0) + newAt l qs q

theorem valAt_countNodes (l : Nat) : ∀ (qs : List Ids) (prev : Ids) (m : List (Nat × Nat)),
    valAt l (countNodes (qs.map (List.map dec)) (prev.map dec) m) = valAt l m + newAt l qs prev
  | [], _, _ => rfl
  | q :: qs, prev, m => by
      rw [List.map_cons]
      unfold countNodes newAt
      rw [valAt_countNodes l qs q, common_map, List.length_map, valAt_bumps]
      have := (lcp_le q prev).1
      rw [Nat.add_sub_cancel' this]
      omega

theorem insertKey_sorted {e : Nat × Nat} : ∀ {m : List (Nat × Nat)}, m.Pairwise (fun a b => a.1 ≤ b.1) → (insertKey e m).Pairwise (fun a b => a.1 ≤ b.1)
  | [], _ => by simp [insertKey]
  | f :: fs, h => by
      unfold insertKey
      split
      · rename_i hef
        refine List.pairwise_cons.mpr ⟨?_, h⟩
        intro x hx
        rcases List.mem_cons.mp hx with rfl | hx
        · exact hef
        · exact Nat.le_trans hef ((List.pairwise_cons.mp h).1 x hx)
      · rename_i hef
        obtain ⟨h1, h2⟩ := List.pairwise_cons.mp h
        refine List.pairwise_cons.mpr ⟨?_, insertKey_sorted h2⟩
        intro x hx
        rcases List.mem_cons.mp ((insertKey_perm e fs).mem_iff.mp hx) with rfl | hx
        · omega
        · exact h1 x hx

theorem sortKeys_sorted : ∀ m, (sortKeys m).Pairwise (fun a b => a.1 ≤ b.1)
  | [] => .nil
  | _ :: es => insertKey_sorted (sortKeys_sorted es)

/-- sorted by keys which are the numbers below `n`, the values are in order -/
theorem sorted_values {m : List (Nat × Nat)} {n : Nat} (hk : m.map (·.1) = List.range n) : m.map (·.2) = (List.range n).map (fun l => valAt l m) := by
  have hlen : m.length = n := by
    have := congrArg List.length hk
    simpa using this
  apply List.ext_getElem
  · simp [hlen]
  · intro i h1 h2
    have hi : i < m.length := by simpa using h1
    have key : ∀ (m : List (Nat × Nat)) (a : Nat), m.map (·.1) = List.range' a m.length → ∀ (i : Nat) (hi : i < m.length), valAt (a + i) m = (m[i]).2 := by
      intro m
      induction m with
      | nil => intro a _ i hi; simp at hi
      | cons e m ih =>
          intro a h i hi
          rw [List.map_cons, List.length_cons, List.range'_succ, List.cons.injEq] at h
          rw [valAt_cons]
          have hz : ∀ (m : List (Nat × Nat)) (b l : Nat), m.map (·.1) = List.range' b m.length → l < b → valAt l m = 0 := by
            intro m b l h hl
            unfold valAt
            rw [List.filter_eq_nil_iff.mpr]
            · rfl
            · intro e he
              have : e.1 ∈ List.range' b m.length := by rw [← h]; exact List.mem_map.mpr ⟨e, he, rfl⟩
              rw [List.mem_range'_1] at this
              simp only [beq_iff_eq]
              omega
          cases i with
          | zero =>
              rw [if_pos (by omega), hz m (a + 1) _ h.2 (by omega)]
              rfl
          | succ i =>
              rw [if_neg (by omega)]
              have := ih (a + 1) h.2 i (by simpa using hi)
              rw [Nat.zero_add, List.getElem_cons_succ, ← this]
              congr 1
              omega
    have := key m 0 (by rw [hk, List.range_eq_range', hlen]) i hi
    simp only [List.getElem_map, List.getElem_range]
    rw [Nat.zero_add] at this
    exact this.symm

theorem lcp_prefix : ∀ (q prev : Ids) (l : Nat), l < FC.lcp q prev ↔ l < q.length ∧ q.take (l + 1) <+: prev
  | [], prev, l => by simp [FC.lcp]
  | a :: q, [], l => by simp [FC.lcp]
  | a :: q, b :: prev, l => by
      unfold FC.lcp
      rw [List.take_succ_cons, List.cons_prefix_cons, List.length_cons]
      by_cases h : a = b
      · rw [if_pos h]
        cases l with
        | zero => simp [h]
        | succ l =>
            have := lcp_prefix q prev l
            simp only [h, true_and]
            constructor
            · intro hl
              obtain ⟨h1, h2⟩ := this.mp (by omega)
              exact ⟨by omega, h2⟩
            · rintro ⟨h1, h2⟩
              have := this.mpr ⟨by omega, h2⟩
              omega
      · rw [if_neg h]
        simp [h]

/-- In a sorted list, the sequences that differ from the one before at level `l` are as many as the prefixes of length `l + 1`. -/
theorem newAt_distinct (l : Nat) : ∀ (qs : List Ids) (prev : Ids), (prev :: qs).Pairwise (· < ·) →
    ∃ D : List Ids, D.Nodup ∧ D.length = newAt l qs prev ∧ ∀ p, p ∈ D ↔ p.length = l + 1 ∧ (∃ q ∈ qs, p <+: q) ∧ ¬ p <+: prev
  | [], prev, _ => ⟨[], by simp, rfl, by simp⟩
  | q :: qs, prev, h => by
      obtain ⟨h1, h2⟩ := List.pairwise_cons.mp h
      obtain ⟨D, d1, d2, d3⟩ := newAt_distinct l qs q h2
      have hpq := h1 q (by simp)
      have later : ∀ p ∈ D, ¬ p <+: prev := by
        intro p hp hpp
        obtain ⟨_, ⟨q', hq', e⟩, hn⟩ := (d3 p).mp hp
        refine hn (FcDict.prefix_mid e ?_ ((List.pairwise_cons.mp h2).1 q' hq'))
        intro hlt
        exact FcDict.prefix_not_lt hpp (List.lt_trans hpq hlt)
      unfold newAt
      by_cases hn : FC.lcp q prev ≤ l ∧ l < q.length
      · have hlen : (q.take (l + 1)).length = l + 1 := by rw [List.length_take]; omega
        have hnp : ¬ q.take (l + 1) <+: prev := fun hp => by
          have := (lcp_prefix q prev l).mpr ⟨hn.2, hp⟩
          omega
        refine ⟨q.take (l + 1) :: D, List.nodup_cons.mpr ⟨?_, d1⟩, ?_, ?_⟩
        · intro hm
          exact ((d3 _).mp hm).2.2 (List.take_prefix _ _)
        · rw [if_pos hn, List.length_cons, d2]
          omega
        · intro p
          rw [List.mem_cons]
          constructor
          · rintro (rfl | hp)
            · exact ⟨hlen, ⟨q, by simp, List.take_prefix _ _⟩, hnp⟩
            · obtain ⟨a, ⟨q', hq', e⟩, _⟩ := (d3 p).mp hp
              exact ⟨a, ⟨q', List.mem_cons_of_mem _ hq', e⟩, later p hp⟩
          · rintro ⟨a, ⟨q', hq', e⟩, b⟩
            by_cases hpq' : p <+: q
            · exact Or.inl (by rw [← a]; exact List.prefix_iff_eq_take.mp hpq')
            · rcases List.mem_cons.mp hq' with rfl | hq'
              · exact absurd e hpq'
              · exact Or.inr ((d3 p).mpr ⟨a, ⟨q', hq', e⟩, hpq'⟩)
      · refine ⟨D, d1, by rw [if_neg hn, d2]; omega, ?_⟩
        intro p
        constructor
        · intro hp
          obtain ⟨a, ⟨q', hq', e⟩, _⟩ := (d3 p).mp hp
          exact ⟨a, ⟨q', List.mem_cons_of_mem _ hq', e⟩, later p hp⟩
        · rintro ⟨a, ⟨q', hq', e⟩, b⟩
          have hpq' : ¬ p <+: q := by
            intro hpq'
            have hl := hpq'.length_le
            have ht := List.prefix_iff_eq_take.mp hpq'
            rw [a] at ht
            have := (lcp_prefix q prev l)
            apply b
            rw [ht]
            exact (this.mp (by omega)).2
          rcases List.mem_cons.mp hq' with rfl | hq'
          · exact absurd e hpq'
          · exact (d3 p).mpr ⟨a, ⟨q', hq', e⟩, hpq'⟩

/-- the keys of the numbers of nodes are the levels -/
theorem nodes_values {qs : List Ids} {n : Nat} (hn : (countNodes (qs.map (List.map dec)) ([].map dec) []).length = n) :
    (sortKeys (countNodes (qs.map (List.map dec)) ([].map dec) [])).map (·.2) = (List.range n).map (fun l => newAt l qs []) := by
  obtain ⟨n', h1, h2, _⟩ := levelKeys_spec qs [] [] 0 (by simp) (by simp) (by simp)
  have e := countNodes_keys qs [] []
  change _ = levelKeys qs [] [] at e
  rw [← e] at h1 h2
  generalize hm : countNodes (qs.map (List.map dec)) ([].map dec) [] = m at hn h1 h2 ⊢
  have hp : ((sortKeys m).map (·.1)).Perm (List.range n') := by
    rw [List.perm_ext_iff_of_nodup (((sortKeys_perm m).map _).nodup_iff.mpr h1) List.nodup_range]
    intro x
    rw [((sortKeys_perm m).map _).mem_iff, h2, List.mem_range]
  have hk : (sortKeys m).map (·.1) = List.range n' := by
    refine List.Perm.eq_of_pairwise (le := (· ≤ ·)) (fun a b _ _ => Nat.le_antisymm) ?_ ?_ hp
    · rw [List.pairwise_map]
      exact sortKeys_sorted m
    · exact List.pairwise_lt_range.imp Nat.le_of_lt
  have hnn : n' = n := by
    have := hp.length_eq
    rw [List.length_map, (sortKeys_perm m).length_eq, List.length_range] at this
    omega
  subst hnn
  rw [sorted_values hk]
  apply List.map_congr_left
  intro l _
  rw [valAt_perm (sortKeys_perm m), ← hm, valAt_countNodes]
  exact Nat.zero_add _

/-- the id of a term or of the end of a completion -/
def idOf (terms : List Str) : Option Str → Nat
  | none => 0
  | some t => tokenId terms t

/-- the term with an id, if any -/
def ofId (terms : List Str) (i : Nat) : Option Str := if i = 0 then none else terms[i - 1]?

theorem ofId_idOf {terms : List Str} {o : Option Str} (h : ∀ t, o = some t → t ∈ terms) : ofId terms (idOf terms o) = o := by
  cases o with
  | none => rfl
  | some t =>
      have ht := h t rfl
      unfold idOf ofId tokenId
      dsimp only
      rw [if_neg (by omega), Nat.add_sub_cancel]
      have := List.idxOf_lt_length_iff.mpr ht
      rw [List.getElem?_eq_getElem this, List.getElem_idxOf this]

/-- The number of nodes of level `l` is the number of prefixes of `l + 1` terms, where the end of a completion counts as a term. -/
theorem newAt_terms {C : Coll} (hs : (C.map (·.2)).Pairwise (· < ·)) (l : Nat) :
    ∃ D : List (List (Option Str)), D.Nodup ∧ D.length = newAt l (C.map (fun r => r.2.map (tokenId (extractDict C)) ++ [0])) [] ∧
      ∀ p, p ∈ D ↔ p.length = l + 1 ∧ ∃ r ∈ C, p <+: r.2.map some ++ [none] := by
  have hmem : ∀ r ∈ C, ∀ o ∈ r.2.map some ++ [none], ∀ t, o = some t → t ∈ extractDict C := by
    intro r hr o ho t he
    subst he
    rw [mem_extractDict]
    refine ⟨r, hr, ?_⟩
    simpa using ho
  have hmap : ∀ r : Nat × List Str, r.2.map (tokenId (extractDict C)) ++ [0] = (r.2.map some ++ [none]).map (idOf (extractDict C)) := by
    intro r
    rw [List.map_append, List.map_map]
    rfl
  have hback : ∀ r ∈ C, ∀ p, p <+: r.2.map some ++ [none] → (p.map (idOf (extractDict C))).map (ofId (extractDict C)) = p := by
    intro r hr p hp
    rw [List.map_map]
    conv => rhs; rw [← List.map_id p]
    apply List.map_congr_left
    intro o ho
    exact ofId_idOf (hmem r hr o (hp.subset ho))
  have hsort : ([] :: C.map (fun r => r.2.map (tokenId (extractDict C)) ++ [0])).Pairwise (· < ·) := by
    refine List.pairwise_cons.mpr ⟨?_, ?_⟩
    · intro q hq
      obtain ⟨r, _, rfl⟩ := List.mem_map.mp hq
      cases r.2.map (tokenId (extractDict C)) <;> simp
    · rw [List.pairwise_map] at hs ⊢
      refine List.Pairwise.imp_of_mem (fun {a b} ha hb hab => Trie.term_lt ?_ ?_) hs
      · exact (map_rankOf_lt (extractDict_sorted C) (fun t ht => (mem_extractDict C t).mpr ⟨a, ha, ht⟩) (fun t ht => (mem_extractDict C t).mpr ⟨b, hb, ht⟩)).mpr hab
      · intro x hx
        obtain ⟨t, _, rfl⟩ := List.mem_map.mp hx
        exact tokenId_pos _ t
  obtain ⟨D, d1, d2, d3⟩ := newAt_distinct l _ _ hsort
  have hD : ∀ p ∈ D, ∃ r ∈ C, ∃ P, P <+: r.2.map some ++ [none] ∧ p = P.map (idOf (extractDict C)) := by
    intro p hp
    obtain ⟨_, ⟨q, hq, e⟩, _⟩ := (d3 p).mp hp
    obtain ⟨r, hr, rfl⟩ := List.mem_map.mp hq
    rw [hmap r] at e
    refine ⟨r, hr, (r.2.map some ++ [none]).take p.length, List.take_prefix _ _, ?_⟩
    rw [List.map_take]
    exact List.prefix_iff_eq_take.mp e
  have hDback : (D.map (List.map (ofId (extractDict C)))).map (List.map (idOf (extractDict C))) = D := by
    rw [List.map_map]
    conv => rhs; rw [← List.map_id D]
    apply List.map_congr_left
    intro p hp
    obtain ⟨r, hr, P, hP, rfl⟩ := hD p hp
    dsimp only [Function.comp, id]
    rw [hback r hr P hP]
  refine ⟨D.map (List.map (ofId (extractDict C))), ?_, by rw [List.length_map, d2], ?_⟩
  · have := hDback ▸ d1
    exact List.Pairwise.of_map _ (fun a b hab he => hab (by rw [he])) this
  · intro p
    rw [List.mem_map]
    constructor
    · rintro ⟨q, hq, rfl⟩
      obtain ⟨r, hr, P, hP, rfl⟩ := hD q hq
      rw [hback r hr P hP]
      have := ((d3 _).mp hq).1
      rw [List.length_map] at this
      exact ⟨this, r, hr, hP⟩
    · rintro ⟨h1, r, hr, h2⟩
      refine ⟨p.map (idOf (extractDict C)), (d3 _).mpr ⟨by rw [List.length_map, h1], ⟨_, List.mem_map.mpr ⟨r, hr, rfl⟩, ?_⟩, ?_⟩, hback r hr p h2⟩
      · rw [hmap r]
        exact h2.map _
      · intro h
        have := h.length_le
        rw [List.length_map, h1] at this
        simp at this

end AC.Pre
