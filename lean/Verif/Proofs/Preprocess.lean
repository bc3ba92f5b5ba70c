import Verif.Model.Preprocess
import Verif.Proofs.Parse
import Verif.Proofs.UnionTopK
/-!
# What the preprocessing scripts compute
-/
namespace AC
open Spec (Coll)

/-- The files describe the collection: the dictionary lists the terms in increasing order, the completions are mapped to the ranks of
their terms, the list of a term has the documents that contain it, the list of a document the terms of its completion. -/
structure FilesOf (C : Coll) (F : Files) : Prop where
  terms : StrictSorted F.terms
  memTerms : ∀ t, t ∈ F.terms ↔ ∃ r ∈ C, t ∈ r.2
  mapped : F.mapped = C.map (fun r => (r.1, r.2.map (rankOf F.terms)))
  numLists : F.inverted.length = F.terms.length
  sortedList : ∀ i, i < F.terms.length → (F.inverted.getD i []).Pairwise (· < ·)
  memList : ∀ i d, i < F.terms.length → (d ∈ F.inverted.getD i [] ↔ ∃ c, (d, c) ∈ C ∧ F.terms.getD i [] ∈ c)
  numDocs : F.forward.length = F.univ
  forward : ∀ r ∈ C, F.forward.getD r.1 [] = r.2.map (rankOf F.terms)
  noDoc : ∀ d, d ∉ C.map (·.1) → F.forward.getD d [] = []
  lt_univ : ∀ r ∈ C, r.1 < F.univ
  univ : ∃ r ∈ C, r.1 + 1 = F.univ
  levels : ∃ r ∈ C, r.2.length + 1 = F.levels
  lt_levels : ∀ r ∈ C, r.2.length < F.levels
  maxLen : ∀ r ∈ C, (r.2.map List.length).sum ≤ F.maxLen
  maxLen_mem : ∃ r ∈ C, (r.2.map List.length).sum = F.maxLen

namespace Pre

section set
variable {α : Type} [LT α] [DecidableLT α] [DecidableEq α]

theorem mem_insertSet (x y : α) : ∀ l : List α, y ∈ insertSet x l ↔ y = x ∨ y ∈ l
  | [] => by simp [insertSet]
  | z :: zs => by
      unfold insertSet
      split
      · simp
      · split
        · rename_i h; subst h; simp
        · simp [mem_insertSet x y zs]
          constructor
          · rintro (h | h | h) <;> simp [h]
          · rintro (h | h | h) <;> simp [h]

theorem mem_sortedSet (y : α) : ∀ l : List α, y ∈ sortedSet l ↔ y ∈ l
  | [] => by simp [sortedSet]
  | x :: xs => by simp [sortedSet, mem_insertSet, mem_sortedSet y xs]

theorem insertSet_sorted (htr : ∀ a b c : α, a < b → b < c → a < c) (htri : ∀ a b : α, a < b ∨ a = b ∨ b < a) (x : α) :
    ∀ l : List α, l.Pairwise (· < ·) → (insertSet x l).Pairwise (· < ·)
  | [], _ => by simp [insertSet]
  | z :: zs, h => by
      rw [List.pairwise_cons] at h
      unfold insertSet
      split
      · rename_i hx
        rw [List.pairwise_cons, List.pairwise_cons]
        refine ⟨?_, h⟩
        intro y hy
        rcases List.mem_cons.mp hy with rfl | hy
        · exact hx
        · exact htr _ _ _ hx (h.1 y hy)
      · rename_i hx
        split
        · rw [List.pairwise_cons]; exact h
        · rename_i hne
          rw [List.pairwise_cons]
          refine ⟨?_, insertSet_sorted htr htri x zs h.2⟩
          intro y hy
          rcases (mem_insertSet x y zs).mp hy with rfl | hy
          · rcases htri y z with h' | h' | h'
            · exact absurd h' hx
            · exact absurd h' hne
            · exact h'
          · exact h.1 y hy

theorem sortedSet_sorted (htr : ∀ a b c : α, a < b → b < c → a < c) (htri : ∀ a b : α, a < b ∨ a = b ∨ b < a) :
    ∀ l : List α, (sortedSet l).Pairwise (· < ·)
  | [] => by simp [sortedSet]
  | x :: xs => insertSet_sorted htr htri x _ (sortedSet_sorted htr htri xs)

end set

theorem str_tri : ∀ a b : Str, a < b ∨ a = b ∨ b < a
  | [], [] => by simp
  | [], b :: bs => Or.inl (List.nil_lt_cons ..)
  | a :: as, [] => Or.inr (Or.inr (List.nil_lt_cons ..))
  | a :: as, b :: bs => by
      simp only [List.cons_lt_cons_iff]
      rcases Nat.lt_trichotomy a b with h | h | h
      · exact Or.inl (Or.inl h)
      · subst h
        rcases str_tri as bs with h | h | h
        · exact Or.inl (Or.inr ⟨rfl, h⟩)
        · exact Or.inr (Or.inl (by rw [h]))
        · exact Or.inr (Or.inr (Or.inr ⟨rfl, h⟩))
      · exact Or.inr (Or.inr (Or.inl h))

theorem str_trans : ∀ a b c : Str, a < b → b < c → a < c := fun _ _ _ h h' => List.lt_trans h h'

theorem nat_tri : ∀ a b : Nat, a < b ∨ a = b ∨ b < a := Nat.lt_trichotomy
theorem nat_trans : ∀ a b c : Nat, a < b → b < c → a < c := fun _ _ _ h h' => Nat.lt_trans h h'

theorem extractDict_sorted (C : Coll) : StrictSorted (extractDict C) := sortedSet_sorted str_trans str_tri _

theorem mem_extractDict (C : Coll) (t : Str) : t ∈ extractDict C ↔ ∃ r ∈ C, t ∈ r.2 := by
  unfold extractDict
  rw [mem_sortedSet, List.mem_flatMap]

/-! ## The documents -/

theorem univOf_fold (C : Coll) : ∀ m, m ≤ C.foldl (fun m r => if r.1 > m then r.1 else m) m ∧
    (∀ r ∈ C, r.1 ≤ C.foldl (fun m r => if r.1 > m then r.1 else m) m) ∧
    (C.foldl (fun m r => if r.1 > m then r.1 else m) m = m ∨
      ∃ r ∈ C, r.1 = C.foldl (fun m r => if r.1 > m then r.1 else m) m) := by
  induction C with
  | nil => intro m; simp
  | cons r C ih =>
      intro m
      rw [List.foldl_cons]
      obtain ⟨h1, h2, h3⟩ := ih (if r.1 > m then r.1 else m)
      refine ⟨?_, ?_, ?_⟩
      · split at h1 <;> split <;> omega
      · intro r' hr'
        rcases List.mem_cons.mp hr' with rfl | hr'
        · split at h1 <;> split <;> omega
        · exact h2 r' hr'
      · rcases h3 with h3 | ⟨r', h3, h4⟩
        · rw [h3]
          split
          · exact Or.inr ⟨r, by simp, rfl⟩
          · exact Or.inl rfl
        · exact Or.inr ⟨r', by simp [h3], h4⟩

theorem univOf_spec {C : Coll} (hne : C ≠ []) : (∀ r ∈ C, r.1 < univOf C) ∧ ∃ r ∈ C, r.1 + 1 = univOf C := by
  obtain ⟨h1, h2, h3⟩ := univOf_fold C 0
  unfold univOf
  refine ⟨fun r hr => by have := h2 r hr; omega, ?_⟩
  rcases h3 with h3 | ⟨r, h3, h4⟩
  · cases C with
    | nil => exact absurd rfl hne
    | cons r C =>
        refine ⟨r, by simp, ?_⟩
        have := h2 r (by simp)
        omega
  · exact ⟨r, h3, by omega⟩

theorem maxStringLen_fold (f : Nat × List Str → Nat) (C : Coll) : ∀ m, m ≤ C.foldl (fun m r => max m (f r)) m ∧
    (∀ r ∈ C, f r ≤ C.foldl (fun m r => max m (f r)) m) ∧
    (C.foldl (fun m r => max m (f r)) m = m ∨ ∃ r ∈ C, f r = C.foldl (fun m r => max m (f r)) m) := by
  induction C with
  | nil => intro m; simp
  | cons r C ih =>
      intro m
      rw [List.foldl_cons]
      obtain ⟨h1, h2, h3⟩ := ih (max m (f r))
      refine ⟨by omega, ?_, ?_⟩
      · intro r' hr'
        rcases List.mem_cons.mp hr' with rfl | hr'
        · omega
        · exact h2 r' hr'
      · rcases h3 with h3 | ⟨r', h3, h4⟩
        · rw [h3]
          rcases Nat.le_total m (f r) with h | h
          · rw [Nat.max_eq_right h]; exact Or.inr ⟨r, by simp, rfl⟩
          · rw [Nat.max_eq_left h]; exact Or.inl rfl
        · exact Or.inr ⟨r', by simp [h3], h4⟩

theorem maxStringLen_spec {C : Coll} (hne : C ≠ []) : (∀ r ∈ C, (r.2.map List.length).sum ≤ maxStringLen C) ∧
    ∃ r ∈ C, (r.2.map List.length).sum = maxStringLen C := by
  obtain ⟨h1, h2, h3⟩ := maxStringLen_fold (fun r => (r.2.map List.length).sum) C 0
  refine ⟨h2, ?_⟩
  rcases h3 with h3 | ⟨r, h3, h4⟩
  · cases C with
    | nil => exact absurd rfl hne
    | cons r C =>
        refine ⟨r, by simp, ?_⟩
        have := h2 r (by simp)
        unfold maxStringLen
        omega
  · exact ⟨r, h3, h4⟩

/-! ## The levels -/

theorem addLevels_spec : ∀ (ls keys : List Nat), keys.Nodup →
    (addLevels keys ls).Nodup ∧ ∀ x, x ∈ addLevels keys ls ↔ x ∈ keys ∨ x ∈ ls
  | [], keys, h => by simp [addLevels, h]
  | l :: ls, keys, h => by
      unfold addLevels
      split
      · rename_i hl
        obtain ⟨h1, h2⟩ := addLevels_spec ls keys h
        refine ⟨h1, ?_⟩
        intro x
        rw [h2, List.mem_cons]
        constructor
        · rintro (a | a) <;> simp [a]
        · rintro (a | rfl | a) <;> simp [*]
      · rename_i hl
        obtain ⟨h1, h2⟩ := addLevels_spec ls (keys ++ [l]) (by
          rw [List.nodup_append]
          refine ⟨h, by simp, ?_⟩
          intro a ha b hb he
          simp only [List.mem_singleton] at hb
          subst hb he
          exact hl ha)
        refine ⟨h1, ?_⟩
        intro x
        rw [h2]; simp [or_assoc]

theorem lcp_le : ∀ (a b : List Nat), FC.lcp a b ≤ a.length ∧ FC.lcp a b ≤ b.length
  | [], _ => by simp [FC.lcp]
  | _ :: _, [] => by simp [FC.lcp]
  | a :: as, b :: bs => by
      unfold FC.lcp
      have := lcp_le as bs
      split <;> simp <;> omega

theorem levelKeys_spec : ∀ (qs : List Ids) (prev : Ids) (keys : List Nat) (n : Nat), keys.Nodup → (∀ x, x ∈ keys ↔ x < n) →
    prev.length ≤ n → ∃ n', (levelKeys qs prev keys).Nodup ∧ (∀ x, x ∈ levelKeys qs prev keys ↔ x < n') ∧ n ≤ n' ∧
      (∀ q ∈ qs, q.length ≤ n') ∧ (n' = n ∨ ∃ q ∈ qs, q.length = n')
  | [], prev, keys, n, h1, h2, h3 => ⟨n, h1, h2, Nat.le_refl _, by simp, by simp⟩
  | q :: qs, prev, keys, n, h1, h2, h3 => by
      obtain ⟨a1, a2⟩ := addLevels_spec (List.range' (FC.lcp q prev) (q.length - FC.lcp q prev)) keys h1
      have hl := lcp_le q prev
      obtain ⟨n', b1, b2, b3, b4, b5⟩ := levelKeys_spec qs q _ (max n q.length) a1 (by
        intro x
        rw [a2, h2, List.mem_range'_1]
        omega) (by omega)
      refine ⟨n', b1, b2, by omega, ?_, ?_⟩
      · intro q' hq'
        rcases List.mem_cons.mp hq' with rfl | hq'
        · omega
        · exact b4 q' hq'
      · rcases b5 with b5 | ⟨q', b5, b6⟩
        · rcases Nat.le_total n q.length with h | h
          · exact Or.inr ⟨q, by simp, by omega⟩
          · exact Or.inl (by omega)
        · exact Or.inr ⟨q', by simp [b5], b6⟩

theorem numLevels_spec {cs : List Ids} (hne : cs ≠ []) :
    (∃ c ∈ cs, c.length + 1 = numLevels cs) ∧ ∀ c ∈ cs, c.length < numLevels cs := by
  obtain ⟨n, h1, h2, h3, h4, h5⟩ := levelKeys_spec (cs.map (· ++ [0])) [] [] 0 (by simp) (by simp) (by simp)
  have hn : numLevels cs = n := by
    unfold numLevels
    have e1 := nodup_subset_length h1 (B := List.range n) (fun x hx => List.mem_range.mpr ((h2 x).mp hx))
    have e2 := nodup_subset_length List.nodup_range (B := levelKeys (cs.map (· ++ [0])) [] [])
      (fun x hx => (h2 x).mpr (List.mem_range.mp hx))
    simp only [List.length_range] at e1 e2
    omega
  rw [hn]
  have hall : ∀ c ∈ cs, c.length < n := by
    intro c hc
    have := h4 (c ++ [0]) (List.mem_map.mpr ⟨c, hc, rfl⟩)
    simp at this; omega
  refine ⟨?_, hall⟩
  rcases h5 with h5 | ⟨q, hq, h5⟩
  · cases cs with
    | nil => exact absurd rfl hne
    | cons c cs => have := hall c (by simp); omega
  · obtain ⟨c, hc, rfl⟩ := List.mem_map.mp hq
    exact ⟨c, hc, by simpa using h5⟩

/-! ## The lists -/

theorem tokenId_pos (terms : List Str) (t : Str) : 0 < tokenId terms t := by unfold tokenId; omega

theorem tokenId_le {terms : List Str} {t : Str} (h : t ∈ terms) : tokenId terms t ≤ terms.length := by
  have := List.idxOf_lt_length_iff.mpr h
  unfold tokenId; omega

theorem postTerms_spec (terms : List Str) (doc : Nat) : ∀ (ts : List Str) (mapped : Ids) (inv : List (List Nat)),
    (∀ t ∈ ts, tokenId terms t < inv.length) →
    (postTerms terms doc ts mapped inv).1 = mapped ++ ts.map (tokenId terms) ∧
    (postTerms terms doc ts mapped inv).2.length = inv.length ∧
    ∀ i d, d ∈ (postTerms terms doc ts mapped inv).2.getD i [] ↔
      d ∈ inv.getD i [] ∨ (d = doc ∧ i ∉ mapped ∧ i ∈ ts.map (tokenId terms))
  | [], mapped, inv, h => by simp [postTerms]
  | t :: ts, mapped, inv, h => by
      unfold postTerms
      generalize hid : tokenId terms t = id at *
      have hidl : id < inv.length := by rw [← hid]; exact h t (by simp)
      have hlen : (if id ∈ mapped then inv else inv.modify id (· ++ [doc])).length = inv.length := by
        split <;> simp
      obtain ⟨h1, h2, h3⟩ := postTerms_spec terms doc ts (mapped ++ [id]) (if id ∈ mapped then inv else inv.modify id (· ++ [doc]))
        (by intro t' ht'; rw [hlen]; exact h t' (by simp [ht']))
      refine ⟨by rw [h1]; simp [hid], by rw [h2, hlen], ?_⟩
      intro i d
      rw [h3]
      have hinv : d ∈ (if id ∈ mapped then inv else inv.modify id (· ++ [doc])).getD i [] ↔
          d ∈ inv.getD i [] ∨ (d = doc ∧ i = id ∧ id ∉ mapped) := by
        split
        · rename_i hm; simp [hm]
        · rename_i hm
          rw [List.getD_eq_getElem?_getD, List.getElem?_modify, List.getD_eq_getElem?_getD]
          by_cases hi : id = i
          · subst hi
            rw [List.getElem?_eq_getElem hidl]
            simp [hm]
          · have : ¬ i = id := fun h => hi h.symm
            simp [hi, this]
      rw [hinv, List.map_cons, List.mem_cons, hid]
      simp only [List.mem_append, List.mem_singleton]
      constructor
      · rintro ((a | ⟨a, b, c⟩) | ⟨a, b, c⟩)
        · exact Or.inl a
        · exact Or.inr ⟨a, by rw [b]; exact c, Or.inl b⟩
        · exact Or.inr ⟨a, fun hc => b (Or.inl hc), Or.inr c⟩
      · rintro (a | ⟨a, b, c⟩)
        · exact Or.inl (Or.inl a)
        · by_cases hi : i = id
          · exact Or.inl (Or.inr ⟨a, hi, by rw [← hi]; exact b⟩)
          · refine Or.inr ⟨a, ?_, ?_⟩
            · rintro (hc | hc)
              · exact b hc
              · exact hi hc
            · rcases c with c | c
              · exact absurd c hi
              · exact c

theorem postLines_spec (terms : List Str) : ∀ (C : Coll) (inv fwd : List (List Nat)), (C.map (·.1)).Nodup →
    (∀ r ∈ C, r.1 < fwd.length) → (∀ r ∈ C, ∀ t ∈ r.2, tokenId terms t < inv.length) →
    (postLines terms C inv fwd).1.length = inv.length ∧ (postLines terms C inv fwd).2.length = fwd.length ∧
    (∀ i d, d ∈ (postLines terms C inv fwd).1.getD i [] ↔
      d ∈ inv.getD i [] ∨ ∃ c, (d, c) ∈ C ∧ i ∈ c.map (tokenId terms)) ∧
    (∀ r ∈ C, (postLines terms C inv fwd).2.getD r.1 [] = r.2.map (tokenId terms)) ∧
    (∀ d, d ∉ C.map (·.1) → (postLines terms C inv fwd).2.getD d [] = fwd.getD d [])
  | [], inv, fwd, _, _, _ => by simp [postLines]
  | r :: C, inv, fwd, hnd, h1, h2 => by
      unfold postLines
      rw [List.map_cons, List.nodup_cons] at hnd
      obtain ⟨p1, p2, p3⟩ := postTerms_spec terms r.1 r.2 [] inv (h2 r (by simp))
      rw [List.nil_append] at p1
      rw [p1]
      obtain ⟨q1, q2, q3, q4, q5⟩ := postLines_spec terms C (postTerms terms r.1 r.2 [] inv).2 (fwd.set r.1 (r.2.map (tokenId terms)))
        hnd.2 (by intro r' hr'; rw [List.length_set]; exact h1 r' (by simp [hr']))
        (by intro r' hr' t ht; rw [p2]; exact h2 r' (by simp [hr']) t ht)
      refine ⟨by rw [q1, p2], by rw [q2, List.length_set], ?_, ?_, ?_⟩
      · intro i d
        rw [q3, p3]
        constructor
        · rintro ((a | ⟨a, b, c⟩) | ⟨c, a, b⟩)
          · exact Or.inl a
          · exact Or.inr ⟨r.2, by rw [a]; simp, c⟩
          · exact Or.inr ⟨c, by simp [a], b⟩
        · rintro (a | ⟨c, a, b⟩)
          · exact Or.inl (Or.inl a)
          · rcases List.mem_cons.mp a with a | a
            · exact Or.inl (Or.inr ⟨by rw [← a], by simp, by rw [← a]; exact b⟩)
            · exact Or.inr ⟨c, a, b⟩
      · intro r' hr'
        rcases List.mem_cons.mp hr' with rfl | hr'
        · rw [q5 _ hnd.1, List.getD_eq_getElem?_getD, List.getElem?_set_self (h1 _ (by simp))]
          rfl
        · exact q4 r' hr'
      · intro d hd
        simp only [List.map_cons, List.mem_cons, not_or] at hd
        rw [q5 d hd.2, List.getD_eq_getElem?_getD, List.getElem?_set_ne (by omega), List.getD_eq_getElem?_getD]

theorem mem_map_tokenId {terms : List Str} (hs : StrictSorted terms) {i : Nat} (hi : i < terms.length) {c : List Str}
    (hc : ∀ t ∈ c, t ∈ terms) : i + 1 ∈ c.map (tokenId terms) ↔ terms.getD i [] ∈ c := by
  have hget : terms.getD i [] = terms[i] := by rw [List.getD_eq_getElem?_getD, List.getElem?_eq_getElem hi]; rfl
  rw [hget, List.mem_map]
  have hnd : terms.Nodup := hs.imp (fun h => by intro he; subst he; exact List.lt_irrefl _ h)
  constructor
  · rintro ⟨t, ht, he⟩
    have hx := List.idxOf_lt_length_iff.mpr (hc t ht)
    have : terms.idxOf t = i := by unfold tokenId at he; omega
    subst this
    rw [List.getElem_idxOf]; exact ht
  · intro h
    refine ⟨terms[i], h, ?_⟩
    unfold tokenId
    rw [hnd.idxOf_getElem]

theorem run_spec {C : Coll} (hne : C ≠ []) (hnd : (C.map (·.1)).Nodup) : FilesOf C (run C) := by
  obtain ⟨u1, u2⟩ := univOf_spec hne
  obtain ⟨m1, m2⟩ := maxStringLen_spec hne
  have hin : ∀ r ∈ C, ∀ t ∈ r.2, t ∈ extractDict C := fun r hr t ht => (mem_extractDict C t).mpr ⟨r, hr, ht⟩
  obtain ⟨q1, q2, q3, q4, q5⟩ := postLines_spec (extractDict C) C (List.replicate ((extractDict C).length + 1) [])
    (List.replicate (univOf C) []) hnd (by simpa using u1)
    (by intro r hr t ht; have := tokenId_le (hin r hr t ht); simp; omega)
  rw [List.length_replicate] at q1 q2
  obtain ⟨l1, l2⟩ := numLevels_spec (cs := (mapDataset (extractDict C) C).map (·.2)) (by simpa [mapDataset] using hne)
  have hlist : ∀ i, i < (extractDict C).length → (run C).inverted.getD i [] =
      sortedSet ((postLines (extractDict C) C (List.replicate ((extractDict C).length + 1) [])
        (List.replicate (univOf C) [])).1.getD (i + 1) []) := by
    intro i hi
    simp only [run, invertedAndForward, List.getD_eq_getElem?_getD, List.getElem?_map, List.getElem?_drop, Nat.add_comm 1 i]
    rw [List.getElem?_eq_getElem (by omega)]; rfl
  constructor
  · exact extractDict_sorted C
  · exact mem_extractDict C
  · rfl
  · simp [run, invertedAndForward, q1]
  · intro i hi
    rw [hlist i hi]
    exact sortedSet_sorted nat_trans nat_tri _
  · intro i d hi
    rw [hlist i hi, mem_sortedSet, q3]
    have h0 : (List.replicate ((extractDict C).length + 1) ([] : List Nat)).getD (i + 1) [] = [] := by
      rw [List.getD_eq_getElem?_getD, List.getElem?_replicate]; split <;> rfl
    rw [h0]
    constructor
    · rintro (h | ⟨c, h, h'⟩)
      · simp at h
      · exact ⟨c, h, (mem_map_tokenId (extractDict_sorted C) hi (hin _ h)).mp h'⟩
    · rintro ⟨c, h, h'⟩
      exact Or.inr ⟨c, h, (mem_map_tokenId (extractDict_sorted C) hi (hin _ h)).mpr h'⟩
  · exact q2
  · exact q4
  · intro d hd
    have := q5 d hd
    rw [List.getD_eq_getElem?_getD (l := List.replicate _ _), List.getElem?_replicate] at this
    rw [show (run C).forward = (postLines (extractDict C) C (List.replicate ((extractDict C).length + 1) [])
        (List.replicate (univOf C) [])).2 from rfl, this]
    split <;> rfl
  · exact u1
  · exact u2
  · obtain ⟨c, hc, h⟩ := l1
    simp only [mapDataset, List.map_map, List.mem_map] at hc
    obtain ⟨r, hr, rfl⟩ := hc
    dsimp only [Function.comp] at h
    rw [List.length_map] at h
    exact ⟨r, hr, h⟩
  · intro r hr
    have := l2 (r.2.map (tokenId (extractDict C))) (by
      simp only [mapDataset, List.map_map, List.mem_map]
      exact ⟨r, hr, rfl⟩)
    rw [List.length_map] at this
    exact this
  · exact m1
  · exact m2

end Pre
end AC
