import Verif.Proofs.Renumber
import Verif.Spec.Renumber
import Verif.Spec.Type4
/-!
# Conjunctive search of type 4 when only the document ids change
-/
namespace AC
open Spec

section
variable {C D : Coll}

theorem firstReached_texts (ht : C.map (·.2) = D.map (·.2)) : FirstReached C = FirstReached D := by
  funext l x
  unfold FirstReached
  simp only [isTerm_texts ht, reaches_texts ht]

theorem looked_texts (ht : C.map (·.2) = D.map (·.2)) : Looked C = Looked D := by
  funext l b
  unfold Looked
  simp only [isTerm_texts ht, reaches_texts ht, firstReached_texts ht]

theorem foundIn_texts (ht : C.map (·.2) = D.map (·.2)) : FoundIn C = FoundIn D := by
  funext l b c
  unfold FoundIn
  simp only [reaches_texts ht]

theorem copies_texts (ht : C.map (·.2) = D.map (·.2)) : copies C = copies D := by
  funext B l c
  unfold copies
  rw [looked_texts ht, foundIn_texts ht]

theorem postings_texts (ht : C.map (·.2) = D.map (·.2)) (ts : List Str) : postings C ts = postings D ts := by
  have key : ∀ (C : Coll) (t : Str), (C.filter (fun r => decide (t ∈ r.2))).length = ((C.map (·.2)).filter (fun c => decide (t ∈ c))).length := by
    intro C t
    rw [List.filter_map, List.length_map]
    rfl
  unfold postings
  congr 1
  refine List.map_congr_left (fun t _ => ?_)
  rw [key, key, ht]

theorem isBlocks_texts (ht : C.map (·.2) = D.map (·.2)) {m : Nat} {B : List (List Str)} (h : IsBlocks C m B) : IsBlocks D m B :=
  ⟨h.sorted, fun t => (h.terms t).trans (isTerm_texts ht t), h.nonempty, fun b hb => by rw [← postings_texts ht]; exact h.full b hb, fun b hb => by
    rw [← postings_texts ht]; exact h.least b hb⟩

theorem sameOrder_symm (h : SameOrder C D) : SameOrder D C := ⟨h.1.symm, fun d e d' e' x y h1 h2 h3 h4 => (h.2 d' e' d e x y h3 h4 h1 h2).symm⟩

theorem skipped_texts (hso : SameOrder C D) (B : List (List Str)) (complete : List Str) {d d' : Nat} {c : List Str} (h1 : (d, c) ∈ C) (h2 : (d', c) ∈ D)
    (h : Skipped C B complete (d, c)) : Skipped D B complete (d', c) := by
  obtain ⟨b, hb, g1, g2, g3⟩ := h
  refine ⟨b, hb, fun t ht ht' => g1 t ht ((isTerm_texts hso.1 t).mpr ht'), g2, ?_⟩
  intro r hr hx
  obtain ⟨e, he⟩ := mem_of_texts (d := r.1) hso.1.symm hr
  have hle := g3 _ he hx
  have := (hso.2 e d r.1 d' r.2 c he h1 hr h2)
  simp only at *
  omega

theorem count_text (hC : ValidColl C) {S : Coll} (hS : ∀ r ∈ S, r ∈ C) {d : Nat} {c : List Str} (h : (d, c) ∈ C) : (S.map (·.2)).count c = S.count (d, c) := by
  rw [List.count, List.countP_map, List.count]
  refine List.countP_congr (fun r hr => ?_)
  simp only [Function.comp, beq_iff_eq]
  constructor
  · intro e
    have : r.1 = d := text_id hC.sorted (c := c) (by rw [← e]; exact hS r hr) h
    rw [← this, ← e]
  · intro e
    rw [e]

/-- the texts of the results are the same in the same order -/
theorem Result4.same_texts (hC : ValidColl C) (hD : ValidColl D) (hso : SameOrder C D) {B : List (List Str)} {complete : List Str} {last : Str} {S S' : Coll}
    (hS : Result4 C B complete last S) (hS' : Result4 D B complete last S') (hset : (∀ t ∈ complete, ¬ IsTerm C t) ∨ ∀ r ∈ C, (∀ t ∈ complete, IsTerm C t → t ∈ r.2) →
      (∃ b ∈ B, Looked C last b ∧ FoundIn C last b r.2) → ∀ b ∈ B, Looked C last b → (∃ x ∈ r.2, x ∈ b) → FoundIn C last b r.2) : S'.map (·.2) = S.map (·.2) := by
  by_cases hkn : ∃ t ∈ complete, IsTerm C t
  · have hkn' : ∃ t ∈ complete, IsTerm D t := by
      obtain ⟨t, h1, h2⟩ := hkn
      exact ⟨t, h1, (isTerm_texts hso.1 t).mp h2⟩
    obtain ⟨a1, a2, a3⟩ := hS.inter hkn
    obtain ⟨b1, b2, b3⟩ := hS'.inter hkn'
    have hset1 : ∀ r ∈ C, (∀ t ∈ complete, IsTerm C t → t ∈ r.2) → (∃ b ∈ B, Looked C last b ∧ FoundIn C last b r.2) →
        ∀ b ∈ B, Looked C last b → (∃ x ∈ r.2, x ∈ b) → FoundIn C last b r.2 := by
      rcases hset with h | h
      · obtain ⟨t, h1, h2⟩ := hkn
        exact absurd h2 (h t h1)
      · exact h
    refine eq_of_ordered (R := fun x y => ∃ d e, (d, x) ∈ C ∧ (e, y) ∈ C ∧ d < e) ?_ ?_ ?_ ?_
    · rintro x y ⟨d, e, h1, h2, h3⟩ ⟨e', d', g1, g2, g3⟩
      have := text_id hC.sorted h1 g2
      have := text_id hC.sorted h2 g1
      omega
    · refine List.pairwise_map.mpr (b1.imp_of_mem ?_)
      intro r s hr hs hlt
      obtain ⟨d, h1⟩ := mem_of_texts (d := r.1) hso.1.symm (hS'.mem r hr)
      obtain ⟨e, h2⟩ := mem_of_texts (d := s.1) hso.1.symm (hS'.mem s hs)
      exact ⟨d, e, h1, h2, (hso.2 d e r.1 s.1 r.2 s.2 h1 h2 (hS'.mem r hr) (hS'.mem s hs)).mpr hlt⟩
    · refine List.pairwise_map.mpr (a1.imp_of_mem ?_)
      intro r s hr hs hlt
      exact ⟨r.1, s.1, hS.mem r hr, hS.mem s hs, hlt⟩
    · intro x
      constructor
      · intro hx
        obtain ⟨r, hr, rfl⟩ := List.mem_map.mp hx
        obtain ⟨d, h1⟩ := mem_of_texts (d := r.1) hso.1.symm (hS'.mem r hr)
        obtain ⟨g1, g2, g3⟩ := b2 r hr
        rw [← looked_texts hso.1, ← foundIn_texts hso.1] at g3
        have g1' : ∀ t ∈ complete, IsTerm C t → t ∈ r.2 := fun t h1 h2 => g1 t h1 ((isTerm_texts hso.1 t).mp h2)
        exact List.mem_map.mpr ⟨(d, r.2), a3 _ h1 g1' (fun h => g2 (skipped_texts hso B complete h1 (hS'.mem r hr) h)) g3 (hset1 _ h1 g1' g3), rfl⟩
      · intro hx
        obtain ⟨r, hr, rfl⟩ := List.mem_map.mp hx
        obtain ⟨d, h1⟩ := mem_of_texts (d := r.1) hso.1 (hS.mem r hr)
        obtain ⟨g1, g2, g3⟩ := a2 r hr
        have hall := hset1 r (hS.mem r hr) g1 g3
        rw [looked_texts hso.1, foundIn_texts hso.1] at g3 hall
        exact List.mem_map.mpr ⟨(d, r.2), b3 _ h1 (fun t h1 h2 => g1 t h1 ((isTerm_texts hso.1 t).mpr h2))
          (fun h => g2 (skipped_texts (sameOrder_symm hso) B complete h1 (hS.mem r hr) h)) g3 hall, rfl⟩
  · have hno : ∀ t ∈ complete, ¬ IsTerm C t := fun t h1 h2 => hkn ⟨t, h1, h2⟩
    obtain ⟨a1, a2⟩ := hS.union hno
    obtain ⟨b1, b2⟩ := hS'.union (fun t h1 h2 => hno t h1 ((isTerm_texts hso.1 t).mpr h2))
    refine List.Perm.eq_of_pairwise (le := fun x y => ∃ d e, (d, x) ∈ C ∧ (e, y) ∈ C ∧ d ≤ e) ?_ ?_ ?_ ?_
    · rintro x y _ _ ⟨d, e, h1, h2, h3⟩ ⟨e', d', g1, g2, g3⟩
      have := text_id hC.sorted h1 g2
      have := text_id hC.sorted h2 g1
      have : d = e := by omega
      exact hC.ready.unique h1 (this ▸ h2)
    · refine List.pairwise_map.mpr (b1.imp_of_mem ?_)
      intro r s hr hs hle
      obtain ⟨d, h1⟩ := mem_of_texts (d := r.1) hso.1.symm (hS'.mem r hr)
      obtain ⟨e, h2⟩ := mem_of_texts (d := s.1) hso.1.symm (hS'.mem s hs)
      have := (hso.2 e d s.1 r.1 s.2 r.2 h2 h1 (hS'.mem s hs) (hS'.mem r hr))
      exact ⟨d, e, h1, h2, by omega⟩
    · refine List.pairwise_map.mpr (a1.imp_of_mem ?_)
      intro r s hr hs hle
      exact ⟨r.1, s.1, hS.mem r hr, hS.mem s hs, hle⟩
    · rw [List.perm_iff_count]
      intro c
      by_cases hc : ∃ d, (d, c) ∈ C
      · obtain ⟨d, h1⟩ := hc
        obtain ⟨d', h2⟩ := mem_of_texts hso.1 h1
        rw [count_text hC hS.mem h1, count_text hD hS'.mem h2, a2 _ h1, b2 _ h2, copies_texts hso.1]
      · rw [List.count_eq_zero.mpr, List.count_eq_zero.mpr]
        · intro hm
          obtain ⟨r, hr, rfl⟩ := List.mem_map.mp hm
          exact hc ⟨r.1, hS.mem r hr⟩
        · intro hm
          obtain ⟨r, hr, rfl⟩ := List.mem_map.mp hm
          exact hc (mem_of_texts (d := r.1) hso.1.symm (hS'.mem r hr))

end

end AC
