import Verif.Proofs.Removal
/-!
# The best completions when only the document ids change
-/
namespace AC
open Spec

section
variable {C D : Coll}

theorem text_id : ∀ {C : Coll}, (C.map (·.2)).Pairwise (· < ·) → ∀ {d e : Nat} {c : List Str}, (d, c) ∈ C → (e, c) ∈ C → d = e
  | [], _, _, _, _, h, _ => by cases h
  | r :: C, hs, d, e, c, h1, h2 => by
      rw [List.map_cons, List.pairwise_cons] at hs
      rcases List.mem_cons.mp h1 with g1 | g1 <;> rcases List.mem_cons.mp h2 with g2 | g2
      · rw [← g1] at g2; exact (congrArg Prod.fst g2).symm
      · have := hs.1 c (List.mem_map.mpr ⟨_, g2, rfl⟩)
        rw [← g1] at this
        exact absurd this (List.lt_irrefl _)
      · have := hs.1 c (List.mem_map.mpr ⟨_, g1, rfl⟩)
        rw [← g2] at this
        exact absurd this (List.lt_irrefl _)
      · exact text_id hs.2 g1 g2

theorem mem_of_texts (ht : C.map (·.2) = D.map (·.2)) {d : Nat} {c : List Str} (h : (d, c) ∈ C) : ∃ d', (d', c) ∈ D := by
  have : c ∈ D.map (·.2) := by rw [← ht]; exact List.mem_map.mpr ⟨_, h, rfl⟩
  obtain ⟨r, hr, e⟩ := List.mem_map.mp this
  exact ⟨r.1, by rw [← e]; exact hr⟩

theorem isTerm_texts (ht : C.map (·.2) = D.map (·.2)) (t : Str) : IsTerm C t ↔ IsTerm D t := by
  constructor
  · rintro ⟨r, hr, h⟩
    obtain ⟨d', hd⟩ := mem_of_texts (d := r.1) ht hr
    exact ⟨_, hd, h⟩
  · rintro ⟨r, hr, h⟩
    obtain ⟨d', hd⟩ := mem_of_texts (d := r.1) ht.symm hr
    exact ⟨_, hd, h⟩

theorem isFirstTerm_texts (ht : C.map (·.2) = D.map (·.2)) (t : Str) : IsFirstTerm C t ↔ IsFirstTerm D t := by
  unfold IsFirstTerm
  simp only [isTerm_texts ht]

theorem reaches_texts (ht : C.map (·.2) = D.map (·.2)) (l t : Str) : Reaches C l t ↔ Reaches D l t := by
  unfold Reaches
  rw [isFirstTerm_texts ht]

theorem isFirstCompletion_texts (ht : C.map (·.2) = D.map (·.2)) (c : List Str) : IsFirstCompletion C c ↔ IsFirstCompletion D c := by
  unfold IsFirstCompletion
  cases C with
  | nil =>
      cases D with
      | nil => simp
      | cons r D => simp at ht
  | cons q C =>
      cases D with
      | nil => simp at ht
      | cons r D =>
          simp only [List.map_cons, List.cons.injEq] at ht
          simp only [List.head?_cons, Option.some.injEq]
          constructor
          · rintro ⟨d, h⟩
            exact ⟨r.1, by rw [← show q.2 = c by rw [h], ht.1]⟩
          · rintro ⟨d, h⟩
            exact ⟨q.1, by rw [← show r.2 = c by rw [h], ← ht.1]⟩

theorem prefixFound_texts (ht : C.map (·.2) = D.map (·.2)) : PrefixFound C = PrefixFound D := by
  funext a l c
  unfold PrefixFound
  simp only [reaches_texts ht]

theorem prefixFound2_texts (ht : C.map (·.2) = D.map (·.2)) : PrefixFound2 C = PrefixFound2 D := by
  funext a l c
  unfold PrefixFound2 FirstReached
  simp only [prefixFound_texts ht, isFirstCompletion_texts ht, isTerm_texts ht, reaches_texts ht]

theorem conjFound_texts (ht : C.map (·.2) = D.map (·.2)) : ConjFound C = ConjFound D := by
  funext a l c
  unfold ConjFound
  simp only [isTerm_texts ht, reaches_texts ht]

theorem foundBy_texts (ht : C.map (·.2) = D.map (·.2)) {pre : List Str → Str → List Str → Prop} (a : Ask) : foundBy C pre a = foundBy D pre a := by
  funext c
  unfold foundBy
  rw [conjFound_texts ht]

/-- what was ahead of a result stays so: the result stays -/
theorem Spec.Best.stays {P : List Str → Prop} {k : Nat} {E E' : Coll} (hC : ValidColl C) (hD : ValidColl D) (ht : C.map (·.2) = D.map (·.2)) (b : Spec.Best C P k E)
    (b' : Spec.Best D P k E') {d d' : Nat} {c : List Str} (hc : (d, c) ∈ E) (hd : (d', c) ∈ D) (hah : ∀ e e' x, (e, x) ∈ C → (e', x) ∈ D → e' < d' → e < d) : (d', c) ∈ E' := by
  apply Classical.byContradiction
  intro hn
  obtain ⟨h1, h2⟩ := b'.complete _ hd (b.sound _ hc).2 hn
  have hle : (c :: E'.map (·.2)).length ≤ (E.map (·.2)).length := by
    apply nodup_subset_length'
    · refine List.nodup_cons.mpr ⟨?_, ?_⟩
      · intro hm
        obtain ⟨r, hr, e⟩ := List.mem_map.mp hm
        have : r.1 = d' := text_id hD.sorted (c := c) (by rw [← e]; exact (b'.sound r hr).1) hd
        have := h2 r hr
        simp only at this
        omega
      · refine List.pairwise_map.mpr (b'.sorted.imp_of_mem ?_)
        intro r s hr hs hlt e
        have : r.1 = s.1 := text_id hD.sorted (c := s.2) (by rw [← e]; exact (b'.sound r hr).1) (b'.sound s hs).1
        omega
    · intro x hx
      rcases List.mem_cons.mp hx with rfl | hx
      · exact List.mem_map.mpr ⟨_, hc, rfl⟩
      · obtain ⟨r, hr, rfl⟩ := List.mem_map.mp hx
        obtain ⟨g1, g2⟩ := b'.sound r hr
        obtain ⟨e, he⟩ := mem_of_texts (d := r.1) ht.symm g1
        have hlt := hah e r.1 r.2 he g1 (h2 r hr)
        refine List.mem_map.mpr ⟨(e, r.2), ?_, rfl⟩
        apply Classical.byContradiction
        intro hm
        have := (b.complete _ he g2 hm).2 _ hc
        simp only at this
        omega
  have := b.le
  simp only [List.length_cons, List.length_map] at hle
  omega

theorem eq_of_ordered {α : Type} {R : α → α → Prop} (hasym : ∀ x y, R x y → ¬ R y x) : ∀ {L M : List α}, L.Pairwise R → M.Pairwise R → (∀ x, x ∈ L ↔ x ∈ M) → L = M
  | [], [], _, _, _ => rfl
  | [], y :: M, _, _, h => absurd ((h y).mpr (by simp)) (by simp)
  | x :: L, [], _, _, h => absurd ((h x).mp (by simp)) (by simp)
  | x :: L, y :: M, h1, h2, h => by
      rw [List.pairwise_cons] at h1 h2
      have hxy : x = y := by
        rcases List.mem_cons.mp ((h x).mp (by simp)) with e | g1
        · exact e
        · rcases List.mem_cons.mp ((h y).mpr (by simp)) with e | g2
          · exact e.symm
          · exact absurd (h2.1 x g1) (hasym _ _ (h1.1 y g2))
      subst hxy
      have irr : ∀ z, ¬ R z z := fun z hz => hasym z z hz hz
      rw [eq_of_ordered hasym h1.2 h2.2 (fun z => ⟨fun hz => ?_, fun hz => ?_⟩)]
      · rcases List.mem_cons.mp ((h z).mp (by simp [hz])) with rfl | g
        · exact absurd (h1.1 _ hz) (irr _)
        · exact g
      · rcases List.mem_cons.mp ((h z).mpr (by simp [hz])) with rfl | g
        · exact absurd (h2.1 _ hz) (irr _)
        · exact g

/-- when only the document ids change, and not their order, the best completions are the same -/
theorem Spec.Best.same_texts {P : List Str → Prop} {k : Nat} {E E' : Coll} (hC : ValidColl C) (hD : ValidColl D) (ht : C.map (·.2) = D.map (·.2))
    (hord : ∀ d e d' e' x y, (d, x) ∈ C → (e, y) ∈ C → (d', x) ∈ D → (e', y) ∈ D → (d < e ↔ d' < e')) (b : Spec.Best C P k E)
    (b' : Spec.Best D P k E') : E'.map (·.2) = E.map (·.2) := by
  refine eq_of_ordered (R := fun x y => ∃ d e, (d, x) ∈ C ∧ (e, y) ∈ C ∧ d < e) ?_ ?_ ?_ ?_
  · rintro x y ⟨d, e, h1, h2, h3⟩ ⟨e', d', g1, g2, g3⟩
    have := text_id hC.sorted h1 g2
    have := text_id hC.sorted h2 g1
    omega
  · refine List.pairwise_map.mpr (b'.sorted.imp_of_mem ?_)
    intro r s hr hs hlt
    obtain ⟨d, h1⟩ := mem_of_texts (d := r.1) ht.symm (b'.sound r hr).1
    obtain ⟨e, h2⟩ := mem_of_texts (d := s.1) ht.symm (b'.sound s hs).1
    exact ⟨d, e, h1, h2, (hord d e r.1 s.1 r.2 s.2 h1 h2 (b'.sound r hr).1 (b'.sound s hs).1).mpr hlt⟩
  · refine List.pairwise_map.mpr (b.sorted.imp_of_mem ?_)
    intro r s hr hs hlt
    exact ⟨r.1, s.1, (b.sound r hr).1, (b.sound s hs).1, hlt⟩
  · intro x
    constructor
    · intro hx
      obtain ⟨r, hr, rfl⟩ := List.mem_map.mp hx
      obtain ⟨d, h1⟩ := mem_of_texts (d := r.1) ht.symm (b'.sound r hr).1
      refine List.mem_map.mpr ⟨(d, r.2), b'.stays hD hC ht.symm b hr h1 ?_, rfl⟩
      intro e e' x he he' hlt
      exact (hord e' d e r.1 x r.2 he' h1 he (b'.sound r hr).1).mp hlt
    · intro hx
      obtain ⟨r, hr, rfl⟩ := List.mem_map.mp hx
      obtain ⟨d, h1⟩ := mem_of_texts (d := r.1) ht (b.sound r hr).1
      refine List.mem_map.mpr ⟨(d, r.2), b.stays hC hD ht b' hr h1 ?_, rfl⟩
      intro e e' x he he' hlt
      exact (hord e r.1 e' d x r.2 he (b.sound r hr).1 he' h1).mpr hlt

end

end AC
