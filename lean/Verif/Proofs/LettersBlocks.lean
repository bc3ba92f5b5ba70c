import Verif.Proofs.LettersOrder
import Verif.Spec.Type4
/-!
# Other letters in the same order, and conjunctive search of type 4
-/
namespace AC
open Spec

/-- a completion with other letters -/
def renameRow (f : Nat → Nat) (r : Nat × List Str) : Nat × List Str := (r.1, renameAll f r.2)

section
variable {f : Nat → Nat} (hf : Ordered f) {C : Coll}
include hf

theorem looked_rename (l : Str) (b : List Str) : Looked (renameColl f C) (rename f l) (renameAll f b) ↔ Looked C l b := by
  unfold Looked
  constructor
  · rintro ⟨x, hx, h1, h2, h3⟩
    obtain ⟨y, hy, rfl⟩ := List.mem_map.mp hx
    refine ⟨y, hy, (isTerm_rename hf y).mp h1, (reaches_rename hf _ _).mp h2, ?_⟩
    rcases h3 with h3 | ⟨z, g1, g2, g3⟩
    · exact .inl ((firstReached_rename hf _ _).mp h3)
    · obtain ⟨w, rfl⟩ := isTerm_of_rename g1
      exact .inr ⟨w, (isTerm_rename hf w).mp g1, (reaches_rename hf _ _).mp g2, (rename_lt hf _ _).mp g3⟩
  · rintro ⟨y, hy, h1, h2, h3⟩
    refine ⟨rename f y, List.mem_map.mpr ⟨y, hy, rfl⟩, (isTerm_rename hf y).mpr h1, (reaches_rename hf _ _).mpr h2, ?_⟩
    rcases h3 with h3 | ⟨w, g1, g2, g3⟩
    · exact .inl ((firstReached_rename hf _ _).mpr h3)
    · exact .inr ⟨rename f w, (isTerm_rename hf w).mpr g1, (reaches_rename hf _ _).mpr g2, (rename_lt hf _ _).mpr g3⟩

theorem foundIn_rename (l : Str) (b c : List Str) : FoundIn (renameColl f C) (rename f l) (renameAll f b) (renameAll f c) ↔ FoundIn C l b c := by
  unfold FoundIn
  constructor
  · rintro ⟨x, hx, h1, h2⟩
    obtain ⟨y, hy, rfl⟩ := List.mem_map.mp hx
    exact ⟨y, hy, (mem_renameAll hf.renaming).mp h1, (reaches_rename hf _ _).mp h2⟩
  · rintro ⟨y, hy, h1, h2⟩
    exact ⟨rename f y, (mem_renameAll hf.renaming).mpr hy, (mem_renameAll hf.renaming).mpr h1, (reaches_rename hf _ _).mpr h2⟩

theorem copies_rename (B : List (List Str)) (l : Str) (c : List Str) :
    copies (renameColl f C) (B.map (renameAll f)) (rename f l) (renameAll f c) = copies C B l c := by
  unfold copies
  rw [List.filter_map, List.length_map]
  congr 2
  funext b
  exact decide_eq_decide.mpr (and_congr (looked_rename hf l b) (foundIn_rename hf l b c))

theorem shares_rename (b c : List Str) : (∃ x ∈ renameAll f c, x ∈ renameAll f b) ↔ ∃ x ∈ c, x ∈ b := by
  constructor
  · rintro ⟨x, hx, h1⟩
    obtain ⟨y, hy, rfl⟩ := List.mem_map.mp hx
    exact ⟨y, hy, (mem_renameAll hf.renaming).mp h1⟩
  · rintro ⟨y, hy, h1⟩
    exact ⟨rename f y, (mem_renameAll hf.renaming).mpr hy, (mem_renameAll hf.renaming).mpr h1⟩

theorem known_rename (complete c : List Str) :
    (∀ t ∈ renameAll f complete, IsTerm (renameColl f C) t → t ∈ renameAll f c) ↔ ∀ t ∈ complete, IsTerm C t → t ∈ c := by
  constructor
  · intro h t ht hC
    exact (mem_renameAll hf.renaming).mp (h _ ((mem_renameAll hf.renaming).mpr ht) ((isTerm_rename hf t).mpr hC))
  · intro h t ht hC
    obtain ⟨u, hu, rfl⟩ := List.mem_map.mp ht
    exact (mem_renameAll hf.renaming).mpr (h u hu ((isTerm_rename hf u).mp hC))

theorem skipped_rename (B : List (List Str)) (complete : List Str) (r : Nat × List Str) :
    Skipped (renameColl f C) (B.map (renameAll f)) (renameAll f complete) (renameRow f r) ↔ Skipped C B complete r := by
  unfold Skipped
  constructor
  · rintro ⟨b', hb', h1, h2, h3⟩
    obtain ⟨b, hb, rfl⟩ := List.mem_map.mp hb'
    exact ⟨b, hb, (known_rename hf _ _).mp h1, (shares_rename hf _ _).mp h2, fun r' hr' hx =>
      h3 (renameRow f r') (List.mem_map.mpr ⟨r', hr', rfl⟩) ((shares_rename hf _ _).mpr hx)⟩
  · rintro ⟨b, hb, h1, h2, h3⟩
    refine ⟨renameAll f b, List.mem_map.mpr ⟨b, hb, rfl⟩, (known_rename hf _ _).mpr h1, (shares_rename hf _ _).mpr h2, fun r' hr' hx => ?_⟩
    obtain ⟨s, hs, rfl⟩ := List.mem_map.mp hr'
    exact h3 s hs ((shares_rename hf _ _).mp hx)

theorem postings_rename (b : List Str) : postings (renameColl f C) (renameAll f b) = postings C b := by
  unfold postings
  congr 1
  unfold renameAll
  rw [List.map_map]
  refine List.map_congr_left fun t _ => ?_
  show ((renameColl f C).filter fun r => decide (rename f t ∈ r.2)).length = _
  unfold renameColl
  rw [List.filter_map, List.length_map]
  congr 2
  funext r
  simp only [Function.comp]
  exact decide_eq_decide.mpr (mem_renameAll hf.renaming)

theorem isBlocks_rename {m : Nat} {B : List (List Str)} (h : IsBlocks C m B) : IsBlocks (renameColl f C) m (B.map (renameAll f)) := by
  have hfl : (B.map (renameAll f)).flatten = B.flatten.map (rename f) := by
    unfold renameAll
    rw [List.map_flatten]
  refine ⟨?_, ?_, ?_, ?_, ?_⟩
  · rw [hfl]
    exact List.pairwise_map.mpr (h.sorted.imp fun hlt => (rename_lt hf _ _).mpr hlt)
  · intro t
    rw [hfl]
    constructor
    · intro ht
      obtain ⟨u, hu, rfl⟩ := List.mem_map.mp ht
      exact (isTerm_rename hf u).mpr ((h.terms u).mp hu)
    · intro ht
      obtain ⟨u, rfl⟩ := isTerm_of_rename ht
      exact List.mem_map.mpr ⟨u, (h.terms u).mpr ((isTerm_rename hf u).mp ht), rfl⟩
  · intro b' hb' e
    obtain ⟨b, hb, rfl⟩ := List.mem_map.mp hb'
    exact h.nonempty b hb (List.map_eq_nil_iff.mp e)
  · intro b' hb'
    rw [← List.map_dropLast] at hb'
    obtain ⟨b, hb, rfl⟩ := List.mem_map.mp hb'
    rw [postings_rename hf]
    exact h.full b hb
  · intro b' hb'
    obtain ⟨b, hb, rfl⟩ := List.mem_map.mp hb'
    have e : (renameAll f b).dropLast = renameAll f b.dropLast := by
      unfold renameAll
      rw [List.map_dropLast]
    rw [e, postings_rename hf]
    rcases h.least b hb with h1 | h1
    · exact .inl (by rw [h1]; rfl)
    · exact .inr h1

theorem renameRow_inj {r s : Nat × List Str} (h : renameRow f r = renameRow f s) : r = s := by
  have h1 : (renameRow f r).1 = (renameRow f s).1 := by rw [h]
  have h2 : (renameRow f r).2 = (renameRow f s).2 := by rw [h]
  exact Prod.ext h1 (renameAll_inj hf.renaming h2)

omit hf in
theorem exists_rows {S' : Coll} (h : ∀ r ∈ S', r ∈ renameColl f C) : ∃ S : Coll, S' = S.map (renameRow f) ∧ ∀ r ∈ S, r ∈ C := by
  induction S' with
  | nil => exact ⟨[], rfl, fun _ h => absurd h (by simp)⟩
  | cons r S' ih =>
      obtain ⟨S, rfl, h2⟩ := ih fun r hr => h r (List.mem_cons_of_mem _ hr)
      obtain ⟨s, hs, rfl⟩ := List.mem_map.mp (h r List.mem_cons_self)
      refine ⟨s :: S, rfl, fun r hr => ?_⟩
      rcases List.mem_cons.mp hr with rfl | hr
      · exact hs
      · exact h2 r hr

theorem count_rows (S : Coll) (r : Nat × List Str) : (S.map (renameRow f)).count (renameRow f r) = S.count r := by
  rw [List.count, List.countP_map, List.count]
  refine List.countP_congr fun s _ => ?_
  simp only [Function.comp, beq_iff_eq]
  exact ⟨fun h => renameRow_inj hf h, fun h => by rw [h]⟩

/-- the results with other letters are results with the old letters -/
theorem result4_rename {B : List (List Str)} {complete : List Str} {last : Str} {S' : Coll}
    (h : Result4 (renameColl f C) (B.map (renameAll f)) (renameAll f complete) (rename f last) S') : ∃ S, S' = S.map (renameRow f) ∧ Result4 C B complete last S := by
  obtain ⟨S, rfl, hS⟩ := exists_rows h.mem
  have found : ∀ c, (∃ b ∈ B.map (renameAll f), Looked (renameColl f C) (rename f last) b ∧ FoundIn (renameColl f C) (rename f last) b (renameAll f c)) ↔
      ∃ b ∈ B, Looked C last b ∧ FoundIn C last b c := by
    intro c
    constructor
    · rintro ⟨b', hb', h1, h2⟩
      obtain ⟨b, hb, rfl⟩ := List.mem_map.mp hb'
      exact ⟨b, hb, (looked_rename hf _ _).mp h1, (foundIn_rename hf _ _ _).mp h2⟩
    · rintro ⟨b, hb, h1, h2⟩
      exact ⟨renameAll f b, List.mem_map.mpr ⟨b, hb, rfl⟩, (looked_rename hf _ _).mpr h1, (foundIn_rename hf _ _ _).mpr h2⟩
  refine ⟨S, rfl, hS, ?_, ?_⟩
  · intro hno
    obtain ⟨h1, h2⟩ := h.union (by
      intro t ht hT
      obtain ⟨u, hu, rfl⟩ := List.mem_map.mp ht
      exact hno u hu ((isTerm_rename hf u).mp hT))
    refine ⟨(List.pairwise_map.mp h1).imp fun h => h, fun r hr => ?_⟩
    rw [← count_rows hf, h2 (renameRow f r) (List.mem_map.mpr ⟨r, hr, rfl⟩)]
    exact copies_rename hf B last r.2
  · rintro ⟨t, ht, hT⟩
    obtain ⟨h1, h2, h3⟩ := h.inter ⟨rename f t, (mem_renameAll hf.renaming).mpr ht, (isTerm_rename hf t).mpr hT⟩
    refine ⟨(List.pairwise_map.mp h1).imp fun h => h, fun r hr => ?_, fun r hr g1 g2 g3 g4 => ?_⟩
    · obtain ⟨g1, g2, g3⟩ := h2 _ (List.mem_map.mpr ⟨r, hr, rfl⟩)
      exact ⟨(known_rename hf _ _).mp g1, fun hsk => g2 ((skipped_rename hf _ _ _).mpr hsk), (found r.2).mp g3⟩
    · have hm := h3 (renameRow f r) (List.mem_map.mpr ⟨r, hr, rfl⟩) ((known_rename hf _ _).mpr g1) (fun hsk => g2 ((skipped_rename hf _ _ _).mp hsk)) ((found r.2).mpr g3) (by
        intro b' hb' hl hx
        obtain ⟨b, hb, rfl⟩ := List.mem_map.mp hb'
        exact (foundIn_rename hf _ _ _).mpr (g4 b hb ((looked_rename hf _ _).mp hl) ((shares_rename hf _ _).mp hx)))
      obtain ⟨s, hs, e⟩ := List.mem_map.mp hm
      rw [← renameRow_inj hf e]
      exact hs

end
end AC
