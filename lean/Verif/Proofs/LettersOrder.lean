import Verif.Proofs.Letters
import Verif.Spec.Actual
/-!
# Other letters in the same order
-/
namespace AC
open Spec

theorem Spec.Ordered.renaming {f : Nat → Nat} (hf : Ordered f) : Renaming f := by
  refine ⟨fun a b h => ?_, hf.space⟩
  rcases Nat.lt_trichotomy a b with h1 | h1 | h1
  · have := hf.mono a b h1
    omega
  · exact h1
  · have := hf.mono b a h1
    omega

section
variable {f : Nat → Nat} (hf : Ordered f)
include hf

theorem rename_lt (s t : Str) : rename f s < rename f t ↔ s < t := by
  unfold rename
  induction s generalizing t with
  | nil => cases t <;> simp
  | cons a s ih =>
      cases t with
      | nil => simp
      | cons b t =>
          rw [List.map_cons, List.map_cons, List.cons_lt_cons_iff, List.cons_lt_cons_iff, ih]
          have : f a < f b ↔ a < b := by
            constructor
            · intro h
              apply Classical.byContradiction
              intro hn
              rcases Nat.lt_or_eq_of_le (Nat.le_of_not_lt hn) with h1 | h1
              · have := hf.mono b a h1
                omega
              · rw [h1] at h
                omega
            · exact hf.mono a b
          rw [this]
          have e : f a = f b ↔ a = b := ⟨hf.renaming.inj a b, fun h => by rw [h]⟩
          rw [e]

variable {C : Coll}

theorem renamed_renameColl : Renamed f C (renameColl f C) := by
  intro r
  unfold renameColl
  rw [List.mem_map]
  exact ⟨fun ⟨s, h1, h2⟩ => ⟨s, h1, h2.symm⟩, fun ⟨s, h1, h2⟩ => ⟨s, h1, h2.symm⟩⟩

theorem isTerm_rename (t : Str) : IsTerm (renameColl f C) (rename f t) ↔ IsTerm C t := renamed_term hf.renaming (renamed_renameColl hf) t

omit hf in
theorem isTerm_of_rename {u : Str} (h : IsTerm (renameColl f C) u) : ∃ t, u = rename f t := by
  obtain ⟨r, hr, hu⟩ := h
  obtain ⟨s, _, rfl⟩ := List.mem_map.mp hr
  obtain ⟨t, _, rfl⟩ := List.mem_map.mp hu
  exact ⟨t, rfl⟩

theorem isFirstTerm_rename (t : Str) : IsFirstTerm (renameColl f C) (rename f t) ↔ IsFirstTerm C t := by
  unfold IsFirstTerm
  rw [isTerm_rename hf]
  constructor
  · rintro ⟨h1, h2⟩
    exact ⟨h1, fun u hu hlt => h2 (rename f u) ((isTerm_rename hf u).mpr hu) ((rename_lt hf u t).mpr hlt)⟩
  · rintro ⟨h1, h2⟩
    refine ⟨h1, fun u hu hlt => ?_⟩
    obtain ⟨v, rfl⟩ := isTerm_of_rename hu
    exact h2 v ((isTerm_rename hf v).mp hu) ((rename_lt hf v t).mp hlt)

theorem reaches_rename (l x : Str) : Reaches (renameColl f C) (rename f l) (rename f x) ↔ Reaches C l x := by
  unfold Reaches
  rw [prefix_rename hf.renaming, isFirstTerm_rename hf]
  have e1 : rename f l = [] ↔ l = [] := ⟨fun h => rename_inj hf.renaming (t := []) h, fun h => by rw [h]; rfl⟩
  have e2 : rename f l = rename f x ↔ l = x := ⟨fun h => rename_inj hf.renaming h, fun h => by rw [h]⟩
  rw [e1, e2]

theorem firstReached_rename (l x : Str) : FirstReached (renameColl f C) (rename f l) (rename f x) ↔ FirstReached C l x := by
  unfold FirstReached
  rw [isTerm_rename hf, reaches_rename hf]
  constructor
  · rintro ⟨h1, h2, h3⟩
    exact ⟨h1, h2, fun y hy hr hlt => h3 (rename f y) ((isTerm_rename hf y).mpr hy) ((reaches_rename hf l y).mpr hr) ((rename_lt hf y x).mpr hlt)⟩
  · rintro ⟨h1, h2, h3⟩
    refine ⟨h1, h2, fun y hy hr hlt => ?_⟩
    obtain ⟨z, rfl⟩ := isTerm_of_rename hy
    exact h3 z ((isTerm_rename hf z).mp hy) ((reaches_rename hf l z).mp hr) ((rename_lt hf z x).mp hlt)

theorem prefixFound_rename (complete : List Str) (last : Str) (c : List Str) :
    PrefixFound (renameColl f C) (renameAll f complete) (rename f last) (renameAll f c) ↔ PrefixFound C complete last c := by
  constructor
  · rintro ⟨x, h1, h2⟩
    have hx : x ∈ renameAll f c := h2.mem (by simp)
    obtain ⟨y, _, rfl⟩ := List.mem_map.mp hx
    refine ⟨y, (reaches_rename hf _ _).mp h1, (prefix_renameAll hf.renaming).mp ?_⟩
    unfold renameAll at h2 ⊢
    rw [List.map_append]
    exact h2
  · rintro ⟨x, h1, h2⟩
    refine ⟨rename f x, (reaches_rename hf _ _).mpr h1, ?_⟩
    have := (prefix_renameAll hf.renaming).mpr h2
    unfold renameAll at this ⊢
    rw [List.map_append] at this
    exact this

theorem isFirstCompletion_rename (c : List Str) : IsFirstCompletion (renameColl f C) (renameAll f c) ↔ IsFirstCompletion C c := by
  unfold IsFirstCompletion renameColl
  cases C with
  | nil => simp
  | cons r C =>
      simp only [List.map_cons, List.head?_cons, Option.some.injEq]
      constructor
      · rintro ⟨d, h⟩
        refine ⟨r.1, ?_⟩
        rw [← renameAll_inj hf.renaming (congrArg Prod.snd h)]
      · rintro ⟨d, h⟩
        exact ⟨d, by rw [h]⟩

theorem prefixFound2_rename (complete : List Str) (last : Str) (c : List Str) :
    PrefixFound2 (renameColl f C) (renameAll f complete) (rename f last) (renameAll f c) ↔ PrefixFound2 C complete last c := by
  unfold PrefixFound2
  rw [prefixFound_rename hf, isFirstCompletion_rename hf]
  refine and_congr_right fun _ => imp_congr_right fun _ => ?_
  constructor
  · rintro ⟨x, h1, h2⟩
    obtain ⟨y, rfl⟩ := isTerm_of_rename h1.1
    refine ⟨y, (firstReached_rename hf _ _).mp h1, renameAll_inj hf.renaming ?_⟩
    rw [h2]
    unfold renameAll
    rw [List.map_append]
    rfl
  · rintro ⟨x, h1, h2⟩
    refine ⟨rename f x, (firstReached_rename hf _ _).mpr h1, ?_⟩
    rw [h2]
    unfold renameAll
    rw [List.map_append]
    rfl

theorem conjFound_rename (complete : List Str) (last : Str) (c : List Str) :
    ConjFound (renameColl f C) (renameAll f complete) (rename f last) (renameAll f c) ↔ ConjFound C complete last c := by
  constructor
  · rintro ⟨h1, x, hx, h2⟩
    obtain ⟨y, hy, rfl⟩ := List.mem_map.mp hx
    exact ⟨fun t ht hC => (mem_renameAll hf.renaming).mp (h1 _ ((mem_renameAll hf.renaming).mpr ht) ((isTerm_rename hf t).mpr hC)), y, hy, (reaches_rename hf _ _).mp h2⟩
  · rintro ⟨h1, x, hx, h2⟩
    refine ⟨fun t ht hD => ?_, rename f x, (mem_renameAll hf.renaming).mpr hx, (reaches_rename hf _ _).mpr h2⟩
    obtain ⟨u, hu, rfl⟩ := List.mem_map.mp ht
    exact (mem_renameAll hf.renaming).mpr (h1 u hu ((isTerm_rename hf u).mp hD))

theorem renameAll_lt (c d : List Str) : renameAll f c < renameAll f d ↔ c < d := by
  unfold renameAll
  induction c generalizing d with
  | nil => cases d <;> simp
  | cons a c ih =>
      cases d with
      | nil => simp
      | cons b d =>
          rw [List.map_cons, List.map_cons, List.cons_lt_cons_iff, List.cons_lt_cons_iff, ih, rename_lt hf]
          have e : rename f a = rename f b ↔ a = b := ⟨rename_inj hf.renaming, fun h => by rw [h]⟩
          rw [e]

theorem renameColl_valid (hC : ValidColl C) (ht : ∀ r ∈ C, ∀ t ∈ r.2, IsText (rename f t)) : ValidColl (renameColl f C) := by
  have hmem : ∀ {r}, r ∈ renameColl f C → ∃ s ∈ C, r = (s.1, renameAll f s.2) := fun {r} hr => (renamed_renameColl hf r).mp hr
  have hflat : (renameColl f C).flatMap (·.2) = (C.flatMap (·.2)).map (rename f) := by
    unfold renameColl
    rw [List.flatMap_map, List.map_flatMap]
    rfl
  refine ⟨?_, ?_, ?_, ?_, ?_, ?_, ?_, ?_, ?_, ?_⟩
  · intro h
    exact hC.ne (List.map_eq_nil_iff.mp h)
  · have : (renameColl f C).map (·.1) = C.map (·.1) := by unfold renameColl; rw [List.map_map]; rfl
    rw [this]
    exact hC.docs
  · have : (renameColl f C).map (·.2) = (C.map (·.2)).map (renameAll f) := by unfold renameColl; rw [List.map_map, List.map_map]; rfl
    rw [this]
    exact List.pairwise_map.mpr (hC.sorted.imp fun h => (renameAll_lt hf _ _).mpr h)
  · intro r hr h
    obtain ⟨s, hs, rfl⟩ := hmem hr
    exact hC.nonempty s hs (List.map_eq_nil_iff.mp h)
  · intro r hr t htr
    obtain ⟨s, hs, rfl⟩ := hmem hr
    obtain ⟨u, hu, rfl⟩ := List.mem_map.mp htr
    obtain ⟨h1, h2, h3⟩ := hC.words s hs u hu
    refine ⟨fun h => h1 (List.map_eq_nil_iff.mp h), ht s hs u hu, fun hm => ?_⟩
    obtain ⟨a, ha, e⟩ := List.mem_map.mp hm
    exact h3 (hf.renaming.inj a space (e.trans hf.space.symm) ▸ ha)
  · intro r hr
    obtain ⟨s, hs, rfl⟩ := hmem hr
    show (renameAll f s.2).length < 64
    unfold renameAll
    rw [List.length_map]
    exact hC.short s hs
  · intro r hr
    obtain ⟨s, hs, rfl⟩ := hmem hr
    show ((renameAll f s.2).map List.length).sum ≤ 128
    have : (renameAll f s.2).map List.length = s.2.map List.length := by
      unfold renameAll
      rw [List.map_map]
      exact List.map_congr_left fun t _ => List.length_map ..
    rw [this]
    exact hC.chars s hs
  · intro r hr
    obtain ⟨s, hs, rfl⟩ := hmem hr
    exact hC.ids s hs
  · rw [hflat, List.length_map]
    exact hC.size
  · rw [hflat, List.map_map]
    have : (C.flatMap (·.2)).map ((fun t => t.length + 2) ∘ rename f) = (C.flatMap (·.2)).map (fun t => t.length + 2) :=
      List.map_congr_left fun t _ => by simp [rename]
    rw [this]
    exact hC.room

theorem renameColl_terms (h : ∃ n, NumTerms C n ∧ n % 17 ≠ 0) : ∃ n, NumTerms (renameColl f C) n ∧ n % 17 ≠ 0 := by
  obtain ⟨n, ⟨L, h1, h2, h3⟩, hn⟩ := h
  refine ⟨n, ⟨L.map (rename f), ?_, fun t => ?_, by rw [List.length_map]; exact h3⟩, hn⟩
  · exact List.pairwise_map.mpr (h1.imp fun hne e => hne (rename_inj hf.renaming e))
  · constructor
    · intro ht
      obtain ⟨u, hu, rfl⟩ := List.mem_map.mp ht
      exact (isTerm_rename hf u).mpr ((h2 u).mp hu)
    · intro ht
      obtain ⟨u, rfl⟩ := isTerm_of_rename ht
      exact List.mem_map.mpr ⟨u, (h2 u).mpr ((isTerm_rename hf u).mp ht), rfl⟩

theorem renameColl_doc0 (h : ∃ t, IsTerm C t ∧ ∀ c, (0, c) ∈ C → t ∉ c) : ∃ t, IsTerm (renameColl f C) t ∧ ∀ c, (0, c) ∈ renameColl f C → t ∉ c := by
  obtain ⟨t, h1, h2⟩ := h
  refine ⟨rename f t, (isTerm_rename hf t).mpr h1, fun c hc ht => ?_⟩
  obtain ⟨s, hs, e⟩ := (renamed_renameColl hf _).mp hc
  cases s with
  | mk d x =>
      simp only [Prod.mk.injEq] at e
      obtain ⟨rfl, rfl⟩ := e
      exact h2 x hs ((mem_renameAll hf.renaming).mp ht)

theorem renameColl_suits1 (h : Suits1 C) : Suits1 (renameColl f C) := ⟨renameColl_terms hf h.terms, renameColl_doc0 hf h.doc0⟩

theorem renameColl_suits2 (h : Suits2 C) : Suits2 (renameColl f C) :=
  ⟨renameColl_suits1 hf h.toSuits1, by unfold renameColl; rw [List.length_map]; exact h.count⟩

theorem renameColl_suits3 (h : Suits3 C) : Suits3 (renameColl f C) := by
  obtain ⟨r, hr, h0⟩ := h.doc0
  exact ⟨renameColl_terms hf h.terms, by unfold renameColl; rw [List.length_map]; exact h.count, ⟨_, (renamed_renameColl hf _).mpr ⟨r, hr, rfl⟩, h0⟩⟩

end
end AC
