import Verif.Spec.Letters
import Verif.Proofs.Suits
/-!
# Queries and matches with other letters
-/
namespace AC
open Spec

section
variable {f : Nat → Nat} (hf : Renaming f)
include hf

theorem rename_inj {s t : Str} (h : rename f s = rename f t) : s = t := by
  unfold rename at h
  exact (List.map_inj_right (fun a b => hf.inj a b)).mp h

theorem renameAll_inj {s t : List Str} (h : renameAll f s = renameAll f t) : s = t := by
  unfold renameAll at h
  exact (List.map_inj_right (fun _ _ => rename_inj hf)).mp h

theorem mem_renameAll {c : List Str} {t : Str} : rename f t ∈ renameAll f c ↔ t ∈ c := by
  unfold renameAll
  constructor
  · intro h
    obtain ⟨u, hu, e⟩ := List.mem_map.mp h
    exact rename_inj hf e ▸ hu
  · exact fun h => List.mem_map.mpr ⟨t, h, rfl⟩

theorem pieces_rename (q : Str) : pieces (rename f q) = (pieces q).map (rename f) := by
  induction q with
  | nil => rfl
  | cons c q ih =>
      show pieces (f c :: rename f q) = _
      unfold pieces
      by_cases hc : c = space
      · rw [if_pos hc, if_pos (by rw [hc, hf.space]), ih]
        rfl
      · rw [if_neg hc, if_neg (fun h => hc (hf.inj _ _ (h.trans hf.space.symm))), ih]
        cases pieces q with
        | nil => rfl
        | cons p ps => rfl

theorem lastTerm_rename (q : Str) : lastTerm (rename f q) = rename f (lastTerm q) := by
  unfold lastTerm
  rw [pieces_rename hf]
  generalize pieces q = l
  rw [List.getLastD_eq_getLast?, List.getLastD_eq_getLast?, List.getLast?_map]
  cases l.getLast? <;> rfl

theorem completeTerms_rename (q : Str) : completeTerms (rename f q) = renameAll f (completeTerms q) := by
  unfold completeTerms renameAll
  rw [pieces_rename hf, ← List.map_dropLast, List.filter_map]
  congr 1
  refine List.filter_congr fun p _ => ?_
  cases p <;> rfl

theorem joined_rename (c : List Str) : joined (renameAll f c) = rename f (joined c) := by
  induction c with
  | nil => rfl
  | cons t c ih =>
      cases c with
      | nil => rfl
      | cons u c =>
          show rename f t ++ space :: joined (renameAll f (u :: c)) = rename f (t ++ space :: joined (u :: c))
          rw [ih]
          unfold rename
          rw [List.map_append, List.map_cons, hf.space]

theorem prefix_rename {s t : Str} : rename f s <+: rename f t ↔ s <+: t := by
  constructor
  · rintro ⟨r, h⟩
    unfold rename at h
    obtain ⟨a, b, e1, e2, _⟩ := List.map_eq_append_iff.mp h.symm
    exact ⟨b, by rw [e1, rename_inj hf (s := a) (t := s) e2]⟩
  · exact fun h => h.map f

theorem prefix_renameAll {s t : List Str} : renameAll f s <+: renameAll f t ↔ s <+: t := by
  constructor
  · rintro ⟨r, h⟩
    unfold renameAll at h
    obtain ⟨a, b, e1, e2, _⟩ := List.map_eq_append_iff.mp h.symm
    exact ⟨b, by rw [e1, renameAll_inj hf (s := a) (t := s) e2]⟩
  · exact fun h => h.map (rename f)

theorem prefixMatch_rename (complete : List Str) (last : Str) (c : List Str) :
    PrefixMatch (renameAll f complete) (rename f last) (renameAll f c) ↔ PrefixMatch complete last c := by
  constructor
  · rintro ⟨x, h1, h2⟩
    have hx : x ∈ renameAll f c := h2.mem (by simp)
    obtain ⟨y, _, rfl⟩ := List.mem_map.mp hx
    refine ⟨y, (prefix_rename hf).mp h1, (prefix_renameAll hf).mp ?_⟩
    unfold renameAll at h2 ⊢
    rw [List.map_append]
    exact h2
  · rintro ⟨x, h1, h2⟩
    refine ⟨rename f x, (prefix_rename hf).mpr h1, ?_⟩
    have := (prefix_renameAll hf).mpr h2
    unfold renameAll at this ⊢
    rw [List.map_append] at this
    exact this

variable {C D : Coll} (h : Renamed f C D)
include h

theorem renamed_term (t : Str) : (∃ r ∈ D, rename f t ∈ r.2) ↔ ∃ r ∈ C, t ∈ r.2 := by
  constructor
  · rintro ⟨r, hr, ht⟩
    obtain ⟨s, hs, rfl⟩ := (h r).mp hr
    exact ⟨s, hs, (mem_renameAll hf).mp ht⟩
  · rintro ⟨s, hs, ht⟩
    exact ⟨_, (h _).mpr ⟨s, hs, rfl⟩, (mem_renameAll hf).mpr ht⟩

theorem conjMatch_rename (complete : List Str) (last : Str) (c : List Str) :
    ConjMatch D (renameAll f complete) (rename f last) (renameAll f c) ↔ ConjMatch C complete last c := by
  constructor
  · rintro ⟨h1, x, hx, h2⟩
    obtain ⟨y, hy, rfl⟩ := List.mem_map.mp hx
    exact ⟨fun t ht hC => (mem_renameAll hf).mp (h1 _ ((mem_renameAll hf).mpr ht) ((renamed_term hf h t).mpr hC)), y, hy, (prefix_rename hf).mp h2⟩
  · rintro ⟨h1, x, hx, h2⟩
    refine ⟨fun t ht hD => ?_, rename f x, (mem_renameAll hf).mpr hx, (prefix_rename hf).mpr h2⟩
    obtain ⟨u, hu, rfl⟩ := List.mem_map.mp ht
    exact (mem_renameAll hf).mpr (h1 u hu ((renamed_term hf h u).mp hD))

/-- the best completions are those with the other letters -/
theorem Spec.Best.rename {P Q : List Str → Prop} {k : Nat} {E E' : Coll} (hd : (D.map (·.1)).Nodup) (b : Spec.Best C P k E) (b' : Spec.Best D Q k E')
    (hpq : ∀ c, Q (renameAll f c) ↔ P c) : E'.map shown = (E.map shown).map fun r => (r.1, rename f r.2) := by
  have key : Spec.Best D Q k (E.map fun r => (r.1, renameAll f r.2)) := by
    refine ⟨?_, ?_, by rw [List.length_map]; exact b.le, ?_⟩
    · intro r hr
      obtain ⟨s, hs, rfl⟩ := List.mem_map.mp hr
      exact ⟨(h _).mpr ⟨s, (b.sound s hs).1, rfl⟩, (hpq _).mpr (b.sound s hs).2⟩
    · exact List.pairwise_map.mpr (b.sorted.imp fun h => h)
    · intro r hr hq hn
      obtain ⟨s, hs, rfl⟩ := (h r).mp hr
      obtain ⟨h1, h2⟩ := b.complete s hs ((hpq _).mp hq) (fun he => hn (List.mem_map.mpr ⟨s, he, rfl⟩))
      refine ⟨by rw [List.length_map]; exact h1, fun e he => ?_⟩
      obtain ⟨g, hg, rfl⟩ := List.mem_map.mp he
      exact h2 g hg
  rw [b'.unique hd (fun _ _ => Iff.rfl) key, List.map_map, List.map_map]
  refine List.map_congr_left fun r _ => ?_
  show (r.1, joined (renameAll f r.2)) = (r.1, AC.Spec.rename f (joined r.2))
  rw [joined_rename hf]

end
end AC
