import Verif.Spec.Removal
import Verif.Proofs.Asks
/-!
# The best completions of a part of a collection
-/
namespace AC
open Spec

/-- of two lists with increasing ids, one is the beginning of the other when it has everything up to each of its elements -/
theorem prefix_of_sorted {F E : Coll} (hF : F.Pairwise (fun a b => a.1 < b.1)) (hE : E.Pairwise (fun a b => a.1 < b.1)) (hsub : ∀ f ∈ F, f ∈ E)
    (hdown : ∀ e ∈ E, ∀ f ∈ F, e.1 < f.1 → e ∈ F) : F <+: E := by
  induction F generalizing E with
  | nil => exact List.nil_prefix
  | cons f F ih =>
      cases E with
      | nil => exact absurd (hsub f (by simp)) (by simp)
      | cons e E =>
          rw [List.pairwise_cons] at hF hE
          have hfe : f = e := by
            rcases List.mem_cons.mp (hsub f (by simp)) with h | h
            · exact h
            · have h1 := hE.1 f h
              rcases List.mem_cons.mp (hdown e (by simp) f (by simp) h1) with h2 | h2
              · exact h2.symm
              · have := hF.1 e h2
                omega
          subst hfe
          rw [List.cons_prefix_cons]
          refine ⟨rfl, ih hF.2 hE.2 ?_ ?_⟩
          · intro g hg
            rcases List.mem_cons.mp (hsub g (by simp [hg])) with h | h
            · subst h
              have := hF.1 g hg
              omega
            · exact h
          · intro e' he' g hg hlt
            rcases List.mem_cons.mp (hdown e' (by simp [he']) g (by simp [hg]) hlt) with h | h
            · subst h
              have := hE.1 e' he'
              omega
            · exact h

section
variable {C D : Coll} {P Q : List Str → Prop} {k : Nat} {E E' : Coll}

theorem Spec.Best.nodup (b : Spec.Best C P k E) : E.Nodup := b.sorted.imp (fun h e => by rw [e] at h; omega)

/-- what remains of the best completions is the beginning of the best completions of the part -/
theorem Spec.Best.removal (b : Spec.Best C P k E) (b' : Spec.Best D Q k E') (hD : ∀ r ∈ D, r ∈ C) (hPQ : ∀ r ∈ D, P r.2 → Q r.2)
    (hQP : (∃ r ∈ E, r ∈ D) → ∀ r ∈ D, Q r.2 → P r.2) : (E.filter (fun r => decide (r ∈ D))) <+: E' := by
  have hin : ∀ f ∈ E, f ∈ D → ∀ e ∈ E', e ∈ E ∨ f.1 < e.1 := by
    intro f hf hfD e he
    obtain ⟨h1, h2⟩ := b'.sound e he
    by_cases hm : e ∈ E
    · exact .inl hm
    · exact .inr ((b.complete e (hD e h1) (hQP ⟨f, hf, hfD⟩ e h1 h2) hm).2 f hf)
  refine prefix_of_sorted (b.sorted.sublist List.filter_sublist) b'.sorted ?_ ?_
  · intro f hf
    obtain ⟨hfE, hfD⟩ := List.mem_filter.mp hf
    have hfD := of_decide_eq_true hfD
    apply Classical.byContradiction
    intro hn
    obtain ⟨h1, h2⟩ := b'.complete f hfD (hPQ f hfD (b.sound f hfE).2) hn
    have hle : (f :: E').length ≤ E.length := by
      apply nodup_subset_length'
      · exact List.nodup_cons.mpr ⟨hn, b'.nodup⟩
      · intro e he
        rcases List.mem_cons.mp he with rfl | he
        · exact hfE
        · rcases hin f hfE hfD e he with h | h
          · exact h
          · have := h2 e he
            omega
    have := b.le
    rw [List.length_cons] at hle
    omega
  · intro e he f hf hlt
    obtain ⟨hfE, hfD⟩ := List.mem_filter.mp hf
    rcases hin f hfE (of_decide_eq_true hfD) e he with h | h
    · exact List.mem_filter.mpr ⟨h, decide_eq_true (b'.sound e he).1⟩
    · omega

/-- when all of the best completions remain, they are the best completions of the part -/
theorem Spec.Best.removal_same (b : Spec.Best C P k E) (b' : Spec.Best D Q k E') (hD : ∀ r ∈ D, r ∈ C) (hPQ : ∀ r ∈ D, P r.2 → Q r.2)
    (hQP : (∃ r ∈ E, r ∈ D) → ∀ r ∈ D, Q r.2 → P r.2) (hne : E ≠ []) (hall : ∀ r ∈ E, r ∈ D) : E' = E := by
  have h := b.removal b' hD hPQ hQP
  rw [List.filter_eq_self.mpr (fun r hr => decide_eq_true (hall r hr))] at h
  refine (h.eq_of_length_le ?_).symm
  by_cases hk : E.length = k
  · rw [hk]; exact b'.le
  · apply nodup_subset_length' b'.nodup
    intro e he
    obtain ⟨h1, h2⟩ := b'.sound e he
    obtain ⟨r, hr⟩ := List.exists_mem_of_ne_nil _ hne
    apply Classical.byContradiction
    intro hn
    exact hk (b.complete e (hD e h1) (hQP ⟨r, hr, hall r hr⟩ e h1 h2) hn).1

theorem remaining_shown (hC : ValidColl C) (hD : ∀ r ∈ D, r ∈ C) (hE : ∀ r ∈ E, r ∈ C) : remaining D (E.map shown) = (E.filter (fun r => decide (r ∈ D))).map shown := by
  unfold remaining
  rw [List.filter_map]
  congr 1
  apply List.filter_congr
  intro r hr
  simp only [Function.comp_apply]
  rw [Bool.eq_iff_iff, List.contains_iff_mem, decide_eq_true_eq, List.mem_map]
  constructor
  · rintro ⟨r', h1, h2⟩
    have : r' = r := by
      have h2 : r'.1 = r.1 := h2
      refine Prod.ext h2 (hC.ready.unique (d := r.1) ?_ (hE r hr))
      rw [← h2]
      exact hD r' h1
    rw [← this]
    exact h1
  · intro h
    exact ⟨r, h, rfl⟩
end

end AC
