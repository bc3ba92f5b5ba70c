import Verif.Proofs.FingerprintLost
import Verif.Proofs.LostCompletions
import Verif.Props.LostCompletions
import Verif.Props.Fingerprint
/-!
# C102: collections that differ in the last completions
-/
namespace AC.Props
open AC Spec

/-- C102 is false of collections whose number of completions is a multiple of 17, with types 2, 3 and 4. The last 16 completions are not in the index:
other completions in their place, of the same documents with the same terms, give the same index. For all such collections and all memories. -/
theorem C102_false_completions {K R R' : Coll} (hC : ValidColl (K ++ R)) (hD : ValidColl (K ++ R')) (hR : R.length = 16) (hR' : R'.length = 16) (h17 : (K ++ R).length % 17 = 0)
    (hs : SameTerms R R') (mem : Nat → W) :
    Index2.build (Pre.run (K ++ R)) mem = Index2.build (Pre.run (K ++ R')) mem ∧
      Index3.build (Pre.run (K ++ R)) mem = Index3.build (Pre.run (K ++ R')) mem ∧
      ∀ std m, Index4.build std m (Pre.run (K ++ R)) mem = Index4.build std m (Pre.run (K ++ R')) mem := by
  rw [List.length_append, hR] at h17
  obtain ⟨e1, e2, e3⟩ := lost_completions hC hD (n := K.length / 17) (by omega) hR hR' hs
  refine ⟨?_, ?_, fun std m => ?_⟩
  · unfold Index2.build
    rw [e3, e1, e2]
  · unfold Index3.build
    rw [e3, e1, e2]
  · unfold Index4.build
    rw [e3, e1, e2]

/-- "e e d d" in place of the last completion "e e d" -/
def collC34d : Coll := collC34.take 33 ++ [(1, [[101], [101], [100], [100]])]

theorem collC34d_valid : ValidColl collC34d :=
  ⟨by decide, by decide +kernel, by decide +kernel, by decide +kernel, by decide +kernel, by decide +kernel, by decide +kernel, by decide +kernel,
    by decide +kernel, by decide +kernel⟩

theorem collC34_same : SameTerms (collC34.drop 18) (collC34d.drop 18) := by
  have h1 : ∀ r ∈ collC34.drop 18, ∀ t ∈ r.2, ∃ r' ∈ collC34d.drop 18, r'.1 = r.1 ∧ t ∈ r'.2 := by decide +kernel
  have h2 : ∀ r ∈ collC34d.drop 18, ∀ t ∈ r.2, ∃ r' ∈ collC34.drop 18, r'.1 = r.1 ∧ t ∈ r'.2 := by decide +kernel
  intro d t
  constructor
  · rintro ⟨c, hc, ht⟩
    obtain ⟨⟨d', c'⟩, h, rfl, h'⟩ := h1 _ hc t ht
    exact ⟨c', h, h'⟩
  · rintro ⟨c, hc, ht⟩
    obtain ⟨⟨d', c'⟩, h, rfl, h'⟩ := h2 _ hc t ht
    exact ⟨c', h, h'⟩

/-- two different valid collections of 34 completions whose indexes of type 3 are built and have the same file -/
example (mem mem' : Nat → W) : ValidColl collC34 ∧ ValidColl collC34d ∧ collC34 ≠ collC34d ∧ ∃ x x' file, Index3.build (Pre.run collC34) mem = .ok x ∧
    Index3.build (Pre.run collC34d) mem' = .ok x' ∧ save (fun V => V.index3) x = .ok file ∧ save (fun V => V.index3) x' = .ok file := by
  have hr := collC34_valid.ready
  obtain ⟨x, hb, _⟩ := Index3.build_lost hr (by decide +kernel) (by decide +kernel) ⟨(34, [[97], [97]]), by decide +kernel, by decide⟩ mem
  obtain ⟨file, y, h, _, hy, hy', _⟩ := C45_saved3 collC34_valid hb mem'
  refine ⟨collC34_valid, collC34d_valid, by decide +kernel, x, y, file, hb, ?_, h, hy'⟩
  have e : collC34.take 18 ++ collC34.drop 18 = collC34 := List.take_append_drop _ _
  have e' : collC34.take 18 ++ collC34d.drop 18 = collC34d := by decide +kernel
  have := (C102_false_completions (K := collC34.take 18) (R := collC34.drop 18) (R' := collC34d.drop 18) (by rw [e]; exact collC34_valid) (by rw [e']; exact collC34d_valid)
    (by decide +kernel) (by decide +kernel) (by decide +kernel) collC34_same mem').2.1
  rw [e, e'] at this
  rw [← this]
  exact hy

end AC.Props
