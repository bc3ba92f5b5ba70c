import Verif.Proofs.DebugAll17
import Verif.Props.DebugAll
/-!
# C89 when the number of terms is a multiple of 17
-/
namespace AC.Props
open AC Spec

/-- C89 is false when the number of terms is a multiple of 17: with every assertion in place the index is built, the same as without, and a search that
has to show a completion with one of the last 16 terms does not answer, for example either search for the empty query when one of the `k` completions with
the smallest document ids has such a term. -/
theorem C89_false (std : StdLib) {C : Coll} (hC : ValidColl C) (hw : Suits17 C) (mem : Nat → W) :
    ∃ x, Index1.buildA (Pre.run C) mem = .ok x ∧ Index1.build (Pre.run C) mem = .ok x ∧
      ∀ q k s d, IsText q → completeTerms q = [] → lastTerm q = [] → 1 ≤ k → k ≤ MAX_K → Scratch.WF s →
      HasLost C d → (∀ G : Coll, G.Nodup → (∀ r ∈ G, r ∈ C ∧ r.1 < d) → G.length < k) →
      ∀ s', x.prefixTopkA std q k s ≠ .ok s' ∧ x.conjTopkA std q k s ≠ .ok s' := by
  obtain ⟨x, h1, h2⟩ := C66_fault std hC hw mem
  obtain ⟨x', h1', h3⟩ := Index1.build_lossy hC.ready (Suits17.mod hC hw) (Suits17.doc hw) (hC.ready.minList hw.doc0) mem
  rw [h1] at h1'
  cases h1'
  have h4 := Index1.build_rep17A hC.ready h1 h3
  refine ⟨x, Index1.buildA_stays hC.ready mem x h1, h1, ?_⟩
  intro q k s d hq e1 e2 hk hk' hs hl hG s'
  obtain ⟨f1, f2⟩ := h2 q k s d hq e1 e2 hk hk' hs hl hG
  constructor
  · intro h
    rw [Index1.prefixTopkA_same std hC.ready h4 hq hk hk' hs s' h] at f1
    cases f1
  · intro h
    rw [Index1.conjTopkA_same std hC.ready h4 hq hk hk' hs s' h] at f2
    cases f2

/-- the conditions of `C89_false` are met by the collection of the examples for C66, document 1 and the query that is a blank: fewer than two completions
have smaller ids -/
example : ValidColl coll34 ∧ Suits17 coll34 ∧ HasLost coll34 1 ∧ IsText [32] ∧ completeTerms [32] = [] ∧ lastTerm [32] = [] ∧
    (∀ r ∈ coll34, r.1 < 1 → r = coll34[0]'(by decide +kernel)) := by
  have h1 : AmongLast coll34 16 [98, 104] := by
    have h : (Pre.run coll34).terms[33]'(by decide +kernel) = [98, 104] := by decide +kernel
    rw [← h]
    exact coll34_lost (by omega) _
  exact ⟨coll34_valid, coll34_suits.toSuits17, ⟨[[98, 104]], by decide +kernel, _, by simp, h1⟩, by decide, by decide, by decide, by decide +kernel⟩

/-- What a search with every assertion in place shows then, type 1: never a completion with one of the last 16 terms -/
theorem C89_lost (std : StdLib) {C : Coll} (hC : ValidColl C) (hw : Suits17 C) (mem : Nat → W) :
    ∃ x, Index1.buildA (Pre.run C) mem = .ok x ∧ ShowsNone (x.prefixTopkA std) (HasLost C) ∧ ShowsNone (x.conjTopkA std) (HasLost C) := by
  obtain ⟨-, x, h1, h2, h2'⟩ := C66_false std hC hw mem
  obtain ⟨x', h1', h3⟩ := Index1.build_lossy hC.ready (Suits17.mod hC hw) (Suits17.doc hw) (hC.ready.minList hw.doc0) mem
  rw [h1] at h1'
  cases h1'
  have h4 := Index1.build_rep17A hC.ready h1 h3
  refine ⟨x, Index1.buildA_stays hC.ready mem x h1, ?_, ?_⟩
  · intro q k s s' res hq hk hk' hs ho hr
    exact h2 q k s s' res hq hk hk' hs (Index1.prefixTopkA_same std hC.ready h4 hq hk hk' hs s' ho) hr
  · intro q k s s' res hq hk hk' hs ho hr
    exact h2' q k s s' res hq hk hk' hs (Index1.conjTopkA_same std hC.ready h4 hq hk hk' hs s' ho) hr

/-- the conditions of `C89_lost` are met -/
example : ValidColl coll34 ∧ Suits17 coll34 := ⟨coll34_valid, coll34_suits.toSuits17⟩

end AC.Props
