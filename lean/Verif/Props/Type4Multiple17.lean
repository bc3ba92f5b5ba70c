import Verif.Props.Honest
import Verif.Proofs.Lossy4Exact
/-!
# C66 and C69 for conjunctive search with type 4: the exact outcome
-/
namespace AC.Props
open AC Spec

/-- The searches with type 4 when the number of terms is a multiple of 17: conjunctive search looks for the first `k` of the completions of `Result4Kept`,
and reads out of bounds when one of them has one of the last 16 terms. -/
theorem C66_type4_exact (std : StdLib) {C : Coll} (hC : ValidColl C) (hw : Suits17b C) (hids : ∀ r ∈ C, r.1 < 2 ^ 32 - 2) (m : Nat) (mem : Nat → W) :
    ∃ x B, Index4.build std m (Pre.run C) mem = .ok x ∧ IsBlocks C m B ∧ ∀ q, IsText q →
      (∀ k s, 1 ≤ k → k ≤ MAX_K → Scratch.WF s →
        Outcome17 C (Pre.run C).terms (PrefixKept2 C (completeTerms q) (lastTerm q)) k (x.toBase.prefixTopk std q k s)) ∧
      ∃ S, Result4Kept C B (completeTerms q) (lastTerm q) S ∧ ∀ k, 1 ≤ k → k ≤ MAX_K → ∀ s : Scratch, s.WF →
        ((∀ r ∈ S.take k, ∀ t ∈ r.2, ¬ AmongLast C 16 t) → Shows (Pre.run C).terms (S.take k) (x.conjTopk std q k s)) ∧
        ((∃ r ∈ S.take k, ∃ t ∈ r.2, AmongLast C 16 t) → x.conjTopk std q k s = .error .oob) := by
  obtain ⟨x, docss, h1, h2⟩ := Index4.build_lossy hC.ready (Suits17.mod hC hw.toSuits17) (by rw [hC.ready.length_mapped]; exact hw.count)
    (Suits17.doc hw.toSuits17) std m mem
  exact ⟨x, _, h1, hC.ready.blocks h2.inverted.cut, fun q hq =>
    ⟨fun k s hk hk' hs => Base.prefix_outcome17 std hC.ready h2.base h2.dict h2.built hq hk hk' hs, Index4.conj_exact17 hC.ready std h2 hids hq⟩⟩

/-- the same when both numbers are multiples of 17 -/
theorem C69_type4_exact (std : StdLib) {C : Coll} (hC : ValidColl C) (hw : Suits17e C) (hids : ∀ r ∈ C, r.1 < 2 ^ 32 - 2) (m : Nat) (mem : Nat → W) :
    ∃ x B, Index4.build std m (Pre.run C) mem = .ok x ∧ IsBlocks C m B ∧ ∀ q, IsText q →
      (∀ k s, 1 ≤ k → k ≤ MAX_K → Scratch.WF s →
        Outcome17 C (Pre.run C).terms (PrefixKeptB C (completeTerms q) (lastTerm q)) k (x.toBase.prefixTopk std q k s)) ∧
      ∃ S, Result4Kept C B (completeTerms q) (lastTerm q) S ∧ ∀ k, 1 ≤ k → k ≤ MAX_K → ∀ s : Scratch, s.WF →
        ((∀ r ∈ S.take k, ¬ Gone C r.2) → Shows (Pre.run C).terms (S.take k) (x.conjTopk std q k s)) ∧
        ((∃ r ∈ S.take k, Gone C r.2) → x.conjTopk std q k s = .error .oob) := by
  obtain ⟨x, docss, h1, h2⟩ := Index4.build_both hC.ready (Suits17e.mod hC hw) hw.count (hC.ready.keptDoc hw.count hw.doc) std m mem
  exact ⟨x, _, h1, hC.ready.blocks h2.inverted.cut, fun q hq =>
    ⟨fun k s hk hk' hs => Base.prefix_specB hC.ready std h2.base h2.dict h2.built hq hk hk' hs, Index4.conj_exactB hC.ready std h2 hids hq⟩⟩

/-- The empty query and the completion with the smallest id: when it has a term that is not the last of all, it is the first result. -/
theorem _root_.AC.Spec.Result4Kept.first {C : Coll} (hC : ValidColl C) {m : Nat} {B : List (List Str)} (hB : IsBlocks C m B) {S : Coll}
    (hS : Result4Kept C B [] [] S) {r : Nat × List Str} (hr : r ∈ C) (hmin : ∀ r' ∈ C, r.1 ≤ r'.1)
    (hnl : ∃ x ∈ r.2, ∃ y, IsTerm C y ∧ x < y) {k : Nat} (hk : 1 ≤ k) : r ∈ S.take k := by
  classical
  obtain ⟨hs, hc⟩ := hS.union (by simp)
  have hpos : 0 < S.count r := by
    rw [hc r hr]
    obtain ⟨x, hx, y, hy, hxy⟩ := hnl
    have hT : IsTerm C x := ⟨r, hr, hx⟩
    have hreach : ∀ z, ReachesKept C [] z := fun z => ⟨⟨List.nil_prefix, fun _ => Or.inl rfl⟩, Or.inl rfl⟩
    obtain ⟨b, hb, hxb⟩ := List.mem_flatten.mp ((hB.terms x).mpr hT)
    unfold copiesKept
    refine List.length_pos_of_mem (a := b) (List.mem_filter.mpr ⟨hb, decide_eq_true ⟨?_, ?_⟩⟩)
    · exact ⟨x, hxb, hT, hreach x, Or.inr ⟨y, hy, hreach y, hxy⟩⟩
    · exact ⟨x, hx, hxb, hreach x⟩
  have hm := List.count_pos_iff.mp hpos
  cases S with
  | nil => simp at hm
  | cons a S =>
    have ha := hS.mem a (by simp)
    have hle : a.1 ≤ r.1 := by
      rcases List.mem_cons.mp hm with rfl | hm
      · exact Nat.le_refl _
      · exact (List.pairwise_cons.mp hs).1 r hm
    have he : a = r := by
      have h1 : a.1 = r.1 := Nat.le_antisymm hle (hmin a ha)
      have h2 := hC.ready.unique (d := r.1) (c := a.2) (c' := r.2) (by rw [← h1]; exact ha) hr
      exact Prod.ext h1 h2
    obtain ⟨k, rfl⟩ : ∃ j, k = j + 1 := ⟨k - 1, by omega⟩
    rw [List.take_succ_cons, he]
    exact List.mem_cons_self

/-- **C66 is false** with type 4 also because of the memory that is read: if the completion with the smallest id has one of the last 16 terms, and a term
besides the very last, then conjunctive search reads out of bounds for the empty query. -/
theorem C66_fault4 (std : StdLib) {C : Coll} (hC : ValidColl C) (hw : Suits17b C) (hids : ∀ r ∈ C, r.1 < 2 ^ 32 - 2) (m : Nat) (mem : Nat → W)
    {r : Nat × List Str} (hr : r ∈ C) (hmin : ∀ r' ∈ C, r.1 ≤ r'.1) (hnl : ∃ x ∈ r.2, ∃ y, IsTerm C y ∧ x < y) (hl : ∃ t ∈ r.2, AmongLast C 16 t) :
    ∃ x, Index4.build std m (Pre.run C) mem = .ok x ∧ ∀ q k s, IsText q → completeTerms q = [] → lastTerm q = [] → 1 ≤ k → k ≤ MAX_K → Scratch.WF s →
      x.conjTopk std q k s = .error .oob := by
  obtain ⟨x, B, h1, h2, h3⟩ := C66_type4_exact std hC hw hids m mem
  refine ⟨x, h1, ?_⟩
  intro q k s hq hqc hql hk hk' hs
  obtain ⟨S, s1, s2⟩ := (h3 q hq).2
  rw [hqc, hql] at s1
  exact (s2 k hk hk' s hs).2 ⟨r, s1.first hC h2 hr hmin hnl hk, hl⟩

/-- **C69 is false** with type 4 in the same way -/
theorem C69_fault4 (std : StdLib) {C : Coll} (hC : ValidColl C) (hw : Suits17e C) (hids : ∀ r ∈ C, r.1 < 2 ^ 32 - 2) (m : Nat) (mem : Nat → W)
    {r : Nat × List Str} (hr : r ∈ C) (hmin : ∀ r' ∈ C, r.1 ≤ r'.1) (hnl : ∃ x ∈ r.2, ∃ y, IsTerm C y ∧ x < y) (hl : Gone C r.2) :
    ∃ x, Index4.build std m (Pre.run C) mem = .ok x ∧ ∀ q k s, IsText q → completeTerms q = [] → lastTerm q = [] → 1 ≤ k → k ≤ MAX_K → Scratch.WF s →
      x.conjTopk std q k s = .error .oob := by
  obtain ⟨x, B, h1, h2, h3⟩ := C69_type4_exact std hC hw hids m mem
  refine ⟨x, h1, ?_⟩
  intro q k s hq hqc hql hk hk' hs
  obtain ⟨S, s1, s2⟩ := (h3 q hq).2
  rw [hqc, hql] at s1
  exact (s2 k hk hk' s hs).2 ⟨r, s1.first hC h2 hr hmin hnl hk, hl⟩

/-- The hypotheses hold of the collection for which both numbers are multiples of 17: the completion with the smallest id is the last one. -/
example : ValidColl collB34 ∧ Suits17e collB34 ∧ (∀ r ∈ collB34, r.1 < 2 ^ 32 - 2) ∧ (1, [term34 33, term34 0]) ∈ collB34 ∧
    (∀ r' ∈ collB34, 1 ≤ r'.1) ∧ (∃ x ∈ [term34 33, term34 0], ∃ y, IsTerm collB34 y ∧ x < y) ∧ Gone collB34 [term34 33, term34 0] ∧
    IsText [] ∧ completeTerms [] = [] ∧ lastTerm [] = [] :=
  ⟨collB34_valid, collB34_suits.toSuits17e, by decide +kernel, by decide +kernel, by decide +kernel,
    ⟨term34 0, by decide, term34 1, ⟨(33, [term34 1, term34 32]), by decide +kernel, by decide⟩, by decide⟩,
    (collB34_gone (r := (1, _)) (by decide +kernel)).mpr (by decide), by decide, by decide, by decide⟩

/-- the collection `coll34` with one more completion, "bh aa", of the smallest id -/
def coll35 : Coll := coll34 ++ [(0, [[98, 104], [97, 97]])]

theorem coll35_valid : ValidColl coll35 :=
  ⟨by decide, by decide +kernel, by decide +kernel, by decide +kernel, by decide +kernel, by decide +kernel, by decide +kernel, by decide +kernel,
    by decide +kernel, by decide +kernel⟩

/-- The hypotheses of `C66_fault4` hold of it. -/
example : ValidColl coll35 ∧ Suits17b coll35 ∧ (∀ r ∈ coll35, r.1 < 2 ^ 32 - 2) ∧ (0, [[98, 104], [97, 97]]) ∈ coll35 ∧ (∀ r' ∈ coll35, 0 ≤ r'.1) ∧
    (∃ x ∈ [[98, 104], [97, 97]], ∃ y, IsTerm coll35 y ∧ x < y) ∧ ∃ t ∈ [[98, 104], [97, 97]], AmongLast coll35 16 t := by
  have hlen : (Pre.run coll35).terms.length = 34 := by decide +kernel
  refine ⟨coll35_valid, ⟨⟨⟨_, coll35_valid.ready.numTerms, by decide +kernel⟩, [97, 98], ⟨(40, [[97, 97], [97, 98]]), by decide, by decide⟩, ?_⟩,
    by decide +kernel⟩, by decide +kernel, by decide, by simp, ⟨[97, 97], by decide, [97, 98], ⟨(40, [[97, 97], [97, 98]]), by decide, by decide⟩, by decide⟩,
    [98, 104], by decide, ?_⟩
  · intro c hc
    have : ∀ r ∈ coll35, r.1 = 0 → [97, 98] ∉ r.2 := by decide +kernel
    exact this _ hc rfl
  · have h : (Pre.run coll35).terms[33]'(by decide +kernel) = [98, 104] := by decide +kernel
    rw [← h, coll35_valid.ready.amongLast (by omega)]
    omega

end AC.Props
