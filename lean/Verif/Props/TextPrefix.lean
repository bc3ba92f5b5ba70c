import Verif.Proofs.TextPrefix
import Verif.Props.Prefix
/-!
# C77: prefix search in terms of texts
-/
namespace AC.Props
open AC Spec

theorem textMatch_iff {C : Coll} (hC : ValidColl C) (q : Str) : ∀ r ∈ C, PrefixMatch (completeTerms q) (lastTerm q) r.2 ↔ TextMatch q r.2 :=
  fun r hr => prefixMatch_squeeze q (fun t ht => (hC.words r hr t ht).2.2) (hC.nonempty r hr)

theorem _root_.AC.Spec.Answer.congr {C : Coll} {P Q : List Str → Prop} {k : Nat} {res : List (Nat × Str)} (h : Answer C P k res)
    (hpq : ∀ r ∈ C, P r.2 ↔ Q r.2) : Answer C Q k res := by
  obtain ⟨E, b, e⟩ := h
  exact ⟨E, ⟨fun r hr => ⟨(b.sound r hr).1, (hpq r (b.sound r hr).1).mp (b.sound r hr).2⟩, b.sorted, b.le,
    fun r hr hq => b.complete r hr ((hpq r hr).mpr hq)⟩, e⟩

/-- **C77**, type 1: prefix search returns the `k` best completions whose text begins with the text of the query. Missing from the claim: what is missing from C01. -/
theorem C77_type1_partial (std : StdLib) {C : Coll} (hC : ValidColl C) (hw : Suits1 C) (mem : Nat → W) :
    ∃ x, Index1.build (Pre.run C) mem = .ok x ∧ ∀ q k s, IsText q → 1 ≤ k → k ≤ MAX_K → Scratch.WF s → LastOk C (lastTerm q) →
      (∀ r ∈ C, k * (joined r.2).length + 2 * MAX_CHARS ≤ POOL_SIZE) →
      ∃ s' res, x.prefixTopk std q k s = .ok s' ∧ s'.WF ∧ s'.pool.results = .ok res ∧ Answer C (TextMatch q) k res := by
  obtain ⟨x, h1, h2⟩ := C01_prefix1_partial std hC hw mem
  refine ⟨x, h1, fun q k s hq hk hk' hs hl hroom => ?_⟩
  obtain ⟨s', res, e1, e2, e3, e4⟩ := h2 q k s hq hk hk' hs hl hroom
  exact ⟨s', res, e1, e2, e3, e4.congr (textMatch_iff hC q)⟩

/-- **C77**, types 2, 3 and 4. Missing from the claim: what is missing from C02. -/
theorem C77_type2_partial (std : StdLib) {C : Coll} (hC : ValidColl C) (hw : Suits3 C) (mem : Nat → W) :
    ∃ x, Base.build (Pre.run C) mem = .ok x ∧ ∀ q k s, IsText q → 1 ≤ k → k ≤ MAX_K → Scratch.WF s → LastOk C (lastTerm q) →
      (∀ c, IsFirstCompletion C c → ¬ TextMatch q c) →
      (∀ r ∈ C, k * (joined r.2).length + 2 * MAX_CHARS ≤ POOL_SIZE) →
      ∃ s' res, x.prefixTopk std q k s = .ok s' ∧ s'.WF ∧ s'.pool.results = .ok res ∧ Answer C (TextMatch q) k res := by
  obtain ⟨x, h1, h2⟩ := C02_prefix2_partial std hC hw mem
  refine ⟨x, h1, fun q k s hq hk hk' hs hl hf hroom => ?_⟩
  obtain ⟨s', res, e1, e2, e3, e4⟩ := h2 q k s hq hk hk' hs hl
    (fun c hc hm => hf c hc ((textMatch_iff hC q (_, c) (List.mem_of_mem_head? hc.choose_spec)).mp hm)) hroom
  exact ⟨s', res, e1, e2, e3, e4.congr (textMatch_iff hC q)⟩

/-- The results are always completions whose text begins with the text of the query, types 1 and 2 to 4 -/
theorem C77_sound (std : StdLib) {C : Coll} (hC : ValidColl C) (mem : Nat → W) :
    (Suits1 C → ∃ x, Index1.build (Pre.run C) mem = .ok x ∧ ∀ q k s s' res, IsText q → 1 ≤ k → k ≤ MAX_K → Scratch.WF s →
      x.prefixTopk std q k s = .ok s' → s'.pool.results = .ok res → ∀ e ∈ res, squeeze q <+: e.2) ∧
    (Suits3 C → ∃ x, Base.build (Pre.run C) mem = .ok x ∧ ∀ q k s s' res, IsText q → 1 ≤ k → k ≤ MAX_K → Scratch.WF s →
      x.prefixTopk std q k s = .ok s' → s'.pool.results = .ok res → ∀ e ∈ res, squeeze q <+: e.2) := by
  constructor
  · intro hw
    obtain ⟨x, h1, h2⟩ := C01_sound std hC hw mem
    refine ⟨x, h1, fun q k s s' res hq hk hk' hs ho hr e he => ?_⟩
    obtain ⟨c, hc, e1, e2⟩ := (h2 q k s s' res hq hk hk' hs ho hr).2.2 e he
    rw [e1]
    exact (textMatch_iff hC q (_, c) hc).mp e2
  · intro hw
    obtain ⟨x, h1, h2⟩ := C02_sound std hC hw mem
    refine ⟨x, h1, fun q k s s' res hq hk hk' hs ho hr e he => ?_⟩
    obtain ⟨c, hc, e1, e2⟩ := (h2 q k s s' res hq hk hk' hs ho hr).2.2 e he
    rw [e1]
    exact (textMatch_iff hC q (_, c) hc).mp e2

/-- **C77 is false**: no result of a query of one word that is a strict beginning of the first term of the dictionary has a text that begins with this term, while the
texts of the completions that start with this term begin with the query. -/
theorem C77_false (std : StdLib) {C : Coll} (hC : ValidColl C) (hw : Suits1 C) (mem : Nat → W) :
    ∃ x, Index1.build (Pre.run C) mem = .ok x ∧ ∀ q k s t ts d, IsText q → 1 ≤ k → k ≤ MAX_K → Scratch.WF s → IsFirstTerm C t →
      space ∉ q → q ≠ [] → q <+: t → q ≠ t → (d, t :: ts) ∈ C →
      q <+: joined (t :: ts) ∧ ∀ s' res, x.prefixTopk std q k s = .ok s' → s'.pool.results = .ok res → d ∉ res.map (·.1) := by
  obtain ⟨x, h1, h2⟩ := C01_false std hC hw mem
  refine ⟨x, h1, fun q k s t ts d hq hk hk' hs ht hsp hne hp hnt hc => ?_⟩
  have hpc : pieces q = [q] := by
    have : ∀ q : Str, space ∉ q → pieces q = [q] := by
      intro q
      induction q with
      | nil => intro _; rfl
      | cons c q ih =>
          intro h
          rw [pieces, if_neg (by rintro rfl; exact h (List.mem_cons_self ..)), ih (fun hm => h (List.mem_cons_of_mem _ hm))]
    exact this q hsp
  have hl : lastTerm q = q := by rw [lastTerm, hpc]; rfl
  have hcm : completeTerms q = [] := by rw [completeTerms, hpc]; rfl
  have h3 := h2 q k s t (t :: ts) d hq hk hk' hs ht (by rw [hl]; exact hp) (by rw [hl]; exact hne) (by rw [hl]; exact hnt) hc
    (by rw [hcm]; simp [List.cons_prefix_cons])
  refine ⟨?_, h3.2⟩
  have h4 := (textMatch_iff hC q (d, t :: ts) hc).mp h3.1
  rw [TextMatch, squeeze_joined, hl, hcm] at h4
  exact h4

/-- the query " b   a" of the sample: the completion "b ab" matches it, the first completion does not, and the other hypotheses hold -/
example : squeeze [32, 98, 32, 32, 32, 97, 98] = [98, 32, 97, 98] ∧ TextMatch [32, 98, 32, 32, 32, 97, 98] [[98], [97, 98]] ∧ IsText [32, 98, 32, 32, 32, 97, 98] ∧
    LastOk sampleColl (lastTerm [32, 98, 32, 32, 32, 97, 98]) ∧ (∀ c, IsFirstCompletion sampleColl c → ¬ TextMatch [32, 98, 32, 32, 32, 97, 98] c) ∧
    (∀ r ∈ sampleColl, 5 * (joined r.2).length + 2 * MAX_CHARS ≤ POOL_SIZE) ∧ ValidColl sampleColl ∧ Suits1 sampleColl ∧ Suits3 sampleColl := by
  refine ⟨by decide, by unfold TextMatch; decide, by decide, lastOk_of sampleColl_valid (by decide +kernel), ?_, by decide, sampleColl_valid, sampleColl_suits.toSuits1, sampleColl_suits.to3⟩
  rintro c ⟨d, hd⟩
  simp only [sampleColl, List.head?_cons, Option.some.injEq, Prod.mk.injEq] at hd
  rw [← hd.2]
  unfold TextMatch
  decide

/-- the query "a" of the sample, and the completion "ab b" -/
example : IsFirstTerm sampleColl [97, 98] ∧ space ∉ ([97] : Str) ∧ ([97] : Str) <+: [97, 98] ∧ (4, [97, 98] :: [[98]]) ∈ sampleColl := by
  refine ⟨?_, by decide, by decide, by decide⟩
  have : (Pre.run sampleColl).terms[0]'(by decide +kernel) = [97, 98] := by decide +kernel
  rw [← this]
  exact (sampleColl_valid.ready.isFirst _).mpr rfl

end AC.Props
