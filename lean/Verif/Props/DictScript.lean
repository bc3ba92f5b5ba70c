import Verif.Model.DictScript
import Verif.Spec.DictScript
import Verif.Props.Collect
import Verif.Props.DictBench
import Verif.Props.Type4
/-!
# C99: the script that benchmarks the dictionaries
-/
namespace AC.Props
open AC Spec DictBench

theorem lookup_first {fs : List Str} (h : fs.length = 7) : (Pre.queryFileNames.zip fs).lookup DictScript.inputName = some (fs.getD 0 []) := by
  match fs, h with
  | [a, b, c, d, e, f, g], _ => rfl

section
variable {C : Coll} {L : List (Str × Str × List Str)} (h : TextInput C L) {shuffle : Nat → List Str → List Str} (hs : ∀ i l, (shuffle i l).Perm l)
  {T : List Str} (hT : TermsOf C T)
include h hs hT

/-- **C99**, exactly: the program reads the queries of one term that the preprocessing chose, all of them terms. If for each of the seven bucket sizes the dictionary keeps all
these terms, the program measures what it should; otherwise it reads out of bounds. -/
theorem C99_exact : ∃ Q : List Str, Chosen C 100000 0 Q ∧ (∀ q ∈ Q, q ∈ T) ∧
    ((∀ B ∈ measuredSizes, ∀ q ∈ Q, q ∈ keptOf B T) →
      ∃ xs, DictScript.fcDictionary shuffle (textOf L) (Pre.run C).terms = some (.ok xs) ∧ All2 (fun B x => Measures (keptOf B T) Q x) measuredSizes xs) ∧
    ((∃ B ∈ measuredSizes, ∃ q ∈ Q, q ∉ keptOf B T) →
      DictScript.fcDictionary shuffle (textOf L) (Pre.run C).terms = some (.error .oob)) := by
  have hr := h.valid.ready
  have eT : (Pre.run C).terms = T := sorted_ext hr.files.terms hT.1 fun t => (hr.files.memTerms t).trans (hT.2 t).symm
  obtain ⟨Q, p1, p2⟩ := chosen_files h hs 100000
  obtain ⟨hc, q2, q3, q4⟩ := p2 0 (by omega)
  have v := hr.validTerms
  have hne := hr.terms_ne
  rw [eT] at v hne
  have hL : [] ∉ T := fun hm => by
    obtain ⟨r, hr', ht⟩ := (hT.2 []).mp hm
    exact (h.valid.words r hr' [] ht).1 rfl
  have hlen : (Q 0).take 100000 = Q 0 := by
    obtain ⟨R, _, e⟩ := hc
    exact List.take_of_length_le (by omega)
  have hq : ∀ q ∈ Q 0, q ∈ T := by
    intro q hq
    obtain ⟨R, e, _⟩ := hc
    obtain ⟨r, hr', rfl⟩ := List.mem_map.mp (e.mem_iff.mp (List.mem_append_left R hq))
    obtain ⟨h1, h2⟩ := List.mem_filter.mp hr'
    simp only [ofShard, Nat.zero_lt_succ, if_true, beq_iff_eq, Nat.zero_add] at h2
    obtain ⟨t, ht⟩ := List.length_eq_one_iff.mp h2
    rw [ht]
    exact (hT.2 _).mpr ⟨r, h1, by rw [ht]; exact List.mem_cons_self ..⟩
  have e : DictScript.fcDictionary shuffle (textOf L) (Pre.run C).terms = some (bucketSizes.mapM fun B => exeTerms B T (Q 0)) := by
    have eq := readQueries_eq q3 100000
    rw [hlen] at eq
    show ((Pre.queryFileNames.zip (Pre.partition shuffle 100000 (textOf L))).lookup DictScript.inputName).map _ = _
    rw [lookup_first p1, q2, eT]
    show some (mainTerms T 100000 (.ofText (queryFile (Q 0)))) = _
    rw [mainTerms, eq]
  have hx := fun B (hB : B ∈ measuredSizes) => C74_terms_exact (qs := Q 0) (bucketSizes_pos B hB) v hne hL (fun q hm => v.text q (hq q hm))
  refine ⟨Q 0, hc, hq, fun hk => ?_, fun hk => ?_⟩
  · obtain ⟨xs, e1, l1, s1⟩ := mapM_ok_all (f := fun B => exeTerms B T (Q 0)) (P := fun B x => Measures (keptOf B T) (Q 0) x) measuredSizes
      (fun B hB => (hx B hB).1 (hk B hB))
    refine ⟨xs, by rw [e]; exact congrArg some e1, .of_get l1.symm fun i hi hi' => ?_⟩
    obtain ⟨b, hb, m⟩ := s1 i _ (List.getElem?_eq_getElem hi)
    rw [List.getElem?_eq_getElem hi'] at hb
    cases hb
    exact m
  · rw [e]
    refine congrArg some (mapM_err_of measuredSizes (fun B hB => ?_) ?_)
    · by_cases hb : ∃ q ∈ Q 0, q ∉ keptOf B T
      · exact Or.inr ((hx B hB).2 hb)
      · obtain ⟨x, e, _⟩ := (hx B hB).1 fun q hm => Classical.byContradiction fun hc => hb ⟨q, hm, hc⟩
        exact Or.inl ⟨x, e⟩
    · obtain ⟨B, hB, hb⟩ := hk
      exact ⟨B, hB, (hx B hB).2 hb⟩

/-- **C99**, partial: if the number of terms of the collection is a multiple of none of 5, 9, 17, 33, 65, 129 and 257, the program measures, for each of the seven bucket sizes, what it
should for the queries of one term that the preprocessing chose.

Missing: other numbers of terms; see `C99_exact` and `C99_false`. -/
theorem C99_partial (hn : ∀ B ∈ measuredSizes, T.length % (B + 1) ≠ 0) : ∃ (Q : List Str) (xs : List Measured), Chosen C 100000 0 Q ∧
    DictScript.fcDictionary shuffle (textOf L) (Pre.run C).terms = some (.ok xs) ∧ xs.length = 7 ∧ ∀ x ∈ xs, Measures T Q x := by
  obtain ⟨Q, hc, hq, h1, _⟩ := C99_exact h hs hT
  have hk : ∀ B ∈ measuredSizes, keptOf B T = T := fun B hB => by unfold keptOf; rw [if_neg (hn B hB)]
  obtain ⟨xs, e, m⟩ := h1 fun B hB q hm => by rw [hk B hB]; exact hq q hm
  have l := m.length
  refine ⟨Q, xs, hc, e, l.symm, fun x hx => ?_⟩
  obtain ⟨i, hi, rfl⟩ := List.getElem_of_mem hx
  have := m.get i (by omega) hi
  rwa [hk _ (List.getElem_mem _)] at this

/-- **C99 is false**: if the number of terms is a multiple of `B + 1` for one of the seven bucket sizes `B`, one of the last `B` terms is a completion, and there are at most 100000
completions of one term, the program reads out of bounds. -/
theorem C99_false {B : Nat} (hB : B ∈ measuredSizes) (hn : T.length % (B + 1) = 0) (hle : (C.filter fun r => r.2.length == 1).length ≤ 100000)
    {i : Nat} (hi : i < T.length) (hlast : T.length - B ≤ i) (hone : ∃ r ∈ C, r.2 = [T[i]]) :
    DictScript.fcDictionary shuffle (textOf L) (Pre.run C).terms = some (.error .oob) := by
  obtain ⟨Q, hc, _, _, h2⟩ := C99_exact h hs hT
  refine h2 ⟨B, hB, T[i], ?_, ?_⟩
  · obtain ⟨R, e, l⟩ := hc
    have hf : (fun r : Nat × List Str => ofShard 0 r.2) = fun r => r.2.length == 1 := by
      funext r
      simp [ofShard]
    rw [hf] at e l
    rw [List.length_map] at l
    have hl := e.length_eq
    rw [List.length_append, List.length_map] at hl
    have hR : R = [] := List.length_eq_zero_iff.mp (by omega)
    rw [hR, List.append_nil] at e
    obtain ⟨r, hr, hr'⟩ := hone
    exact e.mem_iff.mpr (List.mem_map.mpr ⟨r, List.mem_filter.mpr ⟨hr, by rw [hr']; rfl⟩, by rw [hr']; rfl⟩)
  · unfold keptOf
    rw [if_pos hn]
    intro hm
    obtain ⟨j, hj, hji⟩ := List.getElem_of_mem hm
    rw [List.getElem_take] at hji
    rw [List.length_take] at hj
    have := FC.sorted_inj hT.1 (by omega) hi hji
    omega

end

/-- three completions, two of them of one term -/
def oneColl : Coll := [(1, [[97]]), (0, [[97], [98]]), (2, [[99]])]

def oneLines : List (Str × Str × List Str) := [([55, 32, 97], [55], [[97]]), ([56, 32, 97, 32, 98], [56], [[97], [98]]), ([54, 32, 99], [54], [[99]])]

theorem oneText : TextInput oneColl oneLines :=
  ⟨⟨by decide, by decide, by decide, by decide, by decide, by decide, by decide, by decide, by decide, by decide⟩, by
    intro l hl
    simp only [oneLines, List.mem_cons, List.not_mem_nil, or_false] at hl
    rcases hl with rfl | rfl | rfl <;> exact ⟨Pre.split_iff.mp (by decide +kernel), by decide, by decide⟩,
    .cons rfl (.cons rfl (.cons rfl .nil))⟩

theorem oneTerms : TermsOf oneColl [[97], [98], [99]] := by
  refine ⟨by decide, fun t => ?_⟩
  simp [oneColl]
  constructor
  · rintro (rfl | rfl | rfl) <;> simp
  · rintro (rfl | (rfl | rfl) | rfl) <;> simp

/-- The collection of three completions meets the conditions: seven results, and the two terms that are completions are the queries. -/
example : ∃ (Q : List Str) (xs : List Measured), Q.length = 2 ∧
    DictScript.fcDictionary (fun _ l => l) (textOf oneLines) (Pre.run oneColl).terms = some (.ok xs) ∧ xs.length = 7 ∧ ∀ x ∈ xs, Measures [[97], [98], [99]] Q x := by
  obtain ⟨Q, xs, ⟨R, _, l⟩, h2, h3, h4⟩ := C99_partial oneText (shuffle := fun _ l => l) (fun _ l => .refl l) oneTerms (by decide)
  exact ⟨Q, xs, l, h2, h3, h4⟩

/-- five completions of one term -/
def fiveColl : Coll := [(1, [[97]]), (0, [[98]]), (2, [[99]]), (3, [[100]]), (4, [[101]])]

def fiveLines : List (Str × Str × List Str) :=
  [([55, 32, 97], [55], [[97]]), ([56, 32, 98], [56], [[98]]), ([54, 32, 99], [54], [[99]]), ([53, 32, 100], [53], [[100]]), ([52, 32, 101], [52], [[101]])]

theorem fiveText : TextInput fiveColl fiveLines :=
  ⟨⟨by decide, by decide, by decide, by decide, by decide, by decide, by decide, by decide, by decide, by decide⟩, by
    intro l hl
    simp only [fiveLines, List.mem_cons, List.not_mem_nil, or_false] at hl
    rcases hl with rfl | rfl | rfl | rfl | rfl <;> exact ⟨Pre.split_iff.mp (by decide +kernel), by decide, by decide⟩,
    .cons rfl (.cons rfl (.cons rfl (.cons rfl (.cons rfl .nil))))⟩

/-- The collection of five completions of one term: the program reads out of bounds. -/
example : DictScript.fcDictionary (fun _ l => l.reverse) (textOf fiveLines) (Pre.run fiveColl).terms = some (.error .oob) :=
  C99_false fiveText (fun _ l => l.reverse_perm) (T := [[97], [98], [99], [100], [101]])
    ⟨by decide, fun t => by simp [fiveColl]⟩ (B := 4) (by decide) (by decide) (by decide) (i := 4) (by decide) (by decide) ⟨(4, [[101]]), by decide, rfl⟩

end AC.Props
