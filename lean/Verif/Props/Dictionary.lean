import Verif.Proofs.FcLoss
/-!
# C08, C09, C10, C37: the dictionary of terms, and comparisons
-/
namespace AC.Props
open AC

/-- A list of 20 terms (two buckets): `b`, `bb`, ..., and the like; used as witness. -/
def sampleTerms : List Str :=
  [[97, 98, 99], [97, 98, 100], [97, 99], [98], [98, 97], [98, 97, 97], [98, 98], [98, 99], [99], [99, 99],
   [100], [100, 1], [100, 2], [100, 3], [101], [102], [103], [104], [104, 105], [104, 105, 106]]

theorem sampleTerms_valid : ValidTerms sampleTerms := by decide +kernel

/-! ## C08 -/

/-- **C08** for dictionaries whose number of terms is not a multiple of 17: building succeeds; `locate` maps the `i`-th
term to `i + 1`, and every other text to the "not found" id; `extract (i + 1)` writes the `i`-th term at the requested
place, keeps everything before that place, and stays inside the array. All this for every content of the static array
(`buf`) left by earlier calls.

Partial: dictionaries with a multiple of 17 terms are excluded; see `C10_false_terms`. -/
theorem C08_terms_partial {L : List Str} (v : ValidTerms L) (hn : L.length % 17 ≠ 0) :
    ∃ d, FcDict.build L = .ok d ∧
      (∀ i (hi : i < L.length) buf, buf.length = FcDict.bufSize →
        ∃ buf', FcDict.locate d L[i] buf = .ok (i + 1, buf') ∧ buf'.length = buf.length) ∧
      (∀ t, IsText t → t ∉ L → ∀ buf, buf.length = FcDict.bufSize →
        ∃ buf', FcDict.locate d t buf = .ok (INVALID_TERM, buf') ∧ buf'.length = buf.length) ∧
      (∀ i (hi : i < L.length) (out : Str) base, base + 256 ≤ out.length →
        ∃ out', FcDict.extract d (i + 1) out base = .ok (out', L[i].length) ∧ out'.length = out.length ∧
          out'.take base = out.take base ∧ (out'.drop base).take L[i].length = L[i]) := by
  obtain ⟨d, h, R⟩ := FcDict.build_rep v (Nat.le_refl _) v.len hn
  refine ⟨d, h, ?_, ?_, ?_⟩
  · intro i hi buf hb
    exact FcDict.locate_mem v R (v.text _ (List.getElem_mem hi)) hi rfl buf (by rw [hb]; decide)
  · intro t ht hti buf hb
    exact FcDict.locate_not_mem v R ht hti buf (by rw [hb]; decide)
  · intro i hi out base hb
    exact R.extract i hi out base (by simpa [MAX_CHARS, Elem.byte, Nat.add_assoc] using hb)

example : ValidTerms sampleTerms ∧ sampleTerms.length % 17 ≠ 0 ∧ IsText [97, 98] ∧ [97, 98] ∉ sampleTerms :=
  ⟨sampleTerms_valid, by decide, by decide, by decide⟩

/-! ## C09 -/

/-- the positions of the terms that start with `p` form the closed interval `r`, or there is none and `r` is invalid -/
def PrefixRange (L : List Str) (p : Str) (r : Range) : Prop :=
  (r = Range.invalid ∧ ∀ s ∈ L, ¬ p <+: s) ∨
  (r.b ≤ r.e ∧ r.e < L.length ∧ ∀ i (hi : i < L.length), (r.b ≤ i ∧ i ≤ r.e) ↔ p <+: L[i])

/-- **C09** under the two conditions that the code needs: the number of terms is not a multiple of 17, and it is not the
case that `p` is a nonempty proper prefix of the first term.

Partial: the remaining case is false, see `C09_false`; `C09_exact` says what happens there. -/
theorem C09_partial {L : List Str} (v : ValidTerms L) (hn : L.length % 17 ≠ 0) {p : Str} (hp : IsText p)
    (hfirst : ∀ s, L[0]? = some s → p <+: s → p = [] ∨ p = s) :
    ∃ d, FcDict.build L = .ok d ∧ ∀ buf, buf.length = FcDict.bufSize →
      ∃ r buf', FcDict.locatePrefix d p buf = .ok (r, buf') ∧ PrefixRange L p r := by
  obtain ⟨d, h, R⟩ := FcDict.build_rep v (Nat.le_refl _) v.len hn
  refine ⟨d, h, fun buf hb => ?_⟩
  obtain ⟨r, buf', e, _, hr⟩ := FcDict.locatePrefix_exact v R hp buf (by rw [hb]; decide)
  refine ⟨r, buf', e, ?_⟩
  have hmiss : ∀ i (hi : i < L.length), p <+: L[i] → ¬ (i = 0 ∧ p ≠ [] ∧ p ≠ L[i]) := by
    rintro i hi hpi ⟨rfl, h1, h2⟩
    rcases hfirst _ (List.getElem?_eq_getElem hi) hpi with h | h
    · exact h1 h
    · exact h2 h
  rcases hr with ⟨rfl, h2⟩ | ⟨h1, h2, h3⟩
  · refine Or.inl ⟨rfl, fun s hs hps => ?_⟩
    obtain ⟨i, hi, rfl⟩ := List.getElem_of_mem hs
    exact hmiss i hi hps (h2 i hi hps)
  · refine Or.inr ⟨h1, h2, fun i hi => ?_⟩
    rw [h3 i hi]
    exact ⟨fun h => h.1, fun h => ⟨h, hmiss i hi h⟩⟩

example : ValidTerms sampleTerms ∧ sampleTerms.length % 17 ≠ 0 ∧ IsText [98] ∧
    (∀ s, sampleTerms[0]? = some s → [98] <+: s → ([98] : Str) = [] ∨ [98] = s) ∧
    (∃ s ∈ sampleTerms, [98] <+: s ∧ s ≠ [98]) :=
  ⟨sampleTerms_valid, by decide, by decide, by decide, by decide⟩

/-- What `locate_prefix` returns for every text: the range of the terms starting with `p`, where the first term of the
dictionary does not count unless `p` is empty or that term. -/
theorem C09_exact {L : List Str} (v : ValidTerms L) (hn : L.length % 17 ≠ 0) {p : Str} (hp : IsText p) :
    ∃ d, FcDict.build L = .ok d ∧ ∀ buf, buf.length = FcDict.bufSize →
      ∃ r buf', FcDict.locatePrefix d p buf = .ok (r, buf') ∧ buf'.length = buf.length ∧
      ((r = Range.invalid ∧ ∀ i (hi : i < L.length), p <+: L[i] → i = 0 ∧ p ≠ [] ∧ p ≠ L[i]) ∨
       (r.b ≤ r.e ∧ r.e < L.length ∧ ∀ i (hi : i < L.length),
          (r.b ≤ i ∧ i ≤ r.e) ↔ (p <+: L[i] ∧ ¬ (i = 0 ∧ p ≠ [] ∧ p ≠ L[i])))) := by
  obtain ⟨d, h, R⟩ := FcDict.build_rep v (Nat.le_refl _) v.len hn
  exact ⟨d, h, fun buf hb => FcDict.locatePrefix_exact v R hp buf (by rw [hb]; decide)⟩

/-- **C09 is false in general**: whenever the prefix is a nonempty proper prefix of the first term, the result is not the
range of the terms having that prefix. -/
theorem C09_false {L : List Str} (v : ValidTerms L) (hn : L.length % 17 ≠ 0) {p s : Str}
    (hs : L[0]? = some s) (hps : p <+: s) (h0 : p ≠ []) (h1 : p ≠ s) :
    ∃ d, FcDict.build L = .ok d ∧ ∀ buf, buf.length = FcDict.bufSize →
      ∃ r buf', FcDict.locatePrefix d p buf = .ok (r, buf') ∧ ¬ PrefixRange L p r := by
  obtain ⟨hi, hs'⟩ := List.getElem?_eq_some_iff.mp hs
  have hsL : s ∈ L := List.mem_of_getElem? hs
  have hp : IsText p := fun c hc => v.text s hsL c (hps.subset hc)
  obtain ⟨d, h, H⟩ := C09_exact v hn hp
  refine ⟨d, h, fun buf hb => ?_⟩
  obtain ⟨r, buf', e, _, hr⟩ := H buf hb
  refine ⟨r, buf', e, ?_⟩
  have hinv : ¬ Range.invalid.e < L.length := by
    have := v.count; simp only [Range.invalid, NOT_FOUND]; omega
  rcases hr with ⟨rfl, h2⟩ | ⟨g1, g2, g3⟩
  · rintro (⟨_, h⟩ | ⟨_, a, _⟩)
    · exact h s hsL hps
    · exact hinv a
  · rintro (⟨rfl, _⟩ | ⟨_, _, h⟩)
    · exact hinv g2
    · have a := (h 0 hi).mpr (by rw [hs']; exact hps)
      have b := (g3 0 hi).mp a
      exact b.2 ⟨rfl, h0, by rw [hs']; exact h1⟩

example : sampleTerms[0]? = some [97, 98, 99] ∧ ([97, 98] : Str) <+: [97, 98, 99] ∧ ([97, 98] : Str) ≠ [] ∧
    ([97, 98] : Str) ≠ [97, 98, 99] := by decide

/-! ## C10 -/

/-- **C10 is false**: for every dictionary built from a multiple of 17 terms, the last 16 terms are not found. -/
theorem C10_false_terms {L : List Str} (v : ValidTerms L) (hn : L.length % 17 = 0) (hne : L ≠ []) :
    ∃ d, FcDict.build L = .ok d ∧ d.size = L.length ∧
      ∀ i (hi : i < L.length), L.length - 16 ≤ i → ∀ buf, buf.length = FcDict.bufSize →
        ∃ buf', FcDict.locate d L[i] buf = .ok (INVALID_TERM, buf') := by
  have hpos : 0 < L.length := List.length_pos_iff.mpr hne
  have hlen : (L.take (L.length - 16)).length = L.length - 16 := by simp
  have v' : ValidTerms (L.take (L.length - 16)) :=
    ⟨v.sorted.sublist (List.take_sublist _ _), fun s hs => v.text s (List.mem_of_mem_take hs),
      fun s hs => v.len s (List.mem_of_mem_take hs), by have := v.count; simp; omega, Nat.lt_of_le_of_lt (sum_take_le ..) v.room⟩
  obtain ⟨d, h, R⟩ := FcDict.build_rep v' (Nat.le_refl _) v'.len (by rw [hlen]; omega)
  refine ⟨{ d with size := L.length }, ?_, rfl, ?_⟩
  · rw [FcDict.build, FC.build_mod17 hn hne]
    rw [FcDict.build] at h
    rw [h]; rfl
  · intro i hi hle buf hb
    rw [FcDict.locate_size (by
      rw [R.size, hlen]; simp only [FC.tail]; (repeat' split) <;> omega)]
    obtain ⟨buf', e, _⟩ := FcDict.locate_not_mem v' R (v.text _ (List.getElem_mem hi)) (t := L[i]) (by
      intro hm
      obtain ⟨j, hj, hji⟩ := List.getElem_of_mem hm
      rw [List.getElem_take] at hji
      have := FC.sorted_inj v.sorted (by omega) hi hji
      omega) buf (by rw [hb]; decide)
    exact ⟨buf', e⟩

example : ValidTerms (sampleTerms.take 17) ∧ (sampleTerms.take 17).length % 17 = 0 ∧ sampleTerms.take 17 ≠ [] := by
  decide +kernel

/-- **C10** for all other sizes: each term is located, and extracted (`C08_terms_partial`). -/
theorem C10_terms_partial {L : List Str} (v : ValidTerms L) (hn : L.length % 17 ≠ 0) :
    ∃ d, FcDict.build L = .ok d ∧ d.size = L.length ∧
      ∀ t ∈ L, ∀ buf, buf.length = FcDict.bufSize → ∀ out : Str, 256 ≤ out.length →
        ∃ id buf' out' , FcDict.locate d t buf = .ok (id, buf') ∧ id ≠ INVALID_TERM ∧
          FcDict.extract d id out 0 = .ok (out', t.length) ∧ out'.take t.length = t := by
  obtain ⟨d, h, R⟩ := FcDict.build_rep v (Nat.le_refl _) v.len hn
  refine ⟨d, h, R.size, fun t ht buf hb out ho => ?_⟩
  obtain ⟨i, hi, rfl⟩ := List.getElem_of_mem ht
  obtain ⟨buf', e, _⟩ := FcDict.locate_mem v R (v.text _ (List.getElem_mem hi)) hi rfl buf (by rw [hb]; decide)
  obtain ⟨out', e1, e2, e3, e4⟩ := R.extract i hi out 0 (by simpa [MAX_CHARS, Elem.byte] using ho)
  refine ⟨i + 1, buf', out', e, ?_, e1, by simpa using e4⟩
  have := v.count; simp only [INVALID_TERM]; omega

/-! ## C37 -/

/-- **C37**: comparison of NUL-free byte strings is lexicographic, and the bounded comparison tests for a prefix. -/
theorem C37_bytes (l r : Str) (hl : IsText l) (hr : IsText r) :
    ((byteCompare l r < 0 ↔ l < r) ∧ (byteCompare l r = 0 ↔ l = r) ∧ (0 < byteCompare l r ↔ r < l)) ∧
    ((byteCompareN l r r.length < 0 ↔ l < r) ∧ (byteCompareN l r r.length = 0 ↔ r <+: l) ∧
      (0 < byteCompareN l r r.length ↔ (r < l ∧ ¬ r <+: l))) :=
  ⟨strncmp_spec l r hl hr, byteCompareN_spec l r hl hr⟩

example : IsText [98, 97] ∧ IsText [98] ∧ ([98] : Str) < [98, 97] := by decide

/-- **C37** for sequences of term ids, without any condition. -/
theorem C37_ids (l r : Ids) :
    ((idsCompare l r < 0 ↔ l < r) ∧ (idsCompare l r = 0 ↔ l = r) ∧ (0 < idsCompare l r ↔ r < l)) ∧
    ((idsCompareN l r r.length < 0 ↔ l < r) ∧ (idsCompareN l r r.length = 0 ↔ r <+: l) ∧
      (0 < idsCompareN l r r.length ↔ (r < l ∧ ¬ r <+: l))) :=
  ⟨idsCompare_spec l r, idsCompareN_spec l r⟩

/-- The condition of `C37_bytes` is needed: strings with a NUL byte may compare equal without being equal. -/
theorem C37_needs_text : ∃ l r : Str, l ≠ r ∧ byteCompare l r = 0 :=
  ⟨[0, 1], [0, 2], by decide, by decide⟩

end AC.Props
