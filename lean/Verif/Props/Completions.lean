import Verif.Proofs.DocMap
/-!
# C10, C11, C12: the dictionary of completions
-/
namespace AC.Props
open AC FC

/-- Twenty completions with their document ids (gaps included), in lexicographic order: two buckets. -/
def sampleRecords : List (Nat × Ids) :=
  [(7, [1]), (3, [1, 2]), (9, [1, 2, 3]), (0, [1, 3]), (1, [2]), (2, [2, 1]), (4, [2, 1, 1]), (5, [3]), (6, [3, 3]),
   (8, [3, 5]), (10, [4]), (11, [4, 1]), (12, [4, 1, 7]), (13, [4, 2]), (14, [5]), (15, [5, 1]), (21, [6]),
   (16, [6, 1]), (17, [7]), (18, [7, 9])]

theorem sampleRecords_ok : ValidIds (sampleRecords.map (·.2)) ∧ (∀ r ∈ sampleRecords, r.1 < 22) ∧
    (sampleRecords.map (·.1)).Nodup ∧ sampleRecords.length % 17 ≠ 0 := by decide +kernel

/-! ## C11 -/

/-- **C11** when the number of completions is not a multiple of 17: building succeeds, `extract i` gives the `i`-th
completion, `locate` finds each completion at its position, and the map from documents to completions is right.

Partial: multiples of 17 are excluded (there it is false: `C10_false_completions`). -/
theorem C11_partial {univ : Nat} {rs : List (Nat × Ids)} (v : ValidIds (rs.map (·.2)))
    (hu : ∀ r ∈ rs, r.1 < univ) (hd : (rs.map (·.1)).Nodup) (hn : rs.length % 17 ≠ 0) :
    ∃ d m, IntDict.build univ rs = .ok (d, m) ∧
      (∀ i (hi : i < rs.length) (c : Ids), 128 ≤ c.length →
        ∃ c', IntDict.extract d i c = .ok (c', rs[i].2.length) ∧ c'.length = c.length ∧
          c'.take rs[i].2.length = rs[i].2) ∧
      (∀ i (hi : i < rs.length) (buf : Ids), buf.length = IntDict.bufSize →
        ∃ buf', IntDict.locate d rs[i].2 buf = .ok (i, buf')) ∧
      (∀ i (hi : i < rs.length), m[rs[i].1]? = some i) := by
  obtain ⟨d, m, e, R, _, e1, _⟩ := IntDict.build_spec v hu hd hn
  refine ⟨d, m, e, ?_, ?_, e1⟩
  · intro i hi c hc
    obtain ⟨c', f1, f2, f3, f4⟩ := R.extract i (by simpa using hi) c 0 (by simpa [Elem.u32, MAX_TERMS] using hc)
    refine ⟨c', ?_, f2, ?_⟩
    · simpa [IntDict.extract] using f1
    · simpa using f4
  · intro i hi buf hb
    obtain ⟨buf', f1, _⟩ := IntDict.locate_mem v R (i := i) (by simpa using hi) rfl buf (by rw [hb]; decide)
    exact ⟨buf', by simpa using f1⟩

example : ValidIds (sampleRecords.map (·.2)) ∧ (∀ r ∈ sampleRecords, r.1 < 22) ∧
    (sampleRecords.map (·.1)).Nodup ∧ sampleRecords.length % 17 ≠ 0 := sampleRecords_ok

/-! ## C12 -/

/-- the positions of the completions that start with `pfx` and a term in `[b, e]` form the half-open interval `r`, or
there is none and `r` is invalid -/
def CompletionRange (L : List Ids) (pfx : Ids) (b e : Nat) (r : Range) : Prop :=
  (r = Range.invalid ∧ ∀ s ∈ L, ¬ MatchIds pfx b e s) ∨
  (r.b < r.e ∧ r.e ≤ L.length ∧ ∀ i (hi : i < L.length), (r.b ≤ i ∧ i < r.e) ↔ MatchIds pfx b e L[i])

/-- What `locate_prefix` of the dictionary of completions returns, for every prefix and range of terms: the matching
completions, where the first completion does not count unless it is `pfx ++ [b]`; and the value of the caller's
`prefix` after the call. -/
theorem C12_exact {univ : Nat} {rs : List (Nat × Ids)} (v : ValidIds (rs.map (·.2)))
    (hu : ∀ r ∈ rs, r.1 < univ) (hd : (rs.map (·.1)).Nodup) (hn : rs.length % 17 ≠ 0)
    (pfx : Ids) {b e : Nat} (hbe : b ≤ e) (he : e < 2 ^ 32 - 1) :
    ∃ d m, IntDict.build univ rs = .ok (d, m) ∧ ∀ buf, buf.length = IntDict.bufSize →
      ∃ r pfx' buf', IntDict.locatePrefix d pfx ⟨b, e⟩ buf = .ok (r, pfx', buf') ∧ buf'.length = buf.length ∧
      ((r = Range.invalid ∧ pfx' = (if b = e then pfx ++ [e] else pfx) ∧
        ∀ i (hi : i < rs.length), MatchIds pfx b e rs[i].2 → i = 0 ∧ rs[i].2 ≠ pfx ++ [b]) ∨
       (r.b < r.e ∧ r.e ≤ rs.length ∧ pfx' = pfx ∧ ∀ i (hi : i < rs.length),
          (r.b ≤ i ∧ i < r.e) ↔ (MatchIds pfx b e rs[i].2 ∧ ¬ (i = 0 ∧ rs[i].2 ≠ pfx ++ [b])))) := by
  obtain ⟨d, m, e', R, _, _, _⟩ := IntDict.build_spec v hu hd hn
  refine ⟨d, m, e', fun buf hb => ?_⟩
  obtain ⟨r, pfx', buf', f1, f2, f3⟩ := IntDict.locatePrefix_exact v R (pfx := pfx) hbe (by omega) buf (by rw [hb]; decide)
  exact ⟨r, pfx', buf', f1, f2, by simpa using f3⟩

/-- **C12** under the conditions the code needs: the number of completions is not a multiple of 17, and the first
completion does not match or is exactly `pfx ++ [b]`. The range is then right. The caller's prefix is unchanged unless
the result is invalid and `b = e`.

Partial: in the remaining cases the claim is false (`C12_false_range`, `C12_false_prefix`). -/
theorem C12_partial {univ : Nat} {rs : List (Nat × Ids)} (v : ValidIds (rs.map (·.2)))
    (hu : ∀ r ∈ rs, r.1 < univ) (hd : (rs.map (·.1)).Nodup) (hn : rs.length % 17 ≠ 0)
    (pfx : Ids) {b e : Nat} (hbe : b ≤ e) (he : e < 2 ^ 32 - 1)
    (hfirst : ∀ r, rs[0]? = some r → MatchIds pfx b e r.2 → r.2 = pfx ++ [b]) :
    ∃ d m, IntDict.build univ rs = .ok (d, m) ∧ ∀ buf, buf.length = IntDict.bufSize →
      ∃ r pfx' buf', IntDict.locatePrefix d pfx ⟨b, e⟩ buf = .ok (r, pfx', buf') ∧
        CompletionRange (rs.map (·.2)) pfx b e r ∧ (b < e ∨ r ≠ Range.invalid → pfx' = pfx) := by
  obtain ⟨d, m, e', H⟩ := C12_exact v hu hd hn pfx hbe he
  refine ⟨d, m, e', fun buf hb => ?_⟩
  obtain ⟨r, pfx', buf', f1, f2, f3⟩ := H buf hb
  refine ⟨r, pfx', buf', f1, ?_, ?_⟩
  · have hmiss : ∀ i (hi : i < rs.length), MatchIds pfx b e rs[i].2 → ¬ (i = 0 ∧ rs[i].2 ≠ pfx ++ [b]) := by
      rintro i hi hm ⟨rfl, h2⟩
      exact h2 (hfirst _ (List.getElem?_eq_getElem hi) hm)
    rcases f3 with ⟨rfl, _, h3⟩ | ⟨h1, h2, _, h3⟩
    · refine Or.inl ⟨rfl, ?_⟩
      intro s hs hm
      obtain ⟨i, hi, rfl⟩ := List.getElem_of_mem hs
      simp only [List.length_map] at hi
      simp only [List.getElem_map] at hm
      exact hmiss i hi hm (h3 i hi hm)
    · refine Or.inr ⟨h1, by simpa using h2, ?_⟩
      intro i hi
      simp only [List.length_map] at hi
      rw [h3 i hi]
      simp only [List.getElem_map]
      exact ⟨fun h => h.1, fun h => ⟨h, hmiss i hi h⟩⟩
  · intro h
    rcases f3 with ⟨rfl, h2, _⟩ | ⟨_, _, h2, _⟩
    · rcases h with h | h
      · rw [h2, if_neg (by omega)]
      · exact absurd rfl h
    · exact h2

example : (∀ r, sampleRecords[0]? = some r → MatchIds [1] 2 3 r.2 → r.2 = [1] ++ [2]) ∧
    MatchIds [1] 2 3 [1, 2, 3] := by
  refine ⟨?_, 2, by decide, by decide, by decide⟩
  intro r hr
  simp only [sampleRecords, List.getElem?_cons_zero, Option.some.injEq] at hr
  subst hr
  rintro ⟨x, _, _, h⟩
  simp at h

/-- **C12 is false in general** (range): whenever the first completion matches and is not `pfx ++ [b]`, the returned
range is not that of the matching completions. -/
theorem C12_false_range {univ : Nat} {rs : List (Nat × Ids)} (v : ValidIds (rs.map (·.2)))
    (hu : ∀ r ∈ rs, r.1 < univ) (hd : (rs.map (·.1)).Nodup) (hn : rs.length % 17 ≠ 0)
    (pfx : Ids) {b e : Nat} (hbe : b ≤ e) (he : e < 2 ^ 32 - 1) {r0 : Nat × Ids} (hr0 : rs[0]? = some r0)
    (hm : MatchIds pfx b e r0.2) (hne : r0.2 ≠ pfx ++ [b]) :
    ∃ d m, IntDict.build univ rs = .ok (d, m) ∧ ∀ buf, buf.length = IntDict.bufSize →
      ∃ r pfx' buf', IntDict.locatePrefix d pfx ⟨b, e⟩ buf = .ok (r, pfx', buf') ∧
        ¬ CompletionRange (rs.map (·.2)) pfx b e r := by
  obtain ⟨d, m, e', H⟩ := C12_exact v hu hd hn pfx hbe he
  refine ⟨d, m, e', fun buf hb => ?_⟩
  obtain ⟨r, pfx', buf', f1, f2, f3⟩ := H buf hb
  refine ⟨r, pfx', buf', f1, ?_⟩
  obtain ⟨h0, hr0'⟩ := List.getElem?_eq_some_iff.mp hr0
  rcases f3 with ⟨rfl, _, h3⟩ | ⟨h1, h2, _, h3⟩
  · rintro (⟨_, g⟩ | ⟨g, _⟩)
    · exact g r0.2 (List.mem_map_of_mem (List.mem_of_getElem? hr0)) hm
    · simp [Range.invalid] at g
  · rintro (⟨rfl, g⟩ | ⟨_, _, g⟩)
    · simp [Range.invalid] at h1
    · have a := (g 0 (by simpa using h0)).mpr (by simpa [hr0'] using hm)
      have b' := (h3 0 h0).mp a
      exact b'.2 ⟨rfl, by rw [hr0']; exact hne⟩

/-- the query with an empty prefix and the range of all terms: every completion matches -/
example : ∃ rs : List (Nat × Ids), ValidIds (rs.map (·.2)) ∧ (∀ r ∈ rs, r.1 < 22) ∧ (rs.map (·.1)).Nodup ∧
    rs.length % 17 ≠ 0 ∧ ∃ r0, rs[0]? = some r0 ∧ MatchIds [] 1 7 r0.2 ∧ r0.2 ≠ [] ++ [1] :=
  ⟨sampleRecords.drop 1, by decide +kernel, by decide +kernel, by decide +kernel, by decide, (3, [1, 2]), rfl,
    ⟨1, by decide, by decide, by decide⟩, by decide⟩

/-- **C12 is false in general** (the caller's prefix): when `b = e` and nothing matches, the prefix is changed. -/
theorem C12_false_prefix {univ : Nat} {rs : List (Nat × Ids)} (v : ValidIds (rs.map (·.2)))
    (hu : ∀ r ∈ rs, r.1 < univ) (hd : (rs.map (·.1)).Nodup) (hn : rs.length % 17 ≠ 0)
    (pfx : Ids) {b : Nat} (he : b < 2 ^ 32 - 1) (hno : ∀ r ∈ rs, ¬ MatchIds pfx b b r.2) :
    ∃ d m, IntDict.build univ rs = .ok (d, m) ∧ ∀ buf, buf.length = IntDict.bufSize →
      ∃ buf', IntDict.locatePrefix d pfx ⟨b, b⟩ buf = .ok (Range.invalid, pfx ++ [b], buf') := by
  obtain ⟨d, m, e', H⟩ := C12_exact v hu hd hn pfx (Nat.le_refl b) he
  refine ⟨d, m, e', fun buf hb => ?_⟩
  obtain ⟨r, pfx', buf', f1, f2, f3⟩ := H buf hb
  rcases f3 with ⟨rfl, h2, h3⟩ | ⟨h1, h2, h4, h3⟩
  · rw [if_pos rfl] at h2
    subst h2
    exact ⟨buf', f1⟩
  · have hi : r.b < rs.length := by omega
    exact absurd ((h3 r.b hi).mp ⟨Nat.le_refl _, h1⟩).1 (hno _ (List.getElem_mem hi))

example : ∀ r ∈ sampleRecords, ¬ MatchIds [2] 9 9 r.2 := by
  intro r hr
  rintro ⟨x, h1, h2, h3⟩
  have : x = 9 := by omega
  subst this
  revert h3
  revert r
  decide

/-! ## C10 -/

/-- **C10 is false** for completions: when their number is a multiple of 17, looking up any of the last 16 completions
executes `__builtin_unreachable()`, and their documents are mapped to no completion. -/
theorem C10_false_completions {univ : Nat} {rs : List (Nat × Ids)} (v : ValidIds (rs.map (·.2)))
    (hu : ∀ r ∈ rs, r.1 < univ) (hd : (rs.map (·.1)).Nodup) (hn : rs.length % 17 = 0) (hne : rs ≠ []) :
    ∃ d m, IntDict.build univ rs = .ok (d, m) ∧ d.size = rs.length ∧
      ∀ i (hi : i < rs.length), rs.length - 16 ≤ i →
        m[rs[i].1]? = some INVALID_TERM ∧
        ∀ buf, buf.length = IntDict.bufSize → IntDict.locate d rs[i].2 buf = .error .unreachable := by
  have hpos : 0 < rs.length := List.length_pos_iff.mpr hne
  obtain ⟨rs', hrs'⟩ : ∃ rs', rs' = rs.take (rs.length - 16) := ⟨_, rfl⟩
  have hlen : rs'.length = rs.length - 16 := by simp [hrs']
  have hsub : ∀ r ∈ rs', r ∈ rs := fun r hr => List.mem_of_mem_take (hrs' ▸ hr)
  have v' : ValidIds (rs'.map (·.2)) :=
    ⟨v.sorted.sublist (by rw [hrs']; exact (List.take_sublist _ _).map _),
      fun s hs => by
        obtain ⟨r, hr, rfl⟩ := List.mem_map.mp hs
        exact v.elems _ (List.mem_map_of_mem (hsub r hr)),
      fun s hs => by
        obtain ⟨r, hr, rfl⟩ := List.mem_map.mp hs
        exact v.len _ (List.mem_map_of_mem (hsub r hr)),
      by have := v.count; simp at this ⊢; omega⟩
  have hd' : (rs'.map (·.1)).Nodup := hd.sublist (by rw [hrs']; exact (List.take_sublist _ _).map _)
  have htl : FC.tail rs.length = FC.tail rs'.length := by
    rw [hlen]; simp only [FC.tail]; (repeat' split) <;> omega
  have htl0 : FC.tail rs.length = 0 := by simp only [FC.tail]; (repeat' split) <;> omega
  have hnb : (rs.length + 16) / 17 = (rs'.length + 16) / 17 := by omega
  obtain ⟨d, hb, R⟩ := IntDict.build_fc_rep v' (by simp; omega)
  obtain ⟨m, e1, e2, e3, e4⟩ := IntDict.lexAll_spec rs' 0 (List.replicate univ INVALID_TERM)
    (fun r hr => by simpa using hu r (hsub r hr)) hd'
  have hloop : IntDict.lexLoop (FC.tail rs.length) ((rs.length + 16) / 17) rs 0 (List.replicate univ INVALID_TERM)
      = .ok m := by
    rw [IntDict.lexLoop_eq _ _ _ _ _ (by rw [htl0]; omega), htl0, if_neg (by omega),
      show 17 * ((rs.length + 16) / 17 - 1) + 1 + 0 = rs.length - 16 by omega, ← hrs', e1]
  refine ⟨{ d with size := rs.length }, m, ?_, rfl, ?_⟩
  · simp only [IntDict.build, hloop, M.ok_bind]
    rw [FC.build_mod17 (by simpa using hn) (by simpa using hne)]
    have : (rs.map (·.2)).take ((rs.map (·.2)).length - 16) = rs'.map (·.2) := by
      rw [hrs', List.length_map, List.map_take]
    rw [this, hb]
    simp [Except.map]
  · intro i hi hle
    constructor
    · rw [e4 rs[i].1 ?_]
      · simp [hu _ (List.getElem_mem hi)]
      · intro hm
        obtain ⟨r, hr, hri⟩ := List.mem_map.mp hm
        obtain ⟨j, hj, rfl⟩ := List.getElem_of_mem hr
        subst hrs'
        rw [List.getElem_take] at hri
        have hj' : j < rs.length := by omega
        exact List.pairwise_iff_getElem.mp hd j i (by simpa using hj') (by simpa using hi) (by omega)
          (by simpa using hri)
    · intro buf hbuf
      have hlt : ∀ s ∈ rs'.map (·.2), s < rs[i].2 := by
        intro s hs
        obtain ⟨r, hr, rfl⟩ := List.mem_map.mp hs
        obtain ⟨j, hj, rfl⟩ := List.getElem_of_mem hr
        subst hrs'
        rw [List.getElem_take]
        have := sorted_lt v.sorted (i := j) (j := i) (by omega) (by simpa using hi)
        simpa using this
      obtain ⟨found, b, hb', f1, f2, f3⟩ := locateBucket_spec R v'.sorted (IntDict.cmpOk rs[i].2 (rs'.map (·.2)))
      have hfalse : found = false := by
        cases found with
        | false => rfl
        | true =>
            have := hlt _ (List.getElem_mem hb')
            rw [f2 rfl] at this
            exact absurd this (lt_irrefl' _)
      subst hfalse
      obtain ⟨f4, f5⟩ := f3 rfl
      have hlast : (((rs'.map (·.2)).drop (17 * b + 1)).take 16) = [] := by
        have hx : ¬ 17 * (b + 1) < (rs'.map (·.2)).length := by
          intro h
          exact lt_asymm' (f5 (b + 1) h (by omega)) (hlt _ (List.getElem_mem h))
        rw [List.drop_eq_nil_of_le]
        · rfl
        · simp only [List.length_map] at hx hb' ⊢
          omega
      have hh : FC.tail rs.length = FC.tail d.size := by rw [R.size, List.length_map]; exact htl
      obtain ⟨buf', g1, g2⟩ := R.scan (fun i' s =>
        let cmp := idsCompare rs[i].2 s
        if cmp = 0 then some i' else if cmp < 0 then some INVALID_TERM else none) b hb' buf (by rw [hbuf]; decide)
      rw [hlast] at g1
      simp only [IntDict.locate, locateBucket_size, f1, M.ok_bind, Bool.false_eq_true, if_false, IntDict.locateIn,
        scan_size hh, g1, firstSome, M.error_bind]

example : ValidIds ((sampleRecords.take 17).map (·.2)) ∧ (∀ r ∈ sampleRecords.take 17, r.1 < 22) ∧
    ((sampleRecords.take 17).map (·.1)).Nodup ∧ (sampleRecords.take 17).length % 17 = 0 ∧
    sampleRecords.take 17 ≠ [] := by decide +kernel

end AC.Props
