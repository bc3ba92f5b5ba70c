import Verif.Proofs.BucketSizeLoss
import Verif.Props.Dictionary
import Verif.Props.Completions
/-!
# C73: the bucket size of the dictionaries
-/
namespace AC.Props
open AC

/-- two closed intervals that contain the same positions below `n` are the same -/
theorem range_unique {n : Nat} {r r' : Range} (h : r.b ≤ r.e) (he : r.e < n) (h' : r'.b ≤ r'.e) (he' : r'.e < n)
    (hiff : ∀ i, i < n → ((r.b ≤ i ∧ i ≤ r.e) ↔ (r'.b ≤ i ∧ i ≤ r'.e))) : r = r' := by
  have h1 := (hiff r.b (by omega)).mp ⟨Nat.le_refl _, h⟩
  have h2 := (hiff r.e he).mp ⟨h, Nat.le_refl _⟩
  have h3 := (hiff r'.b (by omega)).mpr ⟨Nat.le_refl _, h'⟩
  have h4 := (hiff r'.e he').mpr ⟨h', Nat.le_refl _⟩
  obtain ⟨b, e⟩ := r
  obtain ⟨b', e'⟩ := r'
  simp only at *
  congr 1 <;> omega

/-- **C73** for the dictionary of terms with any bucket size `B`, when the number of terms is not a multiple of `B + 1`:
building succeeds; `locate` maps the `i`-th term to `i + 1` and every other text to the "not found" id; `extract (i + 1)`
writes the `i`-th term at the requested place, keeps everything before that place, and stays inside the array;
`locate_prefix` returns the positions of the terms that start with `p`, where the first term does not count unless `p` is
empty or that term. None of this depends on `B`.

Partial: multiples of `B + 1` are excluded; see `C73_false_terms`. -/
theorem C73_terms_partial {B : Nat} {L : List Str} (v : ValidTerms L) (hn : L.length % (B + 1) ≠ 0) :
    ∃ d, FcDict.buildB B L = .ok d ∧ d.size = L.length ∧
      (∀ i (hi : i < L.length) buf, buf.length = FcDict.bufSize →
        ∃ buf', FcDict.locateB B d L[i] buf = .ok (i + 1, buf') ∧ buf'.length = buf.length) ∧
      (∀ t, IsText t → t ∉ L → ∀ buf, buf.length = FcDict.bufSize →
        ∃ buf', FcDict.locateB B d t buf = .ok (INVALID_TERM, buf') ∧ buf'.length = buf.length) ∧
      (∀ i (hi : i < L.length) (out : Str) base, base + 256 ≤ out.length →
        ∃ out', FcDict.extractB B d (i + 1) out base = .ok (out', L[i].length) ∧ out'.length = out.length ∧
          out'.take base = out.take base ∧ (out'.drop base).take L[i].length = L[i]) ∧
      (∀ p, IsText p → ∀ buf, buf.length = FcDict.bufSize →
        ∃ r buf', FcDict.locatePrefixB B d p buf = .ok (r, buf') ∧ buf'.length = buf.length ∧
        ((r = Range.invalid ∧ ∀ i (hi : i < L.length), p <+: L[i] → i = 0 ∧ p ≠ [] ∧ p ≠ L[i]) ∨
         (r.b ≤ r.e ∧ r.e < L.length ∧ ∀ i (hi : i < L.length),
            (r.b ≤ i ∧ i ≤ r.e) ↔ (p <+: L[i] ∧ ¬ (i = 0 ∧ p ≠ [] ∧ p ≠ L[i]))))) := by
  obtain ⟨d, h, R⟩ := FcDict.buildB_rep (B := B) v (Nat.le_refl _) v.len hn
  refine ⟨d, h, R.size, ?_, ?_, ?_, ?_⟩
  · intro i hi buf hb
    exact FcDict.locateB_mem v R (v.text _ (List.getElem_mem hi)) hi rfl buf (by rw [hb]; decide)
  · intro t ht hti buf hb
    exact FcDict.locateB_not_mem v R ht hti buf (by rw [hb]; decide)
  · intro i hi out base hb
    exact R.extract i hi out base (by simpa [MAX_CHARS, Elem.byte, Nat.add_assoc] using hb)
  · intro p hp buf hb
    exact FcDict.locatePrefixB_exact v R hp buf (by rw [hb]; decide)

/-- **C73**: two dictionaries of the same terms with bucket sizes `B` and `B'` answer `locate`, `locate_prefix` and
`extract` alike, if the number of terms is a multiple of neither `B + 1` nor `B' + 1`. -/
theorem C73_same_partial {B B' : Nat} {L : List Str} (v : ValidTerms L) (hn : L.length % (B + 1) ≠ 0)
    (hn' : L.length % (B' + 1) ≠ 0) :
    ∃ d d', FcDict.buildB B L = .ok d ∧ FcDict.buildB B' L = .ok d' ∧
      (∀ t, IsText t → ∀ buf, buf.length = FcDict.bufSize → ∃ id, ∃ b1 b2,
        FcDict.locateB B d t buf = .ok (id, b1) ∧ FcDict.locateB B' d' t buf = .ok (id, b2)) ∧
      (∀ p, IsText p → ∀ buf, buf.length = FcDict.bufSize → ∃ r, ∃ b1 b2,
        FcDict.locatePrefixB B d p buf = .ok (r, b1) ∧ FcDict.locatePrefixB B' d' p buf = .ok (r, b2)) ∧
      (∀ id, 0 < id → id ≤ L.length → ∀ out : Str, 256 ≤ out.length → ∃ n, ∃ o1 o2,
        FcDict.extractB B d id out 0 = .ok (o1, n) ∧ FcDict.extractB B' d' id out 0 = .ok (o2, n) ∧
        o1.take n = o2.take n) := by
  obtain ⟨d, h, _, h1, h2, h3, h4⟩ := C73_terms_partial v hn
  obtain ⟨d', h', _, h1', h2', h3', h4'⟩ := C73_terms_partial v hn'
  refine ⟨d, d', h, h', ?_, ?_, ?_⟩
  · intro t ht buf hb
    by_cases hm : t ∈ L
    · obtain ⟨i, hi, rfl⟩ := List.getElem_of_mem hm
      obtain ⟨b1, e1, _⟩ := h1 i hi buf hb
      obtain ⟨b2, e2, _⟩ := h1' i hi buf hb
      exact ⟨_, b1, b2, e1, e2⟩
    · obtain ⟨b1, e1, _⟩ := h2 t ht hm buf hb
      obtain ⟨b2, e2, _⟩ := h2' t ht hm buf hb
      exact ⟨_, b1, b2, e1, e2⟩
  · intro p hp buf hb
    obtain ⟨r, b1, e1, _, s1⟩ := h4 p hp buf hb
    obtain ⟨r', b2, e2, _, s2⟩ := h4' p hp buf hb
    have hr : r = r' := by
      rcases s1 with ⟨rfl, s1⟩ | ⟨x1, y1, s1⟩ <;> rcases s2 with ⟨rfl, s2⟩ | ⟨x2, y2, s2⟩
      · rfl
      · have hi : r'.b < L.length := by omega
        have := (s2 _ hi).mp ⟨Nat.le_refl _, x2⟩
        exact absurd (s1 _ hi this.1) this.2
      · have hi : r.b < L.length := by omega
        have := (s1 _ hi).mp ⟨Nat.le_refl _, x1⟩
        exact absurd (s2 _ hi this.1) this.2
      · exact range_unique x1 y1 x2 y2 (fun i hi => by rw [s1 i hi, s2 i hi])
    subst hr
    exact ⟨r, b1, b2, e1, e2⟩
  · intro id h0 hle out ho
    have hi : id - 1 < L.length := by omega
    obtain ⟨o1, e1, _, _, s1⟩ := h3 (id - 1) hi out 0 (by omega)
    obtain ⟨o2, e2, _, _, s2⟩ := h3' (id - 1) hi out 0 (by omega)
    rw [Nat.sub_add_cancel h0] at e1 e2
    exact ⟨_, o1, o2, e1, e2, by simpa using s1.trans s2.symm⟩

example : ValidTerms sampleTerms ∧ sampleTerms.length % (7 + 1) ≠ 0 ∧ sampleTerms.length % (16 + 1) ≠ 0 ∧
    IsText [97, 98] ∧ ([97, 98] : Str) ∉ sampleTerms ∧ [98] <+: sampleTerms[4] :=
  ⟨sampleTerms_valid, by decide, by decide, by decide, by decide, by decide⟩

/-- The functions of the indexes are those with bucket size 16. -/
theorem C73_default_terms : FcDict.buildB 16 = FcDict.build ∧ FcDict.locateB 16 = FcDict.locate ∧
    FcDict.locatePrefixB 16 = FcDict.locatePrefix ∧ FcDict.extractB 16 = FcDict.extract :=
  ⟨funext fun _ => FC.buildB_16 _ _ _, rfl, rfl, rfl⟩

/-- **C73 is false**: whatever the bucket size `B`, if the number of terms is a multiple of `B + 1` then the last `B` terms
are not found. -/
theorem C73_false_terms {B : Nat} {L : List Str} (hB : 0 < B) (v : ValidTerms L) (hn : L.length % (B + 1) = 0) (hne : L ≠ []) :
    ∃ d, FcDict.buildB B L = .ok d ∧ d.size = L.length ∧
      ∀ i (hi : i < L.length), L.length - B ≤ i → ∀ buf, buf.length = FcDict.bufSize →
        ∃ buf', FcDict.locateB B d L[i] buf = .ok (INVALID_TERM, buf') := by
  have hpos : 0 < L.length := List.length_pos_iff.mpr hne
  obtain ⟨q, hq⟩ : ∃ q, L.length = (B + 1) * (q + 1) := by
    obtain ⟨q, hq⟩ := Nat.dvd_of_mod_eq_zero hn
    rcases q with _ | q
    · rw [hq] at hpos; simp at hpos
    · exact ⟨q, hq⟩
  have hq' : L.length - B = (B + 1) * q + 1 := by rw [hq, Nat.mul_succ]; omega
  have hlen : (L.take (L.length - B)).length = (B + 1) * q + 1 := by simp [← hq']
  have v' : ValidTerms (L.take (L.length - B)) :=
    ⟨v.sorted.sublist (List.take_sublist _ _), fun s hs => v.text s (List.mem_of_mem_take hs),
      fun s hs => v.len s (List.mem_of_mem_take hs),
      by have := v.count; rw [List.length_take]; omega, Nat.lt_of_le_of_lt (sum_take_le ..) v.room⟩
  obtain ⟨d, h, R⟩ := FcDict.buildB_rep (B := B) v' (Nat.le_refl _) v'.len (by
    rw [hlen, Nat.mul_add_mod, Nat.mod_eq_of_lt (by omega)]; omega)
  refine ⟨{ d with size := L.length }, ?_, rfl, ?_⟩
  · rw [FcDict.buildB, FC.buildB_mod hB hn hne]
    rw [FcDict.buildB] at h
    rw [h]; rfl
  · intro i hi hle buf hb
    rw [FcDict.locateB_size (by rw [R.size, hlen, hq, FC.tailB_mul, FC.tailB_mul_one hB])]
    obtain ⟨buf', e, _⟩ := FcDict.locateB_not_mem v' R (v.text _ (List.getElem_mem hi)) (t := L[i]) (by
      intro hm
      obtain ⟨j, hj, hji⟩ := List.getElem_of_mem hm
      rw [List.getElem_take] at hji
      have := FC.sorted_inj v.sorted (by omega) hi hji
      omega) buf (by rw [hb]; decide)
    exact ⟨buf', e⟩

example : 0 < 4 ∧ ValidTerms sampleTerms ∧ sampleTerms.length % (4 + 1) = 0 ∧ sampleTerms ≠ [] ∧
    sampleTerms.length % (8 + 1) ≠ 0 :=
  ⟨by decide, sampleTerms_valid, by decide, by decide, by decide⟩

/-- two half-open intervals that contain the same positions below `n` are the same -/
theorem range_unique' {n : Nat} {r r' : Range} (h : r.b < r.e) (he : r.e ≤ n) (h' : r'.b < r'.e) (he' : r'.e ≤ n)
    (hiff : ∀ i, i < n → ((r.b ≤ i ∧ i < r.e) ↔ (r'.b ≤ i ∧ i < r'.e))) : r = r' := by
  have h1 := (hiff r.b (by omega)).mp ⟨Nat.le_refl _, h⟩
  have h2 := (hiff (r.e - 1) (by omega)).mp ⟨by omega, by omega⟩
  have h3 := (hiff r'.b (by omega)).mpr ⟨Nat.le_refl _, h'⟩
  have h4 := (hiff (r'.e - 1) (by omega)).mpr ⟨by omega, by omega⟩
  obtain ⟨b, e⟩ := r
  obtain ⟨b', e'⟩ := r'
  simp only at *
  congr 1 <;> omega

/-- **C73** for the dictionary of completions with any bucket size `B`, when the number of completions is not a multiple
of `B + 1`: building succeeds, `extract i` gives the `i`-th completion, `locate` finds each completion at its position,
the map from documents to completions is right, and `locate_prefix` returns the matching completions, where the first
completion does not count unless it is `pfx ++ [b]`. None of this depends on `B`.

Partial: multiples of `B + 1` are excluded; see `C73_false_completions`. -/
theorem C73_completions_partial {B univ : Nat} {rs : List (Nat × Ids)} (v : ValidIds (rs.map (·.2)))
    (hu : ∀ r ∈ rs, r.1 < univ) (hd : (rs.map (·.1)).Nodup) (hn : rs.length % (B + 1) ≠ 0) :
    ∃ d m, IntDict.buildB B univ rs = .ok (d, m) ∧ d.size = rs.length ∧
      (∀ i (hi : i < rs.length) (c : Ids), 128 ≤ c.length →
        ∃ c', IntDict.extractB B d i c = .ok (c', rs[i].2.length) ∧ c'.length = c.length ∧
          c'.take rs[i].2.length = rs[i].2) ∧
      (∀ i (hi : i < rs.length) (buf : Ids), buf.length = IntDict.bufSize →
        ∃ buf', IntDict.locateB B d rs[i].2 buf = .ok (i, buf')) ∧
      (∀ i (hi : i < rs.length), m[rs[i].1]? = some i) ∧
      (∀ j, j < univ → j ∉ rs.map (·.1) → m[j]? = some INVALID_TERM) ∧
      (∀ (pfx : Ids) b e, b ≤ e → e < 2 ^ 32 - 1 → ∀ buf, buf.length = IntDict.bufSize →
        ∃ r pfx' buf', IntDict.locatePrefixB B d pfx ⟨b, e⟩ buf = .ok (r, pfx', buf') ∧ buf'.length = buf.length ∧
        ((r = Range.invalid ∧ pfx' = (if b = e then pfx ++ [e] else pfx) ∧
          ∀ i (hi : i < rs.length), MatchIds pfx b e rs[i].2 → i = 0 ∧ rs[i].2 ≠ pfx ++ [b]) ∨
         (r.b < r.e ∧ r.e ≤ rs.length ∧ pfx' = pfx ∧ ∀ i (hi : i < rs.length),
            (r.b ≤ i ∧ i < r.e) ↔ (MatchIds pfx b e rs[i].2 ∧ ¬ (i = 0 ∧ rs[i].2 ≠ pfx ++ [b]))))) := by
  obtain ⟨d, m, e, R, _, e1, e2⟩ := IntDict.buildB_spec (B := B) v hu hd hn
  refine ⟨d, m, e, by simpa using R.size, ?_, ?_, e1, e2, ?_⟩
  · intro i hi c hc
    obtain ⟨c', f1, f2, f3, f4⟩ := R.extract i (by simpa using hi) c 0 (by simpa [Elem.u32, MAX_TERMS] using hc)
    refine ⟨c', ?_, f2, ?_⟩
    · simpa [IntDict.extractB] using f1
    · simpa using f4
  · intro i hi buf hb
    obtain ⟨buf', f1, _⟩ := IntDict.locateB_mem v R (i := i) (by simpa using hi) rfl buf (by rw [hb]; decide)
    exact ⟨buf', by simpa using f1⟩
  · intro pfx b e hbe he buf hb
    obtain ⟨r, pfx', buf', f1, f2, f3⟩ := IntDict.locatePrefixB_exact v R (pfx := pfx) hbe he buf (by rw [hb]; decide)
    exact ⟨r, pfx', buf', f1, f2, by simpa using f3⟩

/-- **C73**: two dictionaries of the same completions with bucket sizes `B` and `B'` answer `extract` and `locate_prefix`
alike, and their maps from documents to completions are the same, if the number of completions is a multiple of neither
`B + 1` nor `B' + 1`. -/
theorem C73_same_completions_partial {B B' univ : Nat} {rs : List (Nat × Ids)} (v : ValidIds (rs.map (·.2)))
    (hu : ∀ r ∈ rs, r.1 < univ) (hd : (rs.map (·.1)).Nodup) (hn : rs.length % (B + 1) ≠ 0)
    (hn' : rs.length % (B' + 1) ≠ 0) :
    ∃ d d' m, IntDict.buildB B univ rs = .ok (d, m) ∧ IntDict.buildB B' univ rs = .ok (d', m) ∧
      (∀ i, i < rs.length → ∀ c : Ids, 128 ≤ c.length → ∃ n c1 c2,
        IntDict.extractB B d i c = .ok (c1, n) ∧ IntDict.extractB B' d' i c = .ok (c2, n) ∧ c1.take n = c2.take n) ∧
      (∀ (pfx : Ids) b e, b ≤ e → e < 2 ^ 32 - 1 → ∀ buf, buf.length = IntDict.bufSize →
        ∃ r pfx' b1 b2, IntDict.locatePrefixB B d pfx ⟨b, e⟩ buf = .ok (r, pfx', b1) ∧
          IntDict.locatePrefixB B' d' pfx ⟨b, e⟩ buf = .ok (r, pfx', b2)) := by
  obtain ⟨d, m, h, _, h1, _, h3, h4, h5⟩ := C73_completions_partial v hu hd hn
  obtain ⟨d', m', h', _, h1', _, h3', h4', h5'⟩ := C73_completions_partial v hu hd hn'
  obtain ⟨_, _, g, _, gl, _, _⟩ := IntDict.buildB_spec (B := B) v hu hd hn
  obtain ⟨_, _, g', _, gl', _, _⟩ := IntDict.buildB_spec (B := B') v hu hd hn'
  rw [h] at g
  rw [h'] at g'
  cases g
  cases g'
  have hm : m = m' := by
    apply List.ext_getElem?
    intro j
    by_cases hj : j < univ
    · by_cases hmem : j ∈ rs.map (·.1)
      · obtain ⟨r, hr, rfl⟩ := List.mem_map.mp hmem
        obtain ⟨i, hi, rfl⟩ := List.getElem_of_mem hr
        rw [h3 i hi, h3' i hi]
      · rw [h4 j hj hmem, h4' j hj hmem]
    · rw [List.getElem?_eq_none (by omega), List.getElem?_eq_none (by omega)]
  subst hm
  refine ⟨d, d', m, h, h', ?_, ?_⟩
  · intro i hi c hc
    obtain ⟨c1, e1, _, s1⟩ := h1 i hi c hc
    obtain ⟨c2, e2, _, s2⟩ := h1' i hi c hc
    exact ⟨_, c1, c2, e1, e2, s1.trans s2.symm⟩
  · intro pfx b e hbe he buf hb
    obtain ⟨r, p1, b1, e1, _, s1⟩ := h5 pfx b e hbe he buf hb
    obtain ⟨r', p2, b2, e2, _, s2⟩ := h5' pfx b e hbe he buf hb
    have hr : r = r' ∧ p1 = p2 := by
      rcases s1 with ⟨rfl, rfl, s1⟩ | ⟨x1, y1, rfl, s1⟩ <;> rcases s2 with ⟨rfl, rfl, s2⟩ | ⟨x2, y2, rfl, s2⟩
      · exact ⟨rfl, rfl⟩
      · have hi : r'.b < rs.length := by omega
        have := (s2 _ hi).mp ⟨Nat.le_refl _, x2⟩
        exact absurd (s1 _ hi this.1) this.2
      · have hi : r.b < rs.length := by omega
        have := (s1 _ hi).mp ⟨Nat.le_refl _, x1⟩
        exact absurd (s2 _ hi this.1) this.2
      · exact ⟨range_unique' x1 y1 x2 y2 (fun i hi => by rw [s1 i hi, s2 i hi]), rfl⟩
    obtain ⟨rfl, rfl⟩ := hr
    exact ⟨r, p1, b1, b2, e1, e2⟩

example : ValidIds (sampleRecords.map (·.2)) ∧ (∀ r ∈ sampleRecords, r.1 < 22) ∧
    (sampleRecords.map (·.1)).Nodup ∧ sampleRecords.length % (5 + 1) ≠ 0 ∧ sampleRecords.length % (8 + 1) ≠ 0 ∧
    (2 ≤ 3 ∧ MatchIds [1] 2 3 [1, 3]) :=
  ⟨sampleRecords_ok.1, sampleRecords_ok.2.1, sampleRecords_ok.2.2.1, by decide, by decide, by decide, 3, by decide, by decide,
    by decide⟩

theorem lexLoopB_16 (tl : Nat) : ∀ (nb : Nat) (input : List (Nat × Ids)) (lex : Nat) (v : List Nat),
    IntDict.lexLoopB 16 tl nb input lex v = IntDict.lexLoop tl nb input lex v
  | 0, _, _, _ => rfl
  | _ + 1, [], _, _ => rfl
  | nb + 1, r :: input, lex, v => by
      simp only [IntDict.lexLoopB, IntDict.lexLoop]
      congr 1
      funext v'
      congr 1
      funext r'
      exact lexLoopB_16 tl nb r'.1 r'.2.1 r'.2.2

/-- The functions of the indexes are those with bucket size 16. -/
theorem C73_default_completions : IntDict.buildB 16 = IntDict.build ∧ IntDict.locateB 16 = IntDict.locate ∧
    IntDict.locatePrefixB 16 = IntDict.locatePrefix ∧ IntDict.extractB 16 = IntDict.extract := by
  refine ⟨?_, rfl, rfl, rfl⟩
  funext univ rs
  simp only [IntDict.buildB, IntDict.build, lexLoopB_16, FC.buildB_16]
  rfl

/-- **C73 is false** for completions: whatever the bucket size `B`, if the number of completions is a multiple of `B + 1`,
looking up any of the last `B` completions executes `__builtin_unreachable()`, and their documents are mapped to no
completion. -/
theorem C73_false_completions {B univ : Nat} {rs : List (Nat × Ids)} (hB : 0 < B) (v : ValidIds (rs.map (·.2)))
    (hu : ∀ r ∈ rs, r.1 < univ) (hd : (rs.map (·.1)).Nodup) (hn : rs.length % (B + 1) = 0) (hne : rs ≠ []) :
    ∃ d m, IntDict.buildB B univ rs = .ok (d, m) ∧ d.size = rs.length ∧
      ∀ i (hi : i < rs.length), rs.length - B ≤ i →
        m[rs[i].1]? = some INVALID_TERM ∧
        ∀ buf, buf.length = IntDict.bufSize → IntDict.locateB B d rs[i].2 buf = .error .unreachable := by
  have hpos : 0 < rs.length := List.length_pos_iff.mpr hne
  obtain ⟨q, hq⟩ : ∃ q, rs.length = (B + 1) * (q + 1) := by
    obtain ⟨q, hq⟩ := Nat.dvd_of_mod_eq_zero hn
    rcases q with _ | q
    · rw [hq] at hpos; simp at hpos
    · exact ⟨q, hq⟩
  have hq' : rs.length - B = (B + 1) * q + 1 := by rw [hq, Nat.mul_succ]; omega
  have hnb : (rs.length + B) / (B + 1) = q + 1 := by
    rw [hq, Nat.mul_add_div (by omega), Nat.div_eq_of_lt (by omega)]
  have htl0 : FC.tailB B rs.length = 0 := by rw [hq]; exact FC.tailB_mul _ _
  obtain ⟨rs', hrs'⟩ : ∃ rs', rs' = rs.take (rs.length - B) := ⟨_, rfl⟩
  have hlen : rs'.length = (B + 1) * q + 1 := by simp [hrs', ← hq']
  have hsub : ∀ r ∈ rs', r ∈ rs := fun r hr => List.mem_of_mem_take (hrs' ▸ hr)
  have v' : ValidIds (rs'.map (·.2)) :=
    ⟨v.sorted.sublist (by rw [hrs']; exact (List.take_sublist _ _).map _),
      fun s hs => by
        obtain ⟨r, hr, rfl⟩ := List.mem_map.mp hs
        exact v.elems _ (List.mem_map_of_mem (hsub r hr)),
      fun s hs => by
        obtain ⟨r, hr, rfl⟩ := List.mem_map.mp hs
        exact v.len _ (List.mem_map_of_mem (hsub r hr)),
      by have := v.count; simp only [List.length_map] at this ⊢; omega⟩
  have hd' : (rs'.map (·.1)).Nodup := hd.sublist (by rw [hrs']; exact (List.take_sublist _ _).map _)
  obtain ⟨d, hb, R⟩ := IntDict.buildB_fc_rep (B := B) v' (by
    rw [List.length_map, hlen, Nat.mul_add_mod, Nat.mod_eq_of_lt (by omega)]; omega)
  obtain ⟨m, e1, e2, e3, e4⟩ := IntDict.lexAll_spec rs' 0 (List.replicate univ INVALID_TERM)
    (fun r hr => by simpa using hu r (hsub r hr)) hd'
  have hloop : IntDict.lexLoopB B (FC.tailB B rs.length) ((rs.length + B) / (B + 1)) rs 0
      (List.replicate univ INVALID_TERM) = .ok m := by
    rw [htl0, hnb, IntDict.lexLoopB_eq _ _ _ _ _ (by intro _; rw [Nat.add_sub_cancel]; omega), if_neg (by omega),
      Nat.add_sub_cancel, Nat.add_zero, ← hq', ← hrs', e1]
  refine ⟨{ d with size := rs.length }, m, ?_, rfl, ?_⟩
  · simp only [IntDict.buildB, hloop, M.ok_bind]
    rw [FC.buildB_mod hB (by simpa using hn) (by simpa using hne)]
    have : (rs.map (·.2)).take ((rs.map (·.2)).length - B) = rs'.map (·.2) := by
      rw [hrs', List.length_map, List.map_take]
    rw [this, hb]
    simp [Except.map]
  · intro i hi hle
    constructor
    · rw [e4 rs[i].1 ?_]
      · simp [hu _ (List.getElem_mem hi)]
      · intro hm
        obtain ⟨r, hr, hri⟩ := List.mem_map.mp hm
        obtain ⟨j, hj, rfl⟩ := List.getElem_of_mem hr
        subst hrs'
        rw [List.getElem_take] at hri
        have hj' : j < rs.length := by omega
        exact List.pairwise_iff_getElem.mp hd j i (by simpa using hj') (by simpa using hi) (by omega)
          (by simpa using hri)
    · intro buf hbuf
      have hlt : ∀ s ∈ rs'.map (·.2), s < rs[i].2 := by
        intro s hs
        obtain ⟨r, hr, rfl⟩ := List.mem_map.mp hs
        obtain ⟨j, hj, rfl⟩ := List.getElem_of_mem hr
        subst hrs'
        rw [List.getElem_take]
        have := FC.sorted_lt v.sorted (i := j) (j := i) (by omega) (by simpa using hi)
        simpa using this
      obtain ⟨found, b, hb', f1, f2, f3⟩ := FC.locateBucketB_spec R v'.sorted (IntDict.cmpOk rs[i].2 (rs'.map (·.2)))
      have hfalse : found = false := by
        cases found with
        | false => rfl
        | true =>
            have := hlt _ (List.getElem_mem hb')
            rw [f2 rfl] at this
            exact absurd this (FC.lt_irrefl' _)
      subst hfalse
      obtain ⟨f4, f5⟩ := f3 rfl
      have hlast : (((rs'.map (·.2)).drop ((B + 1) * b + 1)).take B) = [] := by
        have hx : ¬ (B + 1) * (b + 1) < (rs'.map (·.2)).length := by
          intro h
          exact FC.lt_asymm' (f5 (b + 1) h (by omega)) (hlt _ (List.getElem_mem h))
        rw [List.drop_eq_nil_of_le]
        · exact List.take_nil
        · simp only [List.length_map, hlen] at hx hb' ⊢
          have hbq : b ≤ q := by
            apply Nat.le_of_not_lt
            intro hc
            have := FC.mulB_lt (B := B) hc
            omega
          have hqb : q ≤ b := by
            apply Nat.le_of_not_lt
            intro hc
            have := FC.mulB_le (B := B) (show b + 1 ≤ q by omega)
            omega
          rw [Nat.le_antisymm hbq hqb]
          omega
      have hh : FC.tailB B rs.length = FC.tailB B d.size := by
        rw [R.size, List.length_map, hlen, htl0, FC.tailB_mul_one hB]
      obtain ⟨buf', g1, g2⟩ := R.scan (fun i' s =>
        let cmp := idsCompare rs[i].2 s
        if cmp = 0 then some i' else if cmp < 0 then some INVALID_TERM else none) b hb' buf (by rw [hbuf]; decide)
      rw [hlast] at g1
      simp only [IntDict.locateB, FC.locateBucket_size, f1, M.ok_bind, Bool.false_eq_true, if_false, IntDict.locateInB,
        FC.scanB_size hh, g1, FC.firstSome, M.error_bind]

example : 0 < 4 ∧ ValidIds (sampleRecords.map (·.2)) ∧ (∀ r ∈ sampleRecords, r.1 < 22) ∧
    (sampleRecords.map (·.1)).Nodup ∧ sampleRecords.length % (4 + 1) = 0 ∧ sampleRecords ≠ [] :=
  ⟨by decide, sampleRecords_ok.1, sampleRecords_ok.2.1, sampleRecords_ok.2.2.1, by decide, by decide⟩

end AC.Props
