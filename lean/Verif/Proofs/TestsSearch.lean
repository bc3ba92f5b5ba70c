import Verif.Model.TestsSearch
import Verif.Spec.TestsSearch
import Verif.Proofs.TestsCommon
import Verif.Proofs.TextPrefix
import Verif.Proofs.Benchmarks
import Verif.Props.Trie
/-!
# The tests of the searches
-/
namespace AC
open Spec Props

namespace Tests

theorem afterFirstSpace_eq {n t : Str} (h : space ∉ n) : afterFirstSpace (n ++ space :: t) = t := by
  have : (n ++ space :: t).dropWhile (· != 32) = space :: t := by
    induction n with
    | nil => rfl
    | cons c n ih =>
        rw [List.cons_append, List.dropWhile_cons_of_pos, ih (fun hm => h (List.mem_cons_of_mem _ hm))]
        simp only [bne_iff_ne, ne_eq]
        rintro rfl
        exact h (List.mem_cons_self ..)
  unfold afterFirstSpace
  rw [this]

theorem loadStrings_eq {text : Str} {ls : List Str} (h : Lines text ls) : ∀ n, loadStrings n (.ofText text) = (ls.take n).map afterFirstSpace := by
  induction h with
  | none => intro n; cases n <;> rfl
  | @last l h1 h2 =>
      intro n
      cases n with
      | zero => rfl
      | succ n =>
          rw [loadStrings, getLine_last h1 h2]
          cases n <;> rfl
  | @next l s ls h1 _ ih =>
      intro n
      cases n with
      | zero => rfl
      | succ n =>
          rw [loadStrings, getLine_next h1]
          dsimp only
          rw [ih n]
          rfl

/-! ## One query -/

theorem lookup_one {C : Coll} {F : Files} (h : Ready C F) {d : FC} (R : FC.Rep Elem.byte MAX_CHARS d F.terms) {q : Str} (hq0 : LooksUp C q) {buf : Str}
    (hb : buf.length = FcDict.bufSize) : ∃ ok pfx suffix buf1 r buf2, parse d q true buf = .ok (ok, pfx, suffix, buf1) ∧
      FcDict.locatePrefix d suffix buf1 = .ok (r, buf2) ∧ buf2.length = FcDict.bufSize ∧ LookupOf C F q (pfx, r) := by
  have v := h.validTerms
  obtain ⟨ok, pfx, suffix, buf1, p1, p2, p3, p4⟩ := parse_spec v (Locates.of_rep v R (n := FcDict.bufSize) (by decide)) true hq0.text buf hb
  have hall : ∀ t ∈ completeTerms q, t ∈ F.terms := fun t ht => (h.isTerm t).mp (hq0.known t ht)
  obtain ⟨q1, q2⟩ := p4 (p3.mpr (fun _ => hall))
  rw [List.filter_eq_self.mpr (by simpa using hall)] at q1
  have ht : IsText (lastTerm q) := fun c hc => hq0.text c (lastTerm_subset q hc)
  obtain ⟨r, buf2, l1, l2, l3⟩ := FcDict.locatePrefix_exact v R ht buf1 (by rw [p2, hb]; decide)
  refine ⟨ok, pfx, suffix, buf1, r, buf2, p1, by rw [q2]; exact l1, by omega, q1, ?_⟩
  rcases l3 with ⟨e1, e2⟩ | ⟨e1, e2, e3⟩
  · exfalso
    obtain ⟨x, hx, hr⟩ := hq0.some
    obtain ⟨i, hi, rfl⟩ := List.getElem_of_mem ((h.isTerm x).mp hx)
    obtain ⟨r1, r2⟩ := (h.reaches hi).mp hr
    exact r2 (e2 i hi r1)
  · exact ⟨e1, e2, fun i hi => by rw [e3 i hi, h.reaches hi]⟩

/-- the trie gives the range of the completions that the dictionary finds -/
theorem trie_range {C : Coll} {F : Files} (h : Ready C F) {T : List Trie.CLevel} (ht : ∀ (pfx : Ids) (b e : Nat), (∀ x ∈ pfx, 0 < x ∧ x < 2 ^ 32) → 0 < b → b ≤ e →
      e < 2 ^ 32 → ∃ r, Trie.locatePrefix T pfx ⟨b, e⟩ = .ok r ∧ CompletionRange (F.mapped.map (·.2)) pfx b e r) {q : Str} (hq : LooksUp C q) {l : Ids × Range}
    (hl : LookupOf C F q l) : ∃ got, Bench.locTrie T l.1 ⟨l.2.b + 1, l.2.e + 1⟩ () = .ok (got, l.1, ()) ∧
      RangeOf C (PrefixFound C (completeTerms q) (lastTerm q)) (got = Range.invalid) got.b got.e := by
  have hall : ∀ t ∈ completeTerms q, t ∈ F.terms := fun t ht => (h.isTerm t).mp (hq.known t ht)
  have hle := hl.range.le
  have hlt := hl.range.lt
  have hsz : F.terms.length < 2 ^ 30 := by have := h.termCount_le; have := h.coll.size; omega
  have hlen : (F.mapped.map (·.2)).length = C.length := by rw [List.length_map, h.length_mapped]
  obtain ⟨r, r1, r2⟩ := ht l.1 (l.2.b + 1) (l.2.e + 1) (by rw [hl.pfx]; exact h.pfx_small hall) (by omega) (by omega) (by omega)
  refine ⟨r, by rw [Bench.locTrie, r1]; rfl, ?_⟩
  rw [hl.pfx] at r2
  rcases r2 with ⟨e1, e2⟩ | ⟨e1, e2, e3⟩
  · refine .inl ⟨e1, ?_⟩
    intro r' hr' hp
    refine e2 (r'.2.map (rankOf F.terms)) ?_ ((h.match_iff hall hl.range (h.mem hr')).mpr hp)
    rw [h.snd_mapped]
    exact List.mem_map.mpr ⟨r', hr', rfl⟩
  · refine .inr ⟨e1, by omega, ?_⟩
    intro i hi
    rw [e3 i (by omega), h.getElem_snd hi]
    exact h.match_iff hall hl.range (h.mem (List.getElem_mem hi))

theorem fc_range {C : Coll} {F : Files} (h : Ready C F) {m : Nat} (hm : m + MAX_TERMS ≤ IntDict.bufSize) {D : FC} (R : FC.Rep Elem.u32 m D (F.mapped.map (·.2)))
    {q : Str} (hq : LooksUp C q) {l : Ids × Range} (hl : LookupOf C F q l) {cbuf : Ids} (hb : cbuf.length = IntDict.bufSize) :
    ∃ got pfx cbuf', IntDict.locatePrefix D l.1 ⟨l.2.b + 1, l.2.e + 1⟩ cbuf = .ok (got, pfx, cbuf') ∧ cbuf'.length = IntDict.bufSize ∧
      RangeOf C (PrefixFound2 C (completeTerms q) (lastTerm q)) (got = Range.invalid) got.b got.e := by
  have hall : ∀ t ∈ completeTerms q, t ∈ F.terms := fun t ht => (h.isTerm t).mp (hq.known t ht)
  have hle := hl.range.le
  have hlt := hl.range.lt
  have hsz : F.terms.length < 2 ^ 30 := by have := h.termCount_le; have := h.coll.size; omega
  have hlen : (F.mapped.map (·.2)).length = C.length := by rw [List.length_map, h.length_mapped]
  obtain ⟨r, pfx', cbuf', l1, l0, l2⟩ := IntDict.locatePrefix_exact h.validIds R (pfx := l.1) (show l.2.b + 1 ≤ l.2.e + 1 by omega) (by omega) cbuf (by rw [hb]; exact hm)
  refine ⟨r, pfx', cbuf', l1, by omega, ?_⟩
  have hcond := h.prefix2_iff hall hl.range
  rw [hl.pfx] at l2
  rcases l2 with ⟨e1, e2, e3⟩ | ⟨e1, e2, e3, e4⟩
  · refine .inl ⟨e1, ?_⟩
    intro r' hr' hp
    obtain ⟨i, hi, rfl⟩ := List.getElem_of_mem hr'
    obtain ⟨c1, c2⟩ := (hcond i hi).mpr hp
    have := e3 i (by rw [hlen]; exact hi)
    rw [h.getElem_snd hi] at this
    exact c2 (this c1)
  · refine .inr ⟨e1, by omega, ?_⟩
    intro i hi
    rw [e4 i (by rw [hlen]; exact hi), h.getElem_snd hi]
    exact hcond i hi

/-! ## The loop -/

theorem joined_isText : ∀ {c : List Str}, (∀ t ∈ c, IsText t) → IsText (joined c)
  | [], _ => by intro x hx; simp [joined] at hx
  | [t], h => h t (by simp)
  | t :: t' :: ts, h => by
      intro x hx
      rw [joined] at hx
      rcases List.mem_append.mp hx with hx | hx
      · exact h t (by simp) x hx
      · rcases List.mem_cons.mp hx with rfl | hx
        · decide
        · exact joined_isText (fun t ht => h t (List.mem_cons_of_mem _ ht)) x hx

theorem strings_ok {C : Coll} (hC : ValidColl C) (ha : ∀ r ∈ C, ∀ t ∈ r.2, AfterSpace t) : StrictSorted (C.map (fun r => joined r.2)) ∧
    ∀ s ∈ C.map (fun r => joined r.2), IsText s := by
  constructor
  · have hs := hC.sorted
    unfold StrictSorted
    rw [List.pairwise_map] at hs ⊢
    exact hs.imp_of_mem fun {a b} hm hm' h => joined_lt (hC.nonempty a hm) (ha b hm') h
  · intro s hs
    obtain ⟨r, hr, rfl⟩ := List.mem_map.mp hs
    exact joined_isText fun t ht => (hC.words r hr t ht).2.1

theorem range_agree {C : Coll} (hn : C.length < 2 ^ 64 - 1) {P : List Str → Prop} {got : Range} (hg : RangeOf C P (got = Range.invalid) got.b got.e) {q : Str} {expected : Range}
    (h1 : expected.b ≤ expected.e) (h2 : expected.e ≤ C.length) (h3 : ∀ i (hi : i < C.length), (expected.b ≤ i ∧ i < expected.e) ↔ q <+: joined C[i].2) :
    (got.b = expected.b ∧ got.e = expected.e) ↔ Agree C P q := by
  rcases hg with ⟨e1, e2⟩ | ⟨e1, e2, e3⟩
  · constructor
    · rintro ⟨_, h⟩
      rw [e1] at h
      simp only [Range.invalid, NOT_FOUND] at h
      omega
    · rintro ⟨⟨r, hr, hp⟩, _⟩
      exact absurd hp (e2 r hr)
  · constructor
    · rintro ⟨hb, he⟩
      refine ⟨⟨C[got.b], List.getElem_mem (by omega), (e3 got.b (by omega)).mp ⟨by omega, e1⟩⟩, ?_⟩
      intro r hr
      obtain ⟨i, hi, rfl⟩ := List.getElem_of_mem hr
      rw [← h3 i hi, ← e3 i hi, hb, he]
    · rintro ⟨_, h⟩
      have key : ∀ i, i < C.length → ((expected.b ≤ i ∧ i < expected.e) ↔ (got.b ≤ i ∧ i < got.e)) := fun i hi => by
        rw [h3 i hi, e3 i hi]
        exact h _ (List.getElem_mem hi)
      have k1 := key got.b (by omega)
      have k2 := key (got.e - 1) (by omega)
      by_cases hx : expected.b < expected.e
      · have k3 := key expected.b (by omega)
        have k4 := key (expected.e - 1) (by omega)
        omega
      · omega

theorem locateOk_spec {C : Coll} {F : Files} (h : Ready C F) (hC : ValidColl C) (ha : ∀ r ∈ C, ∀ t ∈ r.2, AfterSpace t) {d : FC}
    (R : FC.Rep Elem.byte MAX_CHARS d F.terms) {σ : Type} {loc : Ids → Range → σ → M (Range × Ids × σ)} {Inv : σ → Prop} {P : Str → List Str → Prop}
    (hloc : ∀ q l s, LooksUp C q → LookupOf C F q l → Inv s → ∃ got pfx s', loc l.1 ⟨l.2.b + 1, l.2.e + 1⟩ s = .ok (got, pfx, s') ∧ Inv s' ∧
      RangeOf C (P q) (got = Range.invalid) got.b got.e) :
    ∀ (qs : List Str) (_ : ∀ q ∈ qs, LooksUp C q) (buf : Str) (_ : buf.length = FcDict.bufSize) (s : σ) (_ : Inv s),
      ∃ r buf' s', locateOk d loc (C.map (fun r => joined r.2)) qs buf s = .ok (r, buf', s') ∧ buf'.length = FcDict.bufSize ∧ Inv s' ∧
        (r = true ↔ ∀ q ∈ qs, Agree C (P q) q)
  | [], _, buf, hb, s, hs => ⟨true, buf, s, rfl, hb, hs, by simp⟩
  | q :: qs, hq, buf, hb, s, hs => by
      have hq0 := hq q (by simp)
      obtain ⟨o1, o2⟩ := strings_ok hC ha
      obtain ⟨x, x1, x2, x3, x4⟩ := locatePrefix_spec o1 o2 hq0.text
      obtain ⟨ok, pfx, suffix, buf1, r, buf2, p1, p2, p3, p4⟩ := lookup_one h R hq0 hb
      obtain ⟨got, pfx', s', g1, g2, g3⟩ := hloc q (pfx, r) s hq0 p4 hs
      obtain ⟨r', buf', s'', i1, i2, i3, i4⟩ := locateOk_spec h hC ha R hloc qs (fun q hm => hq q (List.mem_cons_of_mem _ hm)) buf2 p3 s' g2
      have hlt := p4.range.lt
      have hle := p4.range.le
      dsimp only at hlt hle
      have hsz : F.terms.length < 2 ^ 30 := by have := h.termCount_le; have := h.coll.size; omega
      have hcl : C.length < 2 ^ 30 := by have := h.count_le; have := h.coll.size; omega
      refine ⟨decide (got.b = x.b ∧ got.e = x.e) && r', buf', s'', ?_, i2, i3, ?_⟩
      · rw [locateOk, x1, M.ok_bind, p1, M.ok_bind]
        dsimp only
        rw [p2, M.ok_bind]
        dsimp only
        rw [Nat.mod_eq_of_lt (by omega), Nat.mod_eq_of_lt (by omega), g1, M.ok_bind]
        dsimp only
        rw [i1, M.ok_bind]
      · rw [Bool.and_eq_true, decide_eq_true_iff, i4, List.forall_mem_cons,
          range_agree (by omega) g3 x2 (by rw [List.length_map] at x3; exact x3)
            (fun i hi => by rw [x4 i (by rw [List.length_map]; exact hi), List.getElem_map])]

/-! ## The whole test -/

theorem locateRounds_spec {C : Coll} {F : Files} (h : Ready C F) (hC : ValidColl C) (ha : ∀ r ∈ C, ∀ t ∈ r.2, AfterSpace t) {d : FC}
    (R : FC.Rep Elem.byte MAX_CHARS d F.terms) {T : List Trie.CLevel} (ht : ∀ (pfx : Ids) (b e : Nat), (∀ x ∈ pfx, 0 < x ∧ x < 2 ^ 32) → 0 < b → b ≤ e →
      e < 2 ^ 32 → ∃ r, Trie.locatePrefix T pfx ⟨b, e⟩ = .ok r ∧ CompletionRange (F.mapped.map (·.2)) pfx b e r) {m : Nat} (hm : m + MAX_TERMS ≤ IntDict.bufSize)
    {D : FC} (RD : FC.Rep Elem.u32 m D (F.mapped.map (·.2))) {text : Nat → Str} {Q : Nat → Nat → List Str} {files : Nat → Option Str} :
    ∀ (rs : List (Nat × Nat)) (_ : ∀ pn ∈ rs, files pn.2 = some (text pn.2)) (_ : ∀ pn ∈ rs, Bench.loadQueries pn.1 5000 (.ofText (text pn.2)) = .ok (Q pn.1 pn.2) ∧ ∀ q ∈ Q pn.1 pn.2, LooksUp C q)
      (buf : Str) (_ : buf.length = FcDict.bufSize) (cbuf : Ids) (_ : cbuf.length = IntDict.bufSize),
      ∃ r, locateRounds d T D (C.map (fun r => joined r.2)) files rs buf cbuf = .ok r ∧
        (r = true ↔ ∀ pn ∈ rs, ∀ q ∈ Q pn.1 pn.2, Passes C q)
  | [], _, _, _, _, _, _ => ⟨true, rfl, by simp⟩
  | (p, n) :: rs, hf, hq, buf, hb, cbuf, hcb => by
      obtain ⟨q1, q2⟩ := hq (p, n) (by simp)
      obtain ⟨r1, buf1, s1, a1, a2, _, a4⟩ := locateOk_spec h hC ha R (loc := Bench.locTrie T) (Inv := fun _ => True)
        (P := fun q => PrefixFound C (completeTerms q) (lastTerm q))
        (fun q l s hq hl _ => by
          obtain ⟨got, g1, g2⟩ := trie_range h ht hq hl
          exact ⟨got, _, _, g1, trivial, g2⟩) _ q2 buf hb () trivial
      obtain ⟨r2, buf2, s2, b1, b2, b3, b4⟩ := locateOk_spec h hC ha R (loc := IntDict.locatePrefix D) (Inv := fun s => s.length = IntDict.bufSize)
        (P := fun q => PrefixFound2 C (completeTerms q) (lastTerm q))
        (fun q l s hq hl hs => fc_range h hm RD hq hl hs) _ q2 buf1 a2 cbuf hcb
      obtain ⟨r3, c1, c2⟩ := locateRounds_spec h hC ha R ht hm RD rs (fun pn hm => hf pn (List.mem_cons_of_mem _ hm)) (fun pn hm => hq pn (List.mem_cons_of_mem _ hm)) buf2 b2 s2 b3
      refine ⟨r1 && r2 && r3, ?_, ?_⟩
      · rw [locateRounds, show files n = some (text n) from hf (p, n) (by simp)]
        dsimp only
        dsimp only at q1
        rw [q1, M.ok_bind, a1, M.ok_bind]
        dsimp only
        rw [b1, M.ok_bind]
        dsimp only
        rw [c1, M.ok_bind]
      · rw [Bool.and_eq_true, Bool.and_eq_true, a4, b4, c2, List.forall_mem_cons]
        constructor
        · rintro ⟨⟨x, y⟩, z⟩
          exact ⟨fun q hq => ⟨x q hq, y q hq⟩, z⟩
        · rintro ⟨x, z⟩
          exact ⟨⟨fun q hq => (x q hq).1, fun q hq => (x q hq).2⟩, z⟩

/-- the test ends at the first file that cannot be opened -/
theorem locateRounds_stop {d : FC} {T : List Trie.CLevel} {D : FC} {strings : List Str} {files : Nat → Option Str} {p n : Nat} (hn : files n = none)
    (rs' : List (Nat × Nat)) : ∀ (rs : List (Nat × Nat)) (buf : Str) (cbuf : Ids),
      locateRounds d T D strings files (rs ++ (p, n) :: rs') buf cbuf = locateRounds d T D strings files rs buf cbuf
  | [], buf, cbuf => by
      conv => lhs; rw [List.nil_append, locateRounds, hn]
      rfl
  | (p', n') :: rs, buf, cbuf => by
      rw [List.cons_append, locateRounds, locateRounds]
      simp only [locateRounds_stop hn rs' rs]

theorem strings_of {text : Str} {ls : List Str} (h : Lines text ls) {C : Coll} (hc : All2 LineOf ls C) :
    loadStrings C.length (.ofText text) = C.map (fun r => joined r.2) := by
  rw [loadStrings_eq h, ← hc.length, List.take_length]
  clear h
  induction hc with
  | nil => rfl
  | @cons l r ls C hl _ ih =>
      obtain ⟨n, h1, h2⟩ := hl
      rw [List.map_cons, List.map_cons, ih, h2, afterFirstSpace_eq h1]

/-- what the test builds -/
theorem searches_built {C : Coll} (hC : ValidColl C) (h17 : (Pre.run C).terms.length % 17 ≠ 0) (hc17 : C.length % 17 ≠ 0) (coll : Str) (files : Nat → Option Str) :
    ∃ d T D, FC.Rep Elem.byte MAX_CHARS d (Pre.run C).terms ∧ (∀ (pfx : Ids) (b e : Nat), (∀ x ∈ pfx, 0 < x ∧ x < 2 ^ 32) → 0 < b → b ≤ e →
      e < 2 ^ 32 → ∃ r, Trie.locatePrefix T pfx ⟨b, e⟩ = .ok r ∧ CompletionRange ((Pre.run C).mapped.map (·.2)) pfx b e r) ∧
      FC.Rep Elem.u32 MAX_TERMS D ((Pre.run C).mapped.map (·.2)) ∧
      searches (Pre.run C) coll files = locateRounds d T D (loadStrings C.length (.ofText coll)) files rounds (List.replicate FcDict.bufSize 0) (List.replicate IntDict.bufSize 0) := by
  have h := hC.ready
  obtain ⟨d, d1, R⟩ := h.dict_build h17
  obtain ⟨T, t1, t2, _⟩ := Props.C13_trie ((Pre.run C).mapped.map (·.2)) h.validIds h.nonempty_mapped (Pre.run C).levels
    (by
      obtain ⟨r, hr, he⟩ := h.files.levels
      rw [h.snd_mapped]
      exact ⟨_, List.mem_map.mpr ⟨r, hr, rfl⟩, by simpa using he⟩)
    (by
      rw [h.snd_mapped]
      intro c hc
      obtain ⟨r, hr, rfl⟩ := List.mem_map.mp hc
      simpa using h.files.lt_levels r hr)
  have hu : ∀ r ∈ (Pre.run C).mapped, r.1 < (Pre.run C).univ := by
    intro r hr
    have : r.1 ∈ (Pre.run C).mapped.map (·.1) := List.mem_map.mpr ⟨r, hr, rfl⟩
    rw [h.fst_mapped] at this
    obtain ⟨r', hr', he⟩ := List.mem_map.mp this
    rw [← he]; exact h.files.lt_univ r' hr'
  obtain ⟨D, m, i1, i2, _⟩ := IntDict.build_spec h.validIds hu (by rw [h.fst_mapped]; exact hC.docs) (by rw [h.length_mapped]; exact hc17)
  refine ⟨d, T, D, R, t2, i2, ?_⟩
  unfold searches
  rw [d1, M.ok_bind]
  dsimp only
  rw [t1, M.ok_bind, i1, M.ok_bind]
  dsimp only
  rw [h.length_mapped]

theorem searches_missing {C : Coll} (hC : ValidColl C) (h17 : (Pre.run C).terms.length % 17 ≠ 0) (hc17 : C.length % 17 ≠ 0) (coll : Str) {files : Nat → Option Str}
    (hf : files 1 = none) : searches (Pre.run C) coll files = .ok true := by
  obtain ⟨d, T, D, _, _, _, e⟩ := searches_built hC h17 hc17 coll files
  rw [e, show rounds = (0, 1) :: rounds.tail from rfl, locateRounds, hf]

theorem searches_spec {C : Coll} (hC : ValidColl C) (ha : ∀ r ∈ C, ∀ t ∈ r.2, AfterSpace t) (h17 : (Pre.run C).terms.length % 17 ≠ 0)
    (hc17 : C.length % 17 ≠ 0) {coll : Str} {cl : List Str} (hl : Lines coll cl) (hcl : All2 LineOf cl C) {text : Nat → Str} {Q : Nat → Nat → List Str}
    (hq : ∀ pn ∈ rounds, Bench.loadQueries pn.1 5000 (.ofText (text pn.2)) = .ok (Q pn.1 pn.2) ∧ ∀ q ∈ Q pn.1 pn.2, LooksUp C q) :
    ∃ r, searches (Pre.run C) coll (fun n => some (text n)) = .ok r ∧ (r = true ↔ ∀ pn ∈ rounds, ∀ q ∈ Q pn.1 pn.2, Passes C q) := by
  obtain ⟨d, T, D, R, t2, i2, e⟩ := searches_built hC h17 hc17 coll (fun n => some (text n))
  obtain ⟨r, r1, r2⟩ := locateRounds_spec hC.ready hC ha R t2 (by decide) i2 (text := text) (files := fun n => some (text n)) rounds (fun _ _ => rfl) hq (List.replicate FcDict.bufSize 0) List.length_replicate
    (List.replicate IntDict.bufSize 0) List.length_replicate
  exact ⟨r, by rw [e, strings_of hl hcl]; exact r1, r2⟩

/-! ## The test of the searches -/

section
variable {run : StdLib → Ask → Scratch → M Scratch} {std : StdLib} (h : Steady run std) (conj : Bool) {k : Nat} (hk : 1 ≤ k ∧ k ≤ 15)
include h hk

theorem topkLoop_spec (qs : List Str) (hq : ∀ q ∈ qs, IsText q) {s : Scratch} (hs : Visited run s) :
    (topkLoop (fun q s => run std ⟨conj, q, k⟩ s) qs s = .error .oob ∧ ∃ q ∈ qs, run std ⟨conj, q, k⟩ Scratch.fresh = .error .oob) ∨
    ∃ s' A, topkLoop (fun q s => run std ⟨conj, q, k⟩ s) qs s = .ok (A, s') ∧ Visited run s' ∧
      All2 (fun q res => Returns run std ⟨conj, q, k⟩ res) qs A := by
  induction qs generalizing s with
  | nil => exact .inr ⟨s, [], rfl, hs, .nil⟩
  | cons q qs ih =>
      have ha : Ask.Ok ⟨conj, q, k⟩ := ⟨hq q (by simp), hk⟩
      rw [topkLoop]
      rcases h ⟨conj, q, k⟩ ha s hs with ⟨x, y⟩ | ⟨t, t', res, x, y, r, r'⟩
      · rw [x, M.error_bind]
        exact .inl ⟨rfl, q, by simp, y⟩
      · rw [x, M.ok_bind, r, M.ok_bind]
        rcases ih (fun q hm => hq q (List.mem_cons_of_mem _ hm)) (hs.step ha x) with ⟨e, q', hq', f⟩ | ⟨s', A, e, v, a⟩
        · rw [e, M.error_bind]
          exact .inl ⟨rfl, q', List.mem_cons_of_mem _ hq', f⟩
        · rw [e, M.ok_bind]
          exact .inr ⟨s', res :: A, rfl, v, .cons ⟨t', y, r'⟩ a⟩

end

end Tests

end AC
