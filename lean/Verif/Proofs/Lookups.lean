import Verif.Proofs.Benchmarks
import Verif.Props.Trie
/-!
# What the benchmark of `locate_prefix` looks up for any query
-/
namespace AC
open Spec Props

theorem parseLoop_stop {L : List Str} (v : ValidTerms L) {n : Nat} {d : FC} (R : Locates d L n) :
    ∀ (fuel : Nat) (r : Str) (pfx : Ids) (buf : Str), IsText r → buf.length = n → r.length < fuel →
      ∃ ok done last buf', parseLoop d true fuel r pfx buf = .ok (ok, pfx ++ done.map (rankOf L), last, buf') ∧ buf'.length = buf.length ∧ IsText last ∧
        (∀ t ∈ done, t ∈ L) ∧ ((done = completeTerms r ∧ last = lastTerm r) ∨ ∃ rest, completeTerms r = done ++ last :: rest ∧ last ∉ L) := by
  intro fuel
  induction fuel with
  | zero => intro r pfx buf _ _ h; omega
  | succ fuel ih =>
      intro r pfx buf hr hb hf
      obtain ⟨s1, s2, n1, n2⟩ := nextToken_spec r
      unfold parseLoop
      rcases hn : nextToken r with ⟨tok, rest⟩
      rw [hn] at s1 s2 n1 n2
      simp only at s1 s2 n1 n2
      have htok : IsText tok := fun c hc => hr c (s1 hc)
      cases rest with
      | nil =>
          obtain ⟨e1, e2⟩ := n1 rfl
          exact ⟨true, [], tok, buf, by simp, rfl, htok, by simp, .inl ⟨e1.symm, e2.symm⟩⟩
      | cons c rest =>
          obtain ⟨e1, e2, e3⟩ := n2 (by simp)
          have hrest : IsText (c :: rest) := fun c hc => hr c (s2 hc)
          obtain ⟨buf1, l1, l2⟩ := R tok htok buf hb
          simp only [l1, M.ok_bind]
          by_cases hm : tok ∈ L
          · simp only [if_pos hm]
            rw [if_pos (rankOf_ne v hm)]
            obtain ⟨ok, done, last, buf', p1, p2, p3, p4, p5⟩ := ih (c :: rest) (pfx ++ [rankOf L tok]) buf1 hrest (by omega) (by omega)
            refine ⟨ok, tok :: done, last, buf', by rw [p1]; simp, by omega, p3, ?_, ?_⟩
            · intro t ht
              rcases List.mem_cons.mp ht with rfl | ht
              · exact hm
              · exact p4 t ht
            · rcases p5 with ⟨q1, q2⟩ | ⟨rest', q1, q2⟩
              · exact .inl ⟨by rw [q1, e1], by rw [q2, e2]⟩
              · exact .inr ⟨rest', by rw [e1, q1]; rfl, q2⟩
          · simp only [if_neg hm]
            rw [if_neg (by simp)]
            exact ⟨false, [], tok, buf1, by simp, l2, htok, by simp, .inr ⟨completeTerms (c :: rest), by rw [e1]; rfl, hm⟩⟩

/-- one lookup, for any query -/
structure LookupAll (C : Coll) (F : Files) (q : Str) (l : Ids × Range) (done : List Str) (last : Str) : Prop where
  stops : StopsAt C q done last
  pfx : l.1 = done.map (rankOf F.terms)
  range : (l.2 = Range.invalid ∧ ∀ x, IsTerm C x → ¬ Reaches C last x) ∨ LastRange C F last l.2.b l.2.e

theorem Bench.lookupsOf_all {C : Coll} {F : Files} (h : Ready C F) {d : FC} (R : FC.Rep Elem.byte MAX_CHARS d F.terms) :
    ∀ (qs : List Str) (_ : ∀ q ∈ qs, IsText q) (buf : Str) (_ : buf.length = FcDict.bufSize),
      ∃ ls, Bench.lookupsOf d qs buf = .ok ls ∧ All2 (fun q l => ∃ done last, LookupAll C F q l done last) qs ls
  | [], _, _, _ => ⟨[], rfl, .nil⟩
  | q :: qs, hq, buf, hb => by
      have v := h.validTerms
      obtain ⟨ok, done, last, buf1, p1, p2, p3, p4, p5⟩ := parseLoop_stop v (Locates.of_rep v R (n := FcDict.bufSize) (by decide)) (q.length + 1) q [] buf
        (hq q (by simp)) hb (by omega)
      obtain ⟨r, buf2, l1, l2, l3⟩ := FcDict.locatePrefix_exact v R p3 buf1 (by rw [p2, hb]; decide)
      obtain ⟨ls, f1, f2⟩ := lookupsOf_all h R qs (fun q hm => hq q (List.mem_cons_of_mem _ hm)) buf2 (by omega)
      refine ⟨(done.map (rankOf F.terms), r) :: ls, ?_, .cons ⟨done, last, ⟨fun t ht => (h.isTerm t).mpr (p4 t ht), ?_⟩, rfl, ?_⟩ f2⟩
      · rw [Bench.lookupsOf, parse, p1, M.ok_bind]
        dsimp only
        rw [l1, M.ok_bind]
        dsimp only
        rw [f1, M.ok_bind, List.nil_append]
      · rcases p5 with h1 | ⟨rest, h1, h2⟩
        · exact .inl h1
        · exact .inr ⟨rest, h1, fun hc => h2 ((h.isTerm _).mp hc)⟩
      · rcases l3 with ⟨e1, e2⟩ | ⟨e1, e2, e3⟩
        · refine .inl ⟨e1, fun x hx hr => ?_⟩
          obtain ⟨i, hi, rfl⟩ := List.getElem_of_mem ((h.isTerm x).mp hx)
          obtain ⟨r1, r2⟩ := (h.reaches hi).mp hr
          exact r2 (e2 i hi r1)
        · exact .inr ⟨e1, e2, fun i hi => by rw [e3 i hi, h.reaches hi]⟩

/-- matching with the numbers one less, where the first may be the terminator -/
theorem Ready.match_shifted {C : Coll} {F : Files} (h : Ready C F) {done : List Str} (hc : ∀ t ∈ done, t ∈ F.terms) {last : Str} {b e : Nat}
    (hr : LastRange C F last b e) {c : List Str} (hcc : ∀ t ∈ c, t ∈ F.terms) :
    MatchIds (done.map (rankOf F.terms)) b e (c.map (rankOf F.terms) ++ [0]) ↔ Shifted C done last c := by
  have key : MatchIds (done.map (rankOf F.terms)) b e (c.map (rankOf F.terms) ++ [0]) ↔
      MatchIds (done.map (rankOf F.terms)) b e (c.map (rankOf F.terms)) ∨ (b = 0 ∧ c = done) := by
    constructor
    · rintro ⟨x, h1, h2, h3⟩
      rcases List.prefix_concat_iff.mp h3 with h4 | h4
      · obtain ⟨h5, h6⟩ := List.append_inj' h4 rfl
        have : x = 0 := by simpa using h6
        exact .inr ⟨by omega, (map_rankOf_inj hc hcc h5).symm⟩
      · exact .inl ⟨x, h1, h2, h4⟩
    · rintro (⟨x, h1, h2, h3⟩ | ⟨rfl, rfl⟩)
      · exact ⟨x, h1, h2, h3.trans (List.prefix_append _ _)⟩
      · exact ⟨0, Nat.le_refl _, Nat.zero_le _, List.prefix_refl _⟩
  rw [key, h.match_before hc hr hcc]
  unfold Shifted
  have hlt := hr.lt
  have hle := hr.le
  refine or_congr Iff.rfl (and_congr_left fun _ => ⟨?_, ?_⟩)
  · rintro rfl
    exact ⟨F.terms[0], (h.isFirst (by omega)).mpr rfl, (hr.iff 0 (by omega)).mp ⟨by omega, by omega⟩⟩
  · rintro ⟨x, h1, h2⟩
    obtain ⟨i, hi, rfl⟩ := List.getElem_of_mem ((h.isTerm x).mp h1.1)
    have := (h.isFirst hi).mp h1
    subst this
    have := (hr.iff 0 hi).mpr h2
    omega

/-! ## The type `fc` -/

/-- what the dictionary of completions finds with the numbers one less -/
theorem Ready.shiftedFc_iff {C : Coll} {F : Files} (h : Ready C F) {done : List Str} (hall : ∀ t ∈ done, t ∈ F.terms) {last : Str} {b e : Nat}
    (hr : LastRange C F last b e) : ∀ i (hi : i < C.length), (MatchIds (done.map (rankOf F.terms)) b e (C[i].2.map (rankOf F.terms)) ∧
      ¬ (i = 0 ∧ C[i].2.map (rankOf F.terms) ≠ done.map (rankOf F.terms) ++ [b])) ↔ ShiftedFc C done last C[i].2 := by
  have hle := hr.le
  have hlt := hr.lt
  have hs := h.files.terms
  intro i hi
  unfold ShiftedFc
  have hmem := h.mem (List.getElem_mem hi)
  rw [h.match_before hall hr hmem, h.isFirstCompletion hi]
  apply and_congr_right
  intro _
  have hb' : b < F.terms.length := by omega
  have hrb : rankOf F.terms F.terms[b] = b + 1 := rankOf_getElem h.files.terms hb'
  constructor
  · intro hn h0
    have he : C[i].2.map (rankOf F.terms) = done.map (rankOf F.terms) ++ [b] :=
      Classical.byContradiction (fun hc => hn ⟨h0, hc⟩)
    obtain ⟨l1, l2, e0, e3, e4⟩ := List.map_eq_append_iff.mp he
    have hl1 : l1 = done := map_rankOf_inj (fun t ht => hmem t (by rw [e0]; simp [ht])) hall e3
    subst hl1
    obtain ⟨x, rfl, hx⟩ : ∃ x, l2 = [x] ∧ rankOf F.terms x = b := by
      cases l2 with
      | nil => simp at e4
      | cons x l2 =>
          simp only [List.map_cons, List.cons.injEq, List.map_eq_nil_iff] at e4
          exact ⟨x, by rw [e4.2], e4.1⟩
    have mx : x ∈ F.terms := hmem x (by rw [e0]; simp)
    exact ⟨x, F.terms[b], h.follows.mpr ⟨mx, List.getElem_mem hb', by omega⟩, (h.firstReached hr _).mpr ⟨List.getElem_mem hb', hrb⟩, e0⟩
  · rintro hf ⟨h0, hne⟩
    obtain ⟨x, y, h1, h2, h3⟩ := hf h0
    apply hne
    obtain ⟨_, _, e'⟩ := h.follows.mp h1
    have := ((h.firstReached hr y).mp h2).2
    rw [h3]
    simp only [List.map_append, List.map_cons, List.map_nil]
    rw [show rankOf F.terms x = b by omega]

/-- a lookup for a number that no completion has -/
theorem IntDict.locatePrefix_dead {C : Coll} {F : Files} (h : Ready C F) {m : Nat} (hm : m + MAX_TERMS ≤ IntDict.bufSize) {D : FC}
    (R : FC.Rep Elem.u32 m D (F.mapped.map (·.2))) (pfx : Ids) {r : Range} (hr : r = ⟨0, 0⟩ ∨ r = Range.invalid) {cbuf : Ids}
    (hb : cbuf.length = IntDict.bufSize) :
    ∃ pfx' cbuf', IntDict.locatePrefix D pfx r cbuf = .ok (Range.invalid, pfx', cbuf') ∧ cbuf'.length = IntDict.bufSize := by
  have key : ∀ n, n < 2 ^ 32 → n = 0 ∨ n = 2 ^ 32 - 1 → ∃ pfx' cbuf', IntDict.locatePrefix D pfx ⟨n, n⟩ cbuf = .ok (Range.invalid, pfx', cbuf') ∧
      cbuf'.length = IntDict.bufSize := by
    intro n hn hn'
    obtain ⟨r', pfx', cbuf', l1, l0, l2⟩ := IntDict.locatePrefix_exact h.validIds R (pfx := pfx) (Nat.le_refl n) hn cbuf (by rw [hb]; exact hm)
    refine ⟨pfx', cbuf', ?_, by omega⟩
    rcases l2 with ⟨e1, _⟩ | ⟨e1, e2, _, e4⟩
    · rw [l1, e1]
    · exfalso
      obtain ⟨⟨x, h1, h2, h3⟩, _⟩ := (e4 r'.b (by omega)).mp ⟨by omega, e1⟩
      have hx := h.validIds.elems _ (List.getElem_mem (by omega)) x (h3.subset (by simp))
      have := hx.1
      have := hx.2
      omega
  rcases hr with rfl | rfl
  · exact key 0 (by omega) (.inl rfl)
  · obtain ⟨pfx', cbuf', k1, k2⟩ := key (2 ^ 32 - 1) (by omega) (.inr rfl)
    refine ⟨pfx', cbuf', ?_, k2⟩
    rw [← k1, IntDict.locatePrefix, IntDict.locatePrefix]
    have e : ∀ n : Nat, n = 2 ^ 64 - 1 → n % 2 ^ 32 = (2 ^ 32 - 1) % 2 ^ 32 := by omega
    simp only [Range.invalid, e NOT_FOUND rfl, if_true]

/-- a lookup before run `k` -/
inductive FcState (C : Coll) (F : Files) (k : Nat) (q : Str) (l : Ids × Range) : Prop
  | alive (done : List Str) (last : Str) (xs : List Str) (stops : StopsAt C q done last) (added : Added C done last k xs)
      (range : LastRange C F last l.2.b l.2.e) (pos : 0 < l.2.e) (pfx : l.1 = (done ++ xs).map (rankOf F.terms))
  | dead (done : List Str) (last : Str) (stops : StopsAt C q done last) (none : ∀ r ∈ C, ¬ ShiftedFc C done last r.2) (only : ∀ x, ¬ BeforeOnly C last x)
      (range : l.2 = ⟨0, 0⟩ ∨ l.2 = Range.invalid)

theorem BeforeOnly.isTerm {C : Coll} {last x : Str} (h : BeforeOnly C last x) : IsTerm C x := h.elim fun _ h => h.1.1

theorem added_zero (C : Coll) (done : List Str) (last : Str) : Added C done last 0 [] := ⟨by simp, by simp, .inl rfl⟩

theorem FcState.init {C : Coll} {F : Files} (h : Ready C F) {q : Str} {l : Ids × Range} {done : List Str} {last : Str} (hl : LookupAll C F q l done last) :
    FcState C F 0 q l := by
  have hs := h.files.terms
  have hall : ∀ t ∈ done, t ∈ F.terms := fun t ht => (h.isTerm t).mp (hl.stops.known t ht)
  rcases hl.range with ⟨e1, e2⟩ | g
  · refine .dead done last hl.stops ?_ ?_ (.inr e1)
    · rintro r _ ⟨⟨x, y, hf, hy, _⟩, _⟩
      exact e2 y hf.2.1 hy
    · rintro x ⟨y, hf, hy, _⟩
      exact e2 y hf.2.1 hy
  · rcases Nat.eq_zero_or_pos l.2.e with h0 | h0
    · have hle := g.le
      have hno : ∀ x y, Follows C x y → ¬ Reaches C last y := by
        intro x y hf hy
        obtain ⟨mx, my, e'⟩ := h.follows.mp hf
        have := (g.rank my).mpr hy
        have := rankOf_pos (L := F.terms) x
        omega
      refine .dead done last hl.stops ?_ ?_ (.inl ?_)
      · rintro r _ ⟨⟨x, y, hf, hy, _⟩, _⟩
        exact hno x y hf hy
      · rintro x ⟨y, hf, hy, _⟩
        exact hno x y hf hy
      · obtain ⟨l1, b, e⟩ := l
        simp only at h0 hle
        subst h0
        rw [Nat.le_zero.mp hle]
    · exact .alive done last [] hl.stops (added_zero C done last) g h0 (by rw [hl.pfx, List.append_nil])

/-- one lookup of one run -/
theorem FcState.step {C : Coll} {F : Files} (h : Ready C F) {m : Nat} (hm : m + MAX_TERMS ≤ IntDict.bufSize) {D : FC}
    (R : FC.Rep Elem.u32 m D (F.mapped.map (·.2))) {k : Nat} {q : Str} {l : Ids × Range} (hl : FcState C F k q l) {cbuf : Ids} (hb : cbuf.length = IntDict.bufSize) :
    ∃ r pfx' cbuf', IntDict.locatePrefix D l.1 l.2 cbuf = .ok (r, pfx', cbuf') ∧ cbuf'.length = IntDict.bufSize ∧ FcState C F (k + 1) q (pfx', l.2) ∧
      ∃ done last xs, StopsAt C q done last ∧ Added C done last k xs ∧ RangeOf C (ShiftedFc C (done ++ xs) last) (r = Range.invalid) r.b r.e := by
  have hs := h.files.terms
  have hlen : (F.mapped.map (·.2)).length = C.length := by rw [List.length_map, h.length_mapped]
  have hsz : F.terms.length < 2 ^ 30 := by have := h.termCount_le; have := h.coll.size; omega
  cases hl with
  | dead done last stops none only range =>
      obtain ⟨pfx', cbuf', e1, e2⟩ := IntDict.locatePrefix_dead h hm R l.1 range hb
      refine ⟨_, pfx', cbuf', e1, e2, .dead done last stops none only range, done, last, [], stops, ⟨by simp, by simp, ?_⟩, .inl ⟨rfl, by simpa using none⟩⟩
      rcases Nat.eq_zero_or_pos k with hk | hk
      · exact .inl hk.symm
      · exact .inr ⟨hk, .inr only⟩
  | alive done last xs stops added range pos pfx =>
      have hle := range.le
      have hlt := range.lt
      have hall : ∀ t ∈ done ++ xs, t ∈ F.terms := by
        intro t ht
        rcases List.mem_append.mp ht with ht | ht
        · exact (h.isTerm t).mp (stops.known t ht)
        · exact (h.isTerm t).mp (BeforeOnly.isTerm (added.same t ht))
      obtain ⟨r, pfx', cbuf', l1, l0, l2⟩ := IntDict.locatePrefix_exact h.validIds R (pfx := l.1) hle (by omega) cbuf (by rw [hb]; exact hm)
      have hcond := h.shiftedFc_iff hall range
      rw [pfx] at l2
      have hrange : RangeOf C (ShiftedFc C (done ++ xs) last) (r = Range.invalid) r.b r.e := by
        rcases l2 with ⟨e1, e2, e3⟩ | ⟨e1, e2, e3, e4⟩
        · refine .inl ⟨e1, ?_⟩
          intro r' hr' hp
          obtain ⟨i, hi, rfl⟩ := List.getElem_of_mem hr'
          obtain ⟨c1, c2⟩ := (hcond i hi).mpr hp
          have := e3 i (by rw [hlen]; exact hi)
          rw [h.getElem_snd hi] at this
          exact c2 (this c1)
        · refine .inr ⟨e1, by omega, ?_⟩
          intro i hi
          rw [e4 i (by rw [hlen]; exact hi), h.getElem_snd hi]
          exact hcond i hi
      refine ⟨r, pfx', cbuf', l1, by omega, ?_, done, last, xs, stops, added, hrange⟩
      have hst : xs.length = k ∨ (xs.length < k ∧ ((∃ r ∈ C, ShiftedFc C (done ++ xs) last r.2) ∨ ∀ x, ¬ BeforeOnly C last x)) := added.stop
      have hkeep : ((∃ r ∈ C, ShiftedFc C (done ++ xs) last r.2) ∨ ∀ x, ¬ BeforeOnly C last x) → Added C done last (k + 1) xs :=
        fun hc => ⟨added.same, added.before, .inr ⟨by rcases hst with h | ⟨h, _⟩ <;> omega, hc⟩⟩
      rcases l2 with ⟨e1, e2, e3⟩ | ⟨e1, e2, e3, e4⟩
      · have hnone : ∀ r' ∈ C, ¬ ShiftedFc C (done ++ xs) last r'.2 := by
          rcases hrange with ⟨_, hn⟩ | ⟨hn, _⟩
          · exact hn
          · rw [e1] at hn; simp [Range.invalid] at hn
        have hrb := rankOf_getElem hs (show l.2.b < F.terms.length by omega)
        by_cases hbe : l.2.b = l.2.e
        · rw [if_pos hbe] at e2
          have hp : l.2.e - 1 < F.terms.length := by omega
          have hrx := rankOf_getElem hs hp
          have hro := rankOf_getElem hs hlt
          have hx : BeforeOnly C last F.terms[l.2.e - 1] := by
            refine ⟨F.terms[l.2.e], h.follows.mpr ⟨List.getElem_mem _, List.getElem_mem _, by omega⟩, (range.iff _ hlt).mp ⟨hle, Nat.le_refl _⟩, ?_⟩
            intro z hz hr
            have mz := (h.isTerm z).mp hz
            have := (range.rank mz).mpr hr
            exact rankOf_inj mz (List.getElem_mem _) (by omega)
          refine .alive done last (xs ++ [F.terms[l.2.e - 1]]) stops ⟨?_, ?_, ?_⟩ range pos ?_
          · intro x hx'
            rcases List.mem_append.mp hx' with hx' | hx'
            · exact added.same x hx'
            · rw [List.mem_singleton.mp hx']; exact hx
          · intro j hj
            rw [List.length_append, List.length_singleton] at hj
            rw [List.take_append_of_le_length (by omega)]
            rcases Nat.lt_or_ge j xs.length with hj' | hj'
            · exact added.before j hj'
            · rw [List.take_of_length_le hj']; exact hnone
          · left
            rw [List.length_append, List.length_singleton]
            rcases hst with hk | ⟨_, ⟨r', hr', hf⟩ | hk⟩
            · omega
            · exact absurd hf (hnone r' hr')
            · exact absurd hx (hk _)
          · rw [e2, ← List.append_assoc, List.map_append (l₂ := [_])]
            simp only [List.map_cons, List.map_nil]
            rw [hrx, show l.2.e - 1 + 1 = l.2.e by omega]
        · rw [if_neg hbe] at e2
          refine .alive done last xs stops (hkeep (.inr ?_)) range pos e2
          rintro x ⟨y, _, _, hy⟩
          have h1 := hy _ ((h.isTerm _).mpr (List.getElem_mem (show l.2.b < F.terms.length by omega))) ((range.iff _ _).mp ⟨Nat.le_refl _, hle⟩)
          have h2 := hy _ ((h.isTerm _).mpr (List.getElem_mem hlt)) ((range.iff _ _).mp ⟨hle, Nat.le_refl _⟩)
          have h3 := rankOf_getElem hs (show l.2.b < F.terms.length by omega)
          have h4 := rankOf_getElem hs hlt
          rw [h1] at h3
          rw [h2] at h4
          omega
      · refine .alive done last xs stops (hkeep (.inl ?_)) range pos e3
        rcases hrange with ⟨hn, _⟩ | ⟨h1, h2, h3⟩
        · rw [hn] at e1; simp [Range.invalid] at e1
        · exact ⟨C[r.b], List.getElem_mem (by omega), (h3 r.b (by omega)).mp ⟨Nat.le_refl _, h1⟩⟩

/-- what run `k` computes for a query -/
def FcRun (C : Coll) (k : Nat) (q : Str) (r : Range) : Prop :=
  ∃ done last xs, StopsAt C q done last ∧ Added C done last k xs ∧ RangeOf C (ShiftedFc C (done ++ xs) last) (r = Range.invalid) r.b r.e

section
variable {C : Coll} {F : Files} (h : Ready C F) {m : Nat} (hm : m + MAX_TERMS ≤ IntDict.bufSize) {D : FC} (R : FC.Rep Elem.u32 m D (F.mapped.map (·.2)))
include h hm R

theorem Bench.lookupPass_fc {k : Nat} : ∀ {qs : List Str} {ls : List (Ids × Range)}, All2 (FcState C F k) qs ls → ∀ {cbuf : Ids}, cbuf.length = IntDict.bufSize →
    ∃ rs ls' cbuf', Bench.lookupPass (IntDict.locatePrefix D) ls cbuf = .ok (rs, ls', cbuf') ∧ cbuf'.length = IntDict.bufSize ∧ All2 (FcState C F (k + 1)) qs ls' ∧
      All2 (FcRun C k) qs rs
  | _, _, .nil, cbuf, hb => ⟨[], [], cbuf, rfl, hb, .nil, .nil⟩
  | _, _, .cons (b := l) (bs := ls) hl hls, cbuf, hb => by
      obtain ⟨r, pfx', cbuf1, e1, e2, e3, e4⟩ := hl.step h hm R hb
      obtain ⟨rs, ls', cbuf2, f1, f2, f3, f4⟩ := lookupPass_fc hls e2
      refine ⟨r :: rs, (pfx', l.2) :: ls', cbuf2, ?_, f2, .cons e3 f3, .cons e4 f4⟩
      obtain ⟨p, g⟩ := l
      rw [Bench.lookupPass]
      simp only at e1 ⊢
      rw [e1, M.ok_bind]
      simp only [f1, M.ok_bind]

theorem Bench.lookupRuns_fc : ∀ (n k : Nat) {qs : List Str} {ls : List (Ids × Range)}, All2 (FcState C F k) qs ls → ∀ {cbuf : Ids}, cbuf.length = IntDict.bufSize →
    ∃ rss, Bench.lookupRuns (IntDict.locatePrefix D) n ls cbuf = .ok rss ∧ rss.length = n ∧ ∀ i rs, rss[i]? = some rs → All2 (FcRun C (k + i)) qs rs
  | 0, k, _, _, _, _, _ => ⟨[], rfl, rfl, by simp⟩
  | n + 1, k, qs, ls, hls, cbuf, hb => by
      obtain ⟨rs, ls', cbuf', e1, e2, e3, e4⟩ := Bench.lookupPass_fc h hm R hls hb
      obtain ⟨rss, f1, f2, f3⟩ := lookupRuns_fc n (k + 1) e3 e2
      refine ⟨rs :: rss, ?_, by simp [f2], ?_⟩
      · rw [Bench.lookupRuns, e1, M.ok_bind]
        simp only [f1, M.ok_bind]
      · intro i rs' hi
        cases i with
        | zero => simp only [List.getElem?_cons_zero, Option.some.injEq] at hi; subst hi; exact e4
        | succ i =>
            rw [List.getElem?_cons_succ] at hi
            have := f3 i rs' hi
            rwa [show k + 1 + i = k + (i + 1) by omega] at this

end

end AC
