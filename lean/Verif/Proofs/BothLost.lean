import Verif.Proofs.LostCompletions
import Verif.Proofs.Lossy4
/-!
# Types 2, 3 and 4 when the numbers of terms and of completions are both multiples of 17
-/
namespace AC
open Spec

/-- The outcome of a query: the best completions with property `P`, with their texts; unless the texts do not fit, or one of the completions is
lost, itself or one of its terms, in which case bytes are read outside of the dictionaries. -/
def OutcomeB (C : Coll) (terms : List Str) (P : List Str → Prop) (k : Nat) (o : M Scratch) : Prop :=
  ∃ E, Spec.Best C P k E ∧ ((∀ r ∈ E, ¬ Gone C r.2) → Shows terms E o) ∧ ((∃ r ∈ E, Gone C r.2) → o = .error .oob)

/-- the same for a search that is only sound -/
def SoundB (C : Coll) (terms : List Str) (P : List Str → Prop) (k : Nat) (o : M Scratch) : Prop :=
  ∃ E : Coll, E.length ≤ k ∧ (∀ r ∈ E, r ∈ C ∧ P r.2) ∧ ((∀ r ∈ E, ¬ Gone C r.2) → Shows terms E o) ∧ ((∃ r ∈ E, Gone C r.2) → o = .error .oob)

theorem OutcomeB.sound {C : Coll} {terms : List Str} {P : List Str → Prop} {k : Nat} {o : M Scratch} (h : OutcomeB C terms P k o) :
    SoundB C terms P k o := by
  obtain ⟨E, b, h1, h2⟩ := h
  exact ⟨E, b.le, b.sound, h1, h2⟩

theorem outcomeB_none {C : Coll} {P : List Str → Prop} {k : Nat} {s : Scratch} (hs : s.WF) (hp : s.pool.Holds [])
    {terms : List Str} {d : FC} (hdict : FcDict.build terms = .ok d) (hno : ∀ r ∈ C, ¬ P r.2) : OutcomeB C terms P k (.ok s) := by
  obtain ⟨E, b, hE⟩ := outcome_none (k := k) hs hp hdict hno
  refine ⟨E, b, fun _ => hE, ?_⟩
  rintro ⟨r, hr, _⟩
  exact absurd (b.sound r hr).2 (hno r (b.sound r hr).1)

/-- like `Index3.Rep` -/
structure Index3.RepB (x : Index3) (F : Files) : Prop where
  base : x.toBase.Rep17 F.mapped
  dict : Lossy x.dict F.terms
  built : FcDict.build F.terms = .ok x.dict
  inverted : x.inverted.Rep F.univ F.inverted

/-- like `Index2.Rep` -/
structure Index2.RepB (x : Index2) (F : Files) : Prop where
  base : x.toBase.Rep17 F.mapped
  dict : Lossy x.dict F.terms
  built : FcDict.build F.terms = .ok x.dict
  minimal : x.minimal.Rep (F.inverted.map (fun l => l.headD 0))
  inverted : x.inverted.Rep F.univ F.inverted

/-- like `Index4.Rep` -/
structure Index4.RepB (x : Index4) (m : Nat) (F : Files) (docss : List (List Nat)) : Prop where
  base : x.toBase.Rep17 F.mapped
  dict : Lossy x.dict F.terms
  built : FcDict.build F.terms = .ok x.dict
  inverted : x.inverted.Rep F.univ m F.inverted docss

section
variable {C : Coll} {F : Files} (h : Ready C F)
include h

/-! ## Decoding -/

theorem Ready.key17 (hn : 16 ≤ F.terms.length) {d : Nat} (hd : ∃ c, (d, c) ∈ C) :
    (∃ t ∈ (AC.rowOf F d).2, AmongLast C 16 t) ↔ ∃ t ∈ F.forward.getD d [], F.terms.length - 16 < t := by
  obtain ⟨c, hc⟩ := hd
  have key : ∀ t ∈ F.forward.getD d [], (AmongLast C 16 (F.terms.getD (t - 1) []) ↔ F.terms.length - 16 < t) := by
    intro t htt
    have := h.idsIn hc t htt
    rw [List.getD_eq_getElem?_getD, List.getElem?_eq_getElem (show t - 1 < F.terms.length by omega), Option.getD_some, h.amongLast hn (by omega)]
    omega
  unfold AC.rowOf
  constructor
  · rintro ⟨t, ht, hl⟩
    obtain ⟨t', ht', rfl⟩ := List.mem_map.mp ht
    exact ⟨t', ht', (key t' ht').mp hl⟩
  · rintro ⟨t, ht, hl⟩
    exact ⟨_, List.mem_map.mpr ⟨t, ht, rfl⟩, (key t ht).mpr hl⟩

/-- decoding completions that can be loaded -/
theorem Ready.shows17 (hn : 16 ≤ F.terms.length) {docs : List Nat} (hdoc : ∀ d ∈ docs, ∃ c, (d, c) ∈ C) {s : Scratch} (hs : s.WF)
    {d : FC} (hdict : FcDict.build F.terms = .ok d) {o : M Scratch}
    (hd : DecodedL d F.terms s docs (docs.map (fun d => F.forward.getD d [])) o) :
    ((∀ r ∈ docs.map (AC.rowOf F), ∀ t ∈ r.2, ¬ AmongLast C 16 t) → Shows F.terms (docs.map (AC.rowOf F)) o) ∧
    ((∃ r ∈ docs.map (AC.rowOf F), ∃ t ∈ r.2, AmongLast C 16 t) → o = .error .oob) := by
  constructor
  · intro hk
    refine h.shows hdoc hs hdict (hd.1 ?_)
    intro ts hts t htt
    obtain ⟨d, hdd, rfl⟩ := List.mem_map.mp hts
    apply Classical.byContradiction
    intro hc
    obtain ⟨u, u1, u2⟩ := (h.key17 hn (hdoc d hdd)).mpr ⟨t, htt, by omega⟩
    exact hk _ (List.mem_map.mpr ⟨d, hdd, rfl⟩) u u1 u2
  · rintro ⟨r, hr, hl⟩
    obtain ⟨d, hdd, rfl⟩ := List.mem_map.mp hr
    obtain ⟨t, t1, t2⟩ := (h.key17 hn (hdoc d hdd)).mp hl
    exact hd.2 ⟨_, List.mem_map.mpr ⟨d, hdd, rfl⟩, t, t1, t2⟩

theorem Base.extract_shows17L {x : Base} (hx : x.Rep17 F.mapped) (R : Lossy x.dict F.terms)
    (hdict : FcDict.build F.terms = .ok x.dict) {n : Nat} {s : Scratch}
    (hs : s.WF) (hp : s.pool.Holds []) (hn : n ≤ s.pool.scores.length) (ht : ∀ d ∈ s.pool.scores.take n, ∃ c, (d, c) ∈ C ∧ ¬ LastCompletion C 16 c) :
    ((∀ r ∈ (s.pool.scores.take n).map (AC.rowOf F), ∀ t ∈ r.2, ¬ AmongLast C 16 t) → Shows F.terms ((s.pool.scores.take n).map (AC.rowOf F)) (x.extract n s)) ∧
    ((∃ r ∈ (s.pool.scores.take n).map (AC.rowOf F), ∃ t ∈ r.2, AmongLast C 16 t) → x.extract n s = .error .oob) := by
  have h15 := hs.scores
  obtain ⟨compl, sizes, a1, a2, a3⟩ := Base.extractCompletions_loads (x := x) (fun d => F.forward.getD d []) (scores := s.pool.scores) n 0 s.compl s.sizes [] (by omega) (by omega)
    (by
      intro d hd
      rw [List.drop_zero] at hd
      obtain ⟨c, hc, hl⟩ := ht d hd
      exact (h.loads17 hx hc).1 hl) hs.shape Rows.nil rfl
  rw [List.nil_append, List.drop_zero] at a3
  have := Base.strings_lossy (x := x) R (s := { s with compl := compl, sizes := sizes }) hp hs.data a3 (n := n) (docs := s.pool.scores.take n)
    (by simp; omega) rfl hn (by
      intro c hc
      obtain ⟨d, hd', rfl⟩ := List.mem_map.mp hc
      obtain ⟨c, hc, _⟩ := ht d hd'
      exact h.idsIn hc)
  unfold Base.extract
  rw [a1, M.ok_bind]
  exact h.shows17 (by have := R.pos; omega) (fun d hd => by obtain ⟨c, hc, _⟩ := ht d hd; exact ⟨c, hc⟩)
    (s := { s with compl := compl, sizes := sizes }) ⟨hs.scores, hs.data, hs.dbuf, hs.cbuf, a2⟩ hdict this

/-- decoding any documents -/
theorem Base.extract_both {x : Base} (hx : x.Rep17 F.mapped) (R : Lossy x.dict F.terms)
    (hdict : FcDict.build F.terms = .ok x.dict) {n : Nat} {s : Scratch}
    (hs : s.WF) (hp : s.pool.Holds []) (hn : n ≤ s.pool.scores.length) (ht : ∀ d ∈ s.pool.scores.take n, ∃ c, (d, c) ∈ C) :
    ((∀ r ∈ (s.pool.scores.take n).map (AC.rowOf F), ¬ Gone C r.2) → Shows F.terms ((s.pool.scores.take n).map (AC.rowOf F)) (x.extract n s)) ∧
    ((∃ r ∈ (s.pool.scores.take n).map (AC.rowOf F), Gone C r.2) → x.extract n s = .error .oob) := by
  by_cases hl : ∃ d ∈ s.pool.scores.take n, ∃ c, (d, c) ∈ C ∧ LastCompletion C 16 c
  · have ho := Base.extract_lost17 h hx hs hn ht hl
    refine ⟨fun hk => ?_, fun _ => ho⟩
    obtain ⟨d, hd, c, hc, hlc⟩ := hl
    have := hk _ (List.mem_map.mpr ⟨d, hd, rfl⟩)
    rw [h.rowOf hc] at this
    exact absurd (Or.inl hlc) this
  · have ht' : ∀ d ∈ s.pool.scores.take n, ∃ c, (d, c) ∈ C ∧ ¬ LastCompletion C 16 c := by
      intro d hd
      obtain ⟨c, hc⟩ := ht d hd
      exact ⟨c, hc, fun hlc => hl ⟨d, hd, c, hc, hlc⟩⟩
    obtain ⟨h1, h2⟩ := Base.extract_shows17L h hx R hdict hs hp hn ht'
    refine ⟨fun hk => h1 (fun r hr t htt hal => hk r hr (Or.inr ⟨t, htt, hal⟩)), ?_⟩
    rintro ⟨r, hr, hg | hg⟩
    · obtain ⟨d, hd, rfl⟩ := List.mem_map.mp hr
      obtain ⟨c, hc⟩ := ht d hd
      rw [h.rowOf hc] at hg
      exact absurd ⟨d, hd, c, hc, hg⟩ hl
    · exact h2 ⟨r, hr, hg⟩

theorem Base.extract_outcomeB {x : Base} (hx : x.Rep17 F.mapped) (R : Lossy x.dict F.terms)
    (hdict : FcDict.build F.terms = .ok x.dict) {P : List Str → Prop} {k n : Nat} {s : Scratch}
    (hs : s.WF) (hp : s.pool.Holds []) (hn : n ≤ s.pool.scores.length) (ht : IsTopK (Doc C P) k (s.pool.scores.take n)) :
    OutcomeB C F.terms P k (x.extract n s) := by
  have hdoc : ∀ d ∈ s.pool.scores.take n, ∃ c, (d, c) ∈ C := fun d hd => by obtain ⟨c, hc, _⟩ := ht.sound d hd; exact ⟨c, hc⟩
  exact ⟨_, h.best ht, Base.extract_both h hx R hdict hs hp hn hdoc⟩

/-! ## Prefix search -/

theorem Base.prefix_runB (std : StdLib) {x : Base} (hx : x.Rep17 F.mapped)
    (R : Lossy x.dict F.terms) {q : Str} (hq : IsText q) (k : Nat) {s : Scratch} (hs : s.WF) :
    PrefixRun C (PrefixKeptB C (completeTerms q) (lastTerm q)) x.docs x.extract std k (x.prefixTopk std q k s) := by
  have ha := analyse_lossy h R hq true hs.dbuf
  unfold Base.prefixTopk
  generalize analyse x.dict q true s = a at ha
  cases ha with
  | unknown buf hb hm hu =>
      exact ⟨_, wf_init hs hb, Pool.Holds.init _, Or.inl ⟨rfl, fun r hr hp => h.not_prefixKept hu r hr hp.1.1⟩⟩
  | nothing buf hb hu =>
      exact ⟨_, wf_init hs hb, Pool.Holds.init _, Or.inl ⟨rfl, fun r hr hp => h.not_prefixKept' hu r hr hp.1.1⟩⟩
  | some buf hb r hr hk2 =>
      have hall := hk2 rfl
      rw [M.ok_bind, List.filter_eq_self.mpr (by simpa using hall)]
      dsimp only
      have hn : 16 ≤ F.terms.length := by have := R.pos; omega
      have hsz : F.terms.length < 2 ^ 30 := by have := h.termCount_le; have := h.coll.size; omega
      have hle := hr.le
      have hlt := hr.lt
      have hml := h.length_mapped
      have hmod := hx.mod
      have hpos := hx.pos
      obtain ⟨d', hd', R'⟩ := hx.completions
      have hlen : ((F.mapped.take (F.mapped.length - 16)).map (·.2)).length = C.length - 16 := by simp [hml]
      have v := h.validIds
      have v' : ValidIds ((F.mapped.take (F.mapped.length - 16)).map (·.2)) := by
        rw [List.map_take]
        exact ⟨v.sorted.sublist (List.take_sublist _ _), fun s hs => v.elems s (List.mem_of_mem_take hs),
          fun s hs => v.len s (List.mem_of_mem_take hs), by have := v.count; rw [List.length_take]; omega⟩
      have hget : ∀ i (hi : i < C.length) (hi' : i < C.length - 16),
          ((F.mapped.take (F.mapped.length - 16)).map (·.2))[i]'(by rw [hlen]; exact hi') = C[i].2.map (rankOf F.terms) := by
        intro i hi hi'
        have := h.getElem_snd hi
        rw [List.getElem_map] at this
        rw [List.getElem_map, List.getElem_take, this]
      obtain ⟨r', pfx', cbuf, l1, l0, l2⟩ := IntDict.locatePrefix_exact v' R'
        (pfx := (completeTerms q).map (rankOf F.terms)) (show r.b + 1 ≤ r.e + 1 by omega) (by omega) s.cbuf (by rw [hs.cbuf]; decide)
      rw [hd', IntDict.locatePrefix_size (by
        rw [R'.size, hlen, hml]; rw [hml] at hmod hpos; simp only [FC.tail]; (repeat' split) <;> omega), l1, M.ok_bind]
      dsimp only
      have hw : Scratch.WF { s with pool := s.pool.init, dbuf := buf, cbuf := cbuf } :=
        ⟨hs.scores, hs.data, hb.trans hs.dbuf, l0.trans hs.cbuf, hs.shape⟩
      have hcond := h.prefixKept2_iff hn hall hr
      have hlost := fun i (hi : i < C.length) => h.lost_iff hx hi
      refine ⟨_, hw, Pool.Holds.init _, ?_⟩
      rcases l2 with ⟨e1, e2, e3⟩ | ⟨e1, e2, e3, e4⟩
      · subst e1
        rw [if_pos (by decide)]
        refine Or.inl ⟨rfl, ?_⟩
        intro r' hr' hp
        obtain ⟨i, hi, rfl⟩ := List.getElem_of_mem hr'
        obtain ⟨c1, c2⟩ := (hcond i hi).mpr hp.1
        have hik : i < C.length - 16 := Nat.lt_of_not_le (fun hc => hp.2 ((hlost i hi).mpr hc))
        have := e3 i (by rw [hlen]; exact hik)
        rw [hget i hi hik] at this
        exact c2 (this c1)
      · have hcl : C.length < 2 ^ 30 := by have := h.count_le; have := h.coll.size; omega
        rw [hlen] at e2
        rw [if_neg (by simp [isInvalid_false (Nat.le_of_lt e1) (by omega)])]
        refine Or.inr ⟨r'.b, r'.e, e1, by omega, ?_, rfl⟩
        intro i hi
        unfold PrefixKeptB
        rw [hlost i hi]
        by_cases hik : i < C.length - 16
        · rw [e4 i (by rw [hlen]; exact hik), hget i hi hik, hcond i hi]
          exact ⟨fun hh => ⟨hh, by omega⟩, fun hh => hh.1⟩
        · constructor
          · intro hh; omega
          · intro hh; exact absurd hh.2 (by omega)

/-- prefix search -/
theorem Base.prefix_specB (std : StdLib) {x : Base} (hx : x.Rep17 F.mapped)
    (R : Lossy x.dict F.terms) (hdict : FcDict.build F.terms = .ok x.dict) {q : Str} (hq : IsText q) {k : Nat} (hk : 1 ≤ k)
    (hk' : k ≤ MAX_K) {s : Scratch} (hs : s.WF) :
    Outcome17 C F.terms (PrefixKeptB C (completeTerms q) (lastTerm q)) k (x.prefixTopk std q k s) := by
  have hr := Base.prefix_runB h std hx R hq k hs
  generalize x.prefixTopk std q k s = o at hr
  obtain ⟨s, h1, h2, ⟨rfl, h4⟩ | ⟨b, e, e1, e2, e3, rfl⟩⟩ := hr
  · exact outcome17_none h1 h2 hdict h4
  · obtain ⟨buf', n, t1, t2, t3, t4⟩ := h.topk17 std hx e1 e2 e3 (fun c hc => hc.2) hk hk' (buf := s.pool.scores) h1.scores
    rw [t1, M.ok_bind]
    have h15 := h1.scores
    exact ⟨_, h.best t4, Base.extract_shows17L h hx R hdict (wf_scores h1 t2) (holds_scores h2 _) (by dsimp only; omega) (fun d hd => by
      obtain ⟨c, hc, hp⟩ := t4.sound d hd
      exact ⟨c, hc, hp.2⟩)⟩

/-! ## Conjunctive search -/

theorem Index3.conj_specB (std : StdLib) {x : Index3} (hx : x.RepB F) {q : Str} (hq : IsText q) {k : Nat}
    (hk : 1 ≤ k) (hk' : k ≤ MAX_K) {s : Scratch} (hs : s.WF) :
    OutcomeB C F.terms (ConjKept C (completeTerms q) (lastTerm q)) k (x.conjTopk std q k s) := by
  have ha := analyse_lossy h hx.dict hq false hs.dbuf
  unfold Index3.conjTopk
  generalize analyse x.dict q false s = a at ha
  cases ha with
  | unknown buf hb hm hu => simp at hm
  | nothing buf hb hu => exact outcomeB_none (wf_init hs hb) (Pool.Holds.init _) hx.built (h.not_conjKept hu)
  | some buf hb r hr hk2 =>
      rw [M.ok_bind]
      dsimp only
      obtain ⟨scores', n, t1, t2, t3, t4⟩ := Index3.conjScores_kept std h hx.inverted (by have := hx.dict.pos; omega) (complete := completeTerms q) hr hk
        (scores := s.pool.init.scores) (by rw [Pool.init, hs.scores]; exact hk')
      unfold keptPfx at t1
      rw [t1, M.ok_bind]
      refine Base.extract_outcomeB h hx.base hx.dict hx.built (wf_scores (wf_init hs hb) t2) (holds_scores (Pool.Holds.init _) _) ?_ t4
      have := hs.scores
      dsimp only [Pool.init] at t2 ⊢
      omega

/-- conjunctive search with type 4 -/
theorem Index4.conj_soundB (std : StdLib) {m : Nat} {x : Index4} {docss : List (List Nat)} (hx : x.RepB m F docss) (hids : ∀ r ∈ C, r.1 < 2 ^ 32 - 2)
    {q : Str} (hq : IsText q) {k : Nat} (hk : 1 ≤ k) (hk' : k ≤ MAX_K) {s : Scratch} (hs : s.WF) :
    SoundB C F.terms (ConjKept C (completeTerms q) (lastTerm q)) k (x.conjTopk std q k s) := by
  have hn : 16 ≤ F.terms.length := by have := hx.dict.pos; have := hx.dict.mod; omega
  have hu : F.univ + 1 < 2 ^ 32 := by
    obtain ⟨r, hr, he⟩ := h.files.univ
    have := hids r hr
    omega
  have ha := analyse_lossy h hx.dict hq false hs.dbuf
  unfold Index4.conjTopk
  generalize analyse x.dict q false s = a at ha
  cases ha with
  | unknown buf hb hm hu => simp at hm
  | nothing buf hb hu => exact (outcomeB_none (wf_init hs hb) (Pool.Holds.init _) hx.built (h.not_conjKept hu)).sound
  | some buf hb r hr hk2 =>
      rw [M.ok_bind]
      dsimp only
      have hsl := hs.scores
      obtain ⟨scores', n, t1, t2, t3, t4⟩ := Index4.scores_kept h std hx.inverted hn hu (complete := completeTerms q) hr hk hk' (scores := s.pool.init.scores) hsl
      unfold keptPfx at t1
      rw [t1, M.ok_bind]
      have hsn : n ≤ scores'.length := by rw [t2, Pool.init, hsl]; omega
      have hdoc : ∀ d ∈ scores'.take n, ∃ c, (d, c) ∈ C := fun d hd => by obtain ⟨c, hc, _⟩ := t4 d hd; exact ⟨c, hc⟩
      refine ⟨(scores'.take n).map (AC.rowOf F), by simp; omega, ?_, Base.extract_both h hx.base hx.dict hx.built (wf_scores (wf_init hs hb) t2)
        (holds_scores (Pool.Holds.init _) _) hsn hdoc⟩
      intro r hr
      obtain ⟨d, hd, rfl⟩ := List.mem_map.mp hr
      obtain ⟨c, hc, hp⟩ := t4 d hd
      rw [h.rowOf hc]
      exact ⟨hc, hp⟩

end

section
variable {C : Coll} {F : Files} (h : Ready C F)
include h

/-- the outcome of conjunctive search with type 2: a fault when one of the completions that it loads is lost -/
def Outcome2B (C : Coll) (terms : List Str) (complete : List Str) (last : Str) (k : Nat) (o : M Scratch) : Prop :=
  ((∃ d c, ExaminedKept C complete last k d c ∧ LastCompletion C 16 c) → o = .error .oob) ∧
  ((¬ ∃ d c, ExaminedKept C complete last k d c ∧ LastCompletion C 16 c) → Outcome17 C terms (ConjKept C complete last) k o)

/-- the completions among the first documents of a list, in terms of the collection -/
theorem Ready.before_iff17 (hn : 16 ≤ F.terms.length) {complete : List Str} (hne : keptPfx F complete ≠ []) {last : Str} {b e : Nat} (hr : KeptRange C F last b e)
    {A : List Nat} {d : Nat} {B : List Nat} (hR : docsOf F (keptPfx F complete) = A ++ d :: B) (k : Nat) :
    (∀ G : Coll, G.Nodup → (∀ r ∈ G, r ∈ C ∧ ConjKept C complete last r.2 ∧ r.1 < d) → G.length < k) ↔
      (A.filter (fun d => (F.forward.getD d []).any (fun t => Range.contains ⟨b + 1, e + 1⟩ t))).length < k := by
  have hs := docsOf_sorted F (keptPfx F complete)
  rw [hR] at hs
  have hA := (List.pairwise_append.mp hs).1
  have hAd : ∀ a ∈ A, a < d := fun a ha => (List.pairwise_append.mp hs).2.2 a ha d (by simp)
  have hB : ∀ a ∈ B, d < a := (List.pairwise_cons.mp (List.pairwise_append.mp hs).2.1).1
  have hmem : ∀ r : Nat × List Str, (r ∈ C ∧ ConjKept C complete last r.2 ∧ r.1 < d) ↔
      r ∈ (A.filter (fun d => (F.forward.getD d []).any (fun t => Range.contains ⟨b + 1, e + 1⟩ t))).map (AC.rowOf F) := by
    intro r
    rw [List.mem_map]
    constructor
    · rintro ⟨h1, h2, h3⟩
      refine ⟨r.1, ?_, h.rowOf h1⟩
      obtain ⟨h4, h5⟩ := (h.conj_docs17 hn hne hr r.1).mpr ⟨r.2, h1, h2⟩
      refine List.mem_filter.mpr ⟨?_, h5⟩
      rw [hR] at h4
      rcases List.mem_append.mp h4 with h4 | h4
      · exact h4
      · rcases List.mem_cons.mp h4 with h4 | h4
        · omega
        · have := hB _ h4; omega
    · rintro ⟨a, ha, rfl⟩
      obtain ⟨h1, h2⟩ := List.mem_filter.mp ha
      obtain ⟨c, hc, hp⟩ := (h.conj_docs17 hn hne hr a).mp ⟨by rw [hR]; simp [h1], h2⟩
      rw [h.rowOf hc]
      exact ⟨hc, hp, hAd a h1⟩
  have hnd : ((A.filter (fun d => (F.forward.getD d []).any (fun t => Range.contains ⟨b + 1, e + 1⟩ t))).map (AC.rowOf F)).Nodup := by
    refine List.Pairwise.map _ (R := (· < ·)) ?_ (hA.sublist List.filter_sublist)
    intro a b hab he
    have := congrArg Prod.fst he
    simp only [AC.rowOf] at this
    omega
  constructor
  · intro hG
    have := hG _ hnd (fun r hr => (hmem r).mpr hr)
    simpa using this
  · intro hlt G hG hGP
    have := nodup_subset_length' hG (fun r hr => (hmem r).mp (hGP r hr))
    rw [List.length_map] at this
    omega

theorem Ready.keptPfx_ne (hn : 16 ≤ F.terms.length) {complete : List Str} : keptPfx F complete ≠ [] ↔ ∃ t ∈ complete, KeptTerm C t := by
  unfold keptPfx
  rw [ne_eq, List.map_eq_nil_iff, List.filter_eq_nil_iff]
  constructor
  · intro hh
    apply Classical.byContradiction
    intro hc
    apply hh
    intro t ht hm
    exact hc ⟨t, ht, (h.kept hn t).mpr (of_decide_eq_true hm)⟩
  · rintro ⟨t, ht, hk⟩ hh
    exact hh t ht (decide_eq_true ((h.kept hn t).mp hk))

theorem Index2.conj_specB (std : StdLib) {x : Index2} (hx : x.RepB F) {q : Str} (hq : IsText q) {k : Nat}
    (hk : 1 ≤ k) (hk' : k ≤ MAX_K) {s : Scratch} (hs : s.WF) :
    Outcome2B C F.terms (completeTerms q) (lastTerm q) k (x.conjTopk std q k s) := by
  have ha := analyse_lossy h hx.dict hq false hs.dbuf
  unfold Index2.conjTopk
  generalize analyse x.dict q false s = a at ha
  cases ha with
  | unknown buf hb hm hu => simp at hm
  | nothing buf hb hu =>
      refine ⟨?_, fun _ => outcome17_none (wf_init hs hb) (Pool.Holds.init _) hx.built (h.not_conjKept hu)⟩
      rintro ⟨d, c, ⟨_, ⟨y, y1, y2⟩, _⟩, _⟩
      exact absurd y2 (hu y y1)
  | some buf hb r hr hk2 =>
      rw [M.ok_bind]
      dsimp only
      have h15 := hs.scores
      have hlt := hr.lt
      have hn : 16 ≤ F.terms.length := by have := hx.dict.pos; omega
      have hreach : ∃ y, IsTerm C y ∧ ReachesKept C (lastTerm q) y := by
        have hle := hr.le
        exact ⟨F.terms[r.b]'(by omega), (h.isTerm _).mpr (List.getElem_mem _), (hr.iff r.b (by omega)).mp ⟨Nat.le_refl _, hle⟩⟩
      by_cases hne : keptPfx F (completeTerms q) = []
      · rw [if_pos (by unfold keptPfx at hne; rw [hne]; rfl)]
        obtain ⟨buf', n, t1, t2, t3, t4⟩ := MinDocs.topk_spec std hx.inverted hx.minimal (a := r.b) (b := r.e + 1) (by have := hr.le; omega)
          (by rw [h.files.numLists]; omega) hk (buf := s.pool.init.scores) (by rw [Pool.init, hs.scores]; exact hk')
        rw [t1, M.ok_bind]
        have t4 := IsTopK_congr (h.union_docs17 hn hne hr) t4
        have hsn : n ≤ buf'.length := by dsimp only [Pool.init] at t2; omega
        have hdoc : ∀ d ∈ buf'.take n, ∃ c, (d, c) ∈ C := fun d hd => by obtain ⟨c, hc, _⟩ := t4.sound d hd; exact ⟨c, hc⟩
        have b := h.best t4
        have hno : ¬ ∃ t ∈ completeTerms q, KeptTerm C t := fun hc => (h.keptPfx_ne hn).mpr hc hne
        have hw := wf_scores (wf_init hs hb) t2
        constructor
        · rintro ⟨d, c, ⟨x1, _, x2, x3, x4⟩, x5⟩
          have hm := (best_mem b (d, c)).mpr ⟨x1, ⟨x2, x3.resolve_left hno⟩, x4⟩
          obtain ⟨d', hd', he⟩ := List.mem_map.mp hm
          have he : d' = d := congrArg Prod.fst he
          subst he
          exact Base.extract_lost17 h hx.base hw hsn hdoc ⟨_, hd', c, x1, x5⟩
        · intro hnl
          refine ⟨_, b, Base.extract_shows17L h hx.base hx.dict hx.built hw (holds_scores (Pool.Holds.init _) _) hsn ?_⟩
          intro d hd
          obtain ⟨c, hc⟩ := hdoc d hd
          refine ⟨c, hc, fun hl => ?_⟩
          obtain ⟨y1, y2, y3⟩ := (best_mem b (d, c)).mp (by rw [← h.rowOf hc]; exact List.mem_map.mpr ⟨d, hd, rfl⟩)
          exact hnl ⟨d, c, ⟨y1, by obtain ⟨z, z1, z2⟩ := y2.2; exact ⟨z, ⟨(d, c), y1, z1⟩, z2⟩, y2.1, Or.inr y2.2, y3⟩, hl⟩
      · rw [if_neg (by unfold keptPfx at hne; simpa using hne)]
        constructor
        · rintro ⟨d, c, ⟨x1, _, x2, x3, x4⟩, x5⟩
          have key := withDocs_spec (std := std) hx.inverted hne h.keptPfx_in (docsOf_sorted F _) (h.mem_docsOf17 hne)
            (fun I it => x.conjLoop I ⟨r.b + 1, r.e + 1⟩ k (x.inverted.numDocs + 1) it s.pool.init.scores s.compl s.sizes 0)
            (fun o => o = .error .oob)
            (by
              intro σ I it he
              obtain ⟨A, B, hR⟩ := List.append_of_mem ((h.docsOf_iff17 hn hne d).mpr ⟨c, x1, x2⟩)
              have hb := (h.before_iff17 hn hne hr hR k).mp x4
              have hall : ∀ e ∈ docsOf F (keptPfx F (completeTerms q)), (∃ c, (e, c) ∈ C ∧ LastCompletion C 16 c) ∨ x.toBase.Loads e (F.forward.getD e []) := by
                intro e he
                obtain ⟨c, hc, _⟩ := (h.docsOf_iff17 hn hne e).mp he
                by_cases hlc : LastCompletion C 16 c
                · exact Or.inl ⟨c, hc, hlc⟩
                · exact Or.inr ((h.loads17 hx.base hc).1 hlc)
              have hlen := docsOf_length F (keptPfx F (completeTerms q))
              rw [hR] at he hall hlen
              exact Index2.conjLoop_lost (fun d => F.forward.getD d []) ⟨r.b + 1, r.e + 1⟩ k hk' (lost := fun e => ∃ c, (e, c) ∈ C ∧ LastCompletion C 16 c)
                (fun e ⟨c, hc, hl⟩ => (h.loads17 hx.base hc).2 hl) A d B (x.inverted.numDocs + 1) it s.pool.init.scores s.compl s.sizes 0 he
                (fun e he => hall e (by simp [he])) ⟨c, x1, x5⟩ (by rw [Nat.zero_add]; exact hb) (by rw [hx.inverted.docs]; omega) hs.scores hs.shape)
          unfold keptPfx at key
          rw [key]; rfl
        · intro hnl
          have key := withDocs_spec (std := std) hx.inverted hne h.keptPfx_in (docsOf_sorted F _) (h.mem_docsOf17 hne)
            (fun I it => x.conjLoop I ⟨r.b + 1, r.e + 1⟩ k (x.inverted.numDocs + 1) it s.pool.init.scores s.compl s.sizes 0)
            (fun o => ∃ scores' compl' sizes' n', o = .ok (scores', compl', sizes', n') ∧ scores'.length = s.pool.scores.length ∧ n' ≤ k ∧
              IsTopK (Doc C (ConjKept C (completeTerms q) (lastTerm q))) k (scores'.take n') ∧ Shape compl' sizes' ∧
              Rows compl' sizes' ((scores'.take n').map (fun d => F.forward.getD d [])))
            (by
              intro σ I it he
              obtain ⟨scores', compl', sizes', n', t1, t2, t3, t4⟩ := Index2.conjLoop_loads (x := x) (fun d => F.forward.getD d []) ⟨r.b + 1, r.e + 1⟩ k
                hk' (docsOf F (keptPfx F (completeTerms q))) (x.inverted.numDocs + 1) it s.pool.init.scores s.compl s.sizes 0 [] he
                (by
                  intro A d B hR hA
                  rw [Nat.zero_add] at hA
                  obtain ⟨c, hc, hct⟩ := (h.docsOf_iff17 hn hne d).mp (by rw [hR]; simp)
                  refine (h.loads17 hx.base hc).1 (fun hl => hnl ⟨d, c, ⟨hc, hreach, hct, Or.inl ((h.keptPfx_ne hn).mp hne), ?_⟩, hl⟩)
                  exact (h.before_iff17 hn hne hr hR k).mpr hA)
                (by rw [hx.inverted.docs]; have := docsOf_length F (keptPfx F (completeTerms q)); omega) hk hs.scores hs.shape Rows.nil rfl
              obtain ⟨t5, t6⟩ := t2.topk (docsOf_sorted F _) (h.conj_docs17 hn hne hr)
              have t7 := t2.taken
              rw [List.take_zero, List.nil_append] at t7
              rw [List.nil_append, ← t7] at t4
              exact ⟨scores', compl', sizes', n', t1, t2.length, t6, t5, t3, t4⟩)
          obtain ⟨scores', compl', sizes', n', t1, t2, t3, t4, t5, t6⟩ := key
          unfold keptPfx at t1
          rw [t1, M.ok_bind]
          dsimp only
          have hw : Scratch.WF { s with pool := { s.pool.init with scores := scores' }, dbuf := buf, compl := compl', sizes := sizes' } :=
            ⟨t2.trans hs.scores, hs.data, hb.trans hs.dbuf, hs.cbuf, t5⟩
          refine h.outcome17 hn t4 hw hx.built ?_
          have := Base.strings_lossy (x := x.toBase) hx.dict
            (s := { s with pool := { s.pool.init with scores := scores' }, dbuf := buf, compl := compl', sizes := sizes' })
            (holds_scores (Pool.Holds.init _) _) hs.data t6 (n := n') (docs := scores'.take n') (by simp; omega) rfl (by dsimp only; omega)
            (by
              intro c hc
              obtain ⟨d, hd, rfl⟩ := List.mem_map.mp hc
              obtain ⟨c, hc, _⟩ := t4.sound d hd
              exact h.idsIn hc)
          exact this

/-! ## Building -/

theorem Base.build_both (h17 : F.terms.length % 17 = 0) (hc17 : C.length % 17 = 0) (h0 : KeptDoc C) (mem : Nat → W) :
    ∃ x, Base.build F mem = .ok x ∧ x.Rep17 F.mapped ∧ Lossy x.dict F.terms ∧ FcDict.build F.terms = .ok x.dict := by
  obtain ⟨dict, e1, e2⟩ := Lossy.build h.validTerms h17 (h.terms_ne0 (by
    obtain ⟨r, hr, h1⟩ := h0
    exact ⟨r, List.mem_of_mem_take hr, h1⟩))
  obtain ⟨x, x1, x2, rfl⟩ := Base.build_lost' h e1 hc17 h0 mem
  exact ⟨x, x1, x2, e2, e1⟩

theorem Index2.build_both (h17 : F.terms.length % 17 = 0) (hc17 : C.length % 17 = 0) (h0 : KeptDoc C) (hmin : ∃ l ∈ F.inverted, 0 ∉ l) (mem : Nat → W) :
    ∃ x, Index2.build F mem = .ok x ∧ x.RepB F := by
  obtain ⟨ib, b1, b2, b3⟩ := InvBuilder.build_spec h.invLists
  obtain ⟨ii, b4, b5⟩ := b3 (mem 4)
  obtain ⟨mn, m1, m2⟩ := h.minimal_build hmin (mem 2) (mem 3)
  obtain ⟨x, x1, x2, x3, x4⟩ := Base.build_both h h17 hc17 h0 mem
  refine ⟨⟨x, mn, ii⟩, ?_, ⟨x2, x3, x4, m2, b5⟩⟩
  unfold Index2.build
  rw [b1, M.ok_bind, x1, M.ok_bind, b2, m1, M.ok_bind, b4, M.ok_bind]

theorem Index3.build_both (h17 : F.terms.length % 17 = 0) (hc17 : C.length % 17 = 0) (h0 : KeptDoc C) (mem : Nat → W) :
    ∃ x, Index3.build F mem = .ok x ∧ x.RepB F := by
  obtain ⟨ib, b1, b2, b3⟩ := InvBuilder.build_spec h.invLists
  obtain ⟨ii, b4, b5⟩ := b3 (mem 4)
  obtain ⟨x, x1, x2, x3, x4⟩ := Base.build_both h h17 hc17 h0 mem
  refine ⟨⟨x, ii⟩, ?_, ⟨x2, x3, x4, b5⟩⟩
  unfold Index3.build
  rw [b1, M.ok_bind, x1, M.ok_bind, b4, M.ok_bind]

theorem Index4.build_both (h17 : F.terms.length % 17 = 0) (hc17 : C.length % 17 = 0) (h0 : KeptDoc C) (std : StdLib) (m : Nat) (mem : Nat → W) :
    ∃ x docss, Index4.build std m F mem = .ok x ∧ x.RepB m F docss := by
  obtain ⟨ib, b1, b2, b3⟩ := BlkBuilder.build_spec h.blkLists std m
  obtain ⟨ii, docss, b4, b5⟩ := b3 (fun i => mem (7 + i))
  obtain ⟨x, x1, x2, x3, x4⟩ := Base.build_both h h17 hc17 h0 mem
  refine ⟨⟨x, ii⟩, docss, ?_, ⟨x2, x3, x4, b5⟩⟩
  unfold Index4.build
  rw [b1, M.ok_bind, x1, M.ok_bind, b4, M.ok_bind]

end
end AC
