import Verif.Proofs.Queries
/-!
# Prefix queries
-/
namespace AC
open Spec

theorem sortedPrefix_topk {L : List Nat} (hn : L.Nodup) {k : Nat} {E : List Nat} (h : IsSortedPrefix L k E) : IsTopK (fun d => d ∈ L) k E := by
  obtain ⟨S, h1, h2, rfl⟩ := h
  have hs : S.Pairwise (· < ·) := by
    have hnS : S.Nodup := h1.nodup_iff.mpr hn
    exact (h2.and hnS).imp (fun ⟨a, b⟩ => by omega)
  refine ⟨hs.sublist (List.take_sublist _ _), fun x hx => h1.mem_iff.mp (List.mem_of_mem_take hx), by simp; omega, ?_⟩
  intro x hx hnot
  have hxS := h1.mem_iff.mpr hx
  have hd : x ∈ S.drop k := by
    rw [← List.take_append_drop k S, List.mem_append] at hxS
    exact hxS.resolve_left hnot
  have hlen : k ≤ S.length := by
    apply Classical.byContradiction
    intro hc
    rw [List.drop_eq_nil_of_le (by omega)] at hd
    simp at hd
  refine ⟨by simp; omega, ?_⟩
  intro e he
  have := hs
  rw [← List.take_append_drop k S, List.pairwise_append] at this
  exact this.2.2 e he x hd

section
variable {C : Coll} {F : Files} (h : Ready C F)
include h

theorem Ready.slice_docs {P : List Str → Prop} {b e : Nat} (hP : ∀ i (hi : i < C.length), (b ≤ i ∧ i < e) ↔ P C[i].2) (d : Nat) :
    d ∈ ((F.mapped.map (·.1)).drop b).take (e - b) ↔ Doc C P d := by
  rw [h.fst_mapped]
  constructor
  · intro hd
    obtain ⟨i, hi, he⟩ := List.getElem_of_mem hd
    have hi' : b + i < C.length ∧ i < e - b := by simp at hi; omega
    refine ⟨C[b + i].2, ?_, (hP (b + i) hi'.1).mp (by omega)⟩
    have : d = C[b + i].1 := by rw [← he]; simp
    rw [this]; exact List.getElem_mem _
  · rintro ⟨c, hc, hp⟩
    obtain ⟨i, hi, he⟩ := List.getElem_of_mem hc
    have hbe := (hP i hi).mpr (by rw [he]; exact hp)
    have : ((C.map (·.1)).drop b)[i - b]? = some d := by
      rw [List.getElem?_drop, show b + (i - b) = i by omega, List.getElem?_map, List.getElem?_eq_getElem hi, he]; rfl
    apply List.mem_of_getElem? (i := i - b)
    rw [List.getElem?_take, if_pos (by omega), this]

theorem Ready.topk_docs (std : StdLib) {u : UL} (hu : u.Rep (F.mapped.map (·.1))) {P : List Str → Prop} {b e k : Nat} (hbe : b < e)
    (he : e ≤ C.length) (hP : ∀ i (hi : i < C.length), (b ≤ i ∧ i < e) ↔ P C[i].2) (hk : 1 ≤ k) {buf : List Nat} (hk' : min k (e - b) ≤ buf.length) :
    ∃ buf' n, UL.topk std u b e k false buf = .ok (buf', n) ∧ buf'.length = buf.length ∧ n ≤ buf.length ∧
      IsTopK (Doc C P) k (buf'.take n) := by
  obtain ⟨buf', t1, t2, t3⟩ := UL.topk_spec std hu (Nat.le_of_lt hbe) (by rw [List.length_map, h.length_mapped]; exact he) (Or.inl hk)
    hk'
  refine ⟨buf', _, t1, t2, by omega, IsTopK_congr (h.slice_docs hP) (sortedPrefix_topk ?_ t3)⟩
  have hn : (F.mapped.map (·.1)).Nodup := by rw [h.fst_mapped]; exact h.coll.docs
  exact hn.sublist ((List.take_sublist _ _).trans (List.drop_sublist _ _))

theorem Ready.match_iff {complete : List Str} (hc : ∀ t ∈ complete, t ∈ F.terms) {last : Str} {b e : Nat} (hr : LastRange C F last b e)
    {c : List Str} (hcc : ∀ t ∈ c, t ∈ F.terms) :
    MatchIds (complete.map (rankOf F.terms)) (b + 1) (e + 1) (c.map (rankOf F.terms)) ↔ PrefixFound C complete last c := by
  constructor
  · rintro ⟨n, h1, h2, t, ht⟩
    obtain ⟨l12, l3, rfl, e1, e2⟩ := List.map_eq_append_iff.mp ht.symm
    obtain ⟨l1, l2, rfl, e3, e4⟩ := List.map_eq_append_iff.mp e1
    have hl1 : l1 = complete := map_rankOf_inj (fun t ht => hcc t (by simp [ht])) hc e3
    subst hl1
    obtain ⟨x, rfl, hx⟩ : ∃ x, l2 = [x] ∧ rankOf F.terms x = n := by
      cases l2 with
      | nil => simp at e4
      | cons x xs =>
          cases xs with
          | nil => exact ⟨x, rfl, by simpa using e4⟩
          | cons y ys => simp at e4
    refine ⟨x, (hr.rank (hcc x (by simp))).mp (by omega), List.prefix_append _ _⟩
  · rintro ⟨x, h1, t, rfl⟩
    have := (hr.rank (hcc x (by simp))).mpr h1
    exact ⟨rankOf F.terms x, this.1, this.2, t.map (rankOf F.terms), by simp⟩

theorem Ready.getElem_snd {i : Nat} (hi : i < C.length) :
    (F.mapped.map (·.2))[i]'(by rw [List.length_map, h.length_mapped]; exact hi) = C[i].2.map (rankOf F.terms) := by
  have := h.snd_mapped
  have h2 : (F.mapped.map (·.2))[i]? = some (C[i].2.map (rankOf F.terms)) := by
    rw [this, List.getElem?_map, List.getElem?_eq_getElem hi]; rfl
  exact (List.getElem?_eq_some_iff.mp h2).2

theorem Ready.pfx_small {complete : List Str} (hc : ∀ t ∈ complete, t ∈ F.terms) :
    ∀ x ∈ complete.map (rankOf F.terms), 0 < x ∧ x < 2 ^ 32 := by
  intro x hx
  obtain ⟨t, ht, rfl⟩ := List.mem_map.mp hx
  have h1 := rankOf_le (hc t ht)
  have h2 := h.termCount_le
  have h3 := h.coll.size
  exact ⟨rankOf_pos t, by omega⟩

theorem Ready.not_prefixFound {complete : List Str} {last : Str} (hu : ∃ t ∈ complete, ¬ IsTerm C t) : ∀ r ∈ C, ¬ PrefixFound C complete last r.2 := by
  obtain ⟨t, ht, hn⟩ := hu
  rintro r hr ⟨x, _, s, hs⟩
  exact hn ⟨r, hr, by rw [← hs]; simp [ht]⟩

theorem Ready.not_prefixFound' {complete : List Str} {last : Str} (hu : ∀ x, IsTerm C x → ¬ Reaches C last x) :
    ∀ r ∈ C, ¬ PrefixFound C complete last r.2 := by
  rintro r hr ⟨x, hx, s, hs⟩
  exact hu x ⟨r, hr, by rw [← hs]; simp⟩ hx

end

theorem wf_init {s : Scratch} (hs : s.WF) {buf : Str} (hb : buf.length = s.dbuf.length) :
    Scratch.WF { s with pool := s.pool.init, dbuf := buf } := ⟨hs.scores, hs.data, hb.trans hs.dbuf, hs.cbuf, hs.shape⟩

theorem wf_scores {s : Scratch} (hs : s.WF) {scores : List Nat} (hb : scores.length = s.pool.scores.length) :
    Scratch.WF { s with pool := { s.pool with scores := scores } } := ⟨hb.trans hs.scores, hs.data, hs.dbuf, hs.cbuf, hs.shape⟩

theorem holds_scores {p : Pool} (h : p.Holds []) (scores : List Nat) : Pool.Holds { p with scores := scores } [] := ⟨h.offsets, h.fits, h.data⟩

theorem Index1.extract_outcome {C : Coll} {F : Files} (h : Ready C F) {x : Index1} (hx : x.Rep F) {P : List Str → Prop} {k n : Nat} {s : Scratch}
    (hs : s.WF) (hp : s.pool.Holds []) (hn : n ≤ s.pool.scores.length) (ht : IsTopK (Doc C P) k (s.pool.scores.take n)) :
    Outcome C F.terms P k (x.extract n s) := by
  refine h.outcome ht hs hx.built (Index1.extract_spec hx.dict hx.forward hp hs.data (by simp; omega) rfl ?_)
  intro d hd
  obtain ⟨c, hc, _⟩ := ht.sound d hd
  exact ⟨h.lt_forward hc, h.idsIn hc⟩

theorem isInvalid_false {r : Range} (h1 : r.b ≤ r.e) (h2 : r.e < 2 ^ 32) : r.isInvalid = false := by
  simp only [Range.isInvalid, NOT_FOUND, Bool.or_eq_false_iff, beq_eq_false_iff_ne, decide_eq_false_iff_not]
  omega

/-- How a prefix search ends: nothing matches, or the matching completions are those at positions from `b` to `e`, and the top-k query on their
document ids remains to be made -/
def PrefixRun (C : Coll) (P : List Str → Prop) (u : UL) (extract : Nat → Scratch → M Scratch) (std : StdLib) (k : Nat) (o : M Scratch) : Prop :=
  ∃ s, s.WF ∧ s.pool.Holds [] ∧ ((o = .ok s ∧ ∀ r ∈ C, ¬ P r.2) ∨
    ∃ b e, b < e ∧ e ≤ C.length ∧ (∀ i (hi : i < C.length), (b ≤ i ∧ i < e) ↔ P C[i].2) ∧
      o = (UL.topk std u b e k false s.pool.scores >>= fun p => extract p.2 { s with pool := { s.pool with scores := p.1 } }))

theorem Index1.prefix_run (std : StdLib) {C : Coll} {F : Files} (h : Ready C F) {x : Index1} (hx : x.Rep F) {q : Str} (hq : IsText q) (k : Nat)
    {s : Scratch} (hs : s.WF) :
    PrefixRun C (PrefixFound C (completeTerms q) (lastTerm q)) x.docs x.extract std k (x.prefixTopk std q k s) := by
  have ha := analyse_spec h hx.dict hq true hs.dbuf
  unfold Index1.prefixTopk
  generalize analyse x.dict q true s = a at ha
  cases ha with
  | unknown buf hb hm hu => exact ⟨_, wf_init hs hb, Pool.Holds.init _, Or.inl ⟨rfl, h.not_prefixFound hu⟩⟩
  | nothing buf hb hu => exact ⟨_, wf_init hs hb, Pool.Holds.init _, Or.inl ⟨rfl, h.not_prefixFound' hu⟩⟩
  | some buf hb r hr hk2 =>
      have hall := hk2 rfl
      refine ⟨_, wf_init hs hb, Pool.Holds.init _, ?_⟩
      rw [M.ok_bind, List.filter_eq_self.mpr (by simpa using hall)]
      dsimp only
      have hsz : F.terms.length < 2 ^ 30 := by have := h.termCount_le; have := h.coll.size; omega
      have hle := hr.le
      have hlt := hr.lt
      obtain ⟨r', l1, l2⟩ := hx.trie ((completeTerms q).map (rankOf F.terms)) (r.b + 1) (r.e + 1) (h.pfx_small hall) (by omega) (by omega)
        (by omega)
      rw [l1, M.ok_bind]
      rcases l2 with ⟨e1, e2⟩ | ⟨e1, e2, e3⟩
      · subst e1
        rw [if_pos (by decide)]
        refine Or.inl ⟨rfl, ?_⟩
        intro r' hr' hp
        refine e2 (r'.2.map (rankOf F.terms)) ?_ ((h.match_iff hall hr (h.mem hr')).mpr hp)
        rw [h.snd_mapped]
        exact List.mem_map.mpr ⟨r', hr', rfl⟩
      · have hlen : (F.mapped.map (·.2)).length = C.length := by rw [List.length_map, h.length_mapped]
        have hcl : C.length < 2 ^ 30 := by have := h.count_le; have := h.coll.size; omega
        rw [hlen] at e2
        rw [if_neg (by simp [isInvalid_false (Nat.le_of_lt e1) (by omega)])]
        refine Or.inr ⟨r'.b, r'.e, e1, e2, ?_, rfl⟩
        intro i hi
        rw [e3 i (by rw [hlen]; exact hi), h.getElem_snd hi]
        exact h.match_iff hall hr (h.mem (List.getElem_mem hi))

/-- no more than `n` completions have property `P` -/
def AtMost (C : Coll) (P : List Str → Prop) (n : Nat) : Prop :=
  ∀ L : Coll, L.Nodup → (∀ r ∈ L, r ∈ C ∧ P r.2) → L.length ≤ n

theorem range_length {C : Coll} (hd : (C.map (·.1)).Nodup) {P : List Str → Prop} {b e : Nat} (he : e ≤ C.length)
    (hP : ∀ i (hi : i < C.length), (b ≤ i ∧ i < e) ↔ P C[i].2) (n : Nat) : AtMost C P n ↔ e - b ≤ n := by
  have hn : C.Nodup := List.Pairwise.of_map (·.1) (fun a b h => fun hab => h (by rw [hab])) hd
  have hmem : ∀ r, r ∈ (C.drop b).take (e - b) ↔ r ∈ C ∧ P r.2 := by
    intro r
    constructor
    · intro hr
      obtain ⟨i, hi, rfl⟩ := List.getElem_of_mem hr
      have hi' : b + i < C.length ∧ i < e - b := by simp at hi; omega
      have : ((C.drop b).take (e - b))[i] = C[b + i] := by simp
      rw [this]
      exact ⟨List.getElem_mem _, (hP (b + i) hi'.1).mp (by omega)⟩
    · rintro ⟨hr, hp⟩
      obtain ⟨i, hi, rfl⟩ := List.getElem_of_mem hr
      have hbe := (hP i hi).mpr hp
      apply List.mem_of_getElem? (i := i - b)
      rw [List.getElem?_take, if_pos (by omega), List.getElem?_drop, show b + (i - b) = i by omega, List.getElem?_eq_getElem hi]
  have hlen : ((C.drop b).take (e - b)).length = e - b := by simp; omega
  constructor
  · intro h
    have := h _ (hn.sublist ((List.take_sublist _ _).trans (List.drop_sublist _ _))) (fun r hr => (hmem r).mp hr)
    omega
  · intro h L hL hLP
    have := nodup_subset_length' hL (fun r hr => (hmem r).mpr (hLP r hr))
    omega

/-- the top-k query stays in the buffer -/
theorem PrefixRun.outcome {std : StdLib} {C : Coll} {F : Files} (h : Ready C F) {P : List Str → Prop} {u : UL} (hu : u.Rep (F.mapped.map (·.1)))
    {d : FC} (hd : FcDict.build F.terms = .ok d) {extract : Nat → Scratch → M Scratch} {k : Nat} {o : M Scratch} (hr : PrefixRun C P u extract std k o)
    (hk : 1 ≤ k) (hk' : k ≤ MAX_K ∨ AtMost C P MAX_K)
    (hext : ∀ s n, s.WF → s.pool.Holds [] → n ≤ s.pool.scores.length → IsTopK (Doc C P) k (s.pool.scores.take n) →
      Outcome C F.terms P k (extract n s)) : Outcome C F.terms P k o := by
  obtain ⟨s, h1, h2, ⟨rfl, h4⟩ | ⟨b, e, e1, e2, e3, rfl⟩⟩ := hr
  · exact outcome_none h1 h2 hd h4
  · obtain ⟨buf', n, t1, t2, t3, t4⟩ := h.topk_docs std hu e1 e2 e3 hk (buf := s.pool.scores) (by
      rw [h1.scores]
      rcases hk' with hk' | hk'
      · omega
      · have := (range_length h.coll.docs e2 e3 MAX_K).mp hk'; omega)
    rw [t1, M.ok_bind]
    exact hext _ _ (wf_scores h1 t2) (holds_scores h2 _) (by dsimp only; omega) t4

/-- the top-k query leaves the buffer -/
theorem PrefixRun.overflow {std : StdLib} {C : Coll} {F : Files} (h : Ready C F) {P : List Str → Prop} {u : UL} (hu : u.Rep (F.mapped.map (·.1)))
    {extract : Nat → Scratch → M Scratch} {k : Nat} {o : M Scratch} (hr : PrefixRun C P u extract std k o)
    (hk : k = 0 ∨ MAX_K < k) (hm : ¬ AtMost C P MAX_K) : o = .error .oob := by
  obtain ⟨s, h1, h2, ⟨rfl, h4⟩ | ⟨b, e, e1, e2, e3, rfl⟩⟩ := hr
  · exfalso
    apply hm
    intro L _ hL
    cases L with
    | nil => exact Nat.zero_le _
    | cons r L => exact absurd (hL r (by simp)).2 (h4 r (hL r (by simp)).1)
  · rw [range_length h.coll.docs e2 e3 MAX_K] at hm
    rw [UL.topk_overflow std hu (Nat.le_of_lt e1) (by rw [List.length_map, h.length_mapped]; exact e2) (by rw [h1.scores]; exact hk)
      (by rw [h1.scores]; omega)]
    rfl

theorem Index1.prefix_spec' (std : StdLib) {C : Coll} {F : Files} (h : Ready C F) {x : Index1} (hx : x.Rep F) {q : Str} (hq : IsText q) {k : Nat}
    (hk : 1 ≤ k) (hk' : k ≤ MAX_K ∨ AtMost C (PrefixFound C (completeTerms q) (lastTerm q)) MAX_K) {s : Scratch} (hs : s.WF) :
    Outcome C F.terms (PrefixFound C (completeTerms q) (lastTerm q)) k (x.prefixTopk std q k s) :=
  (Index1.prefix_run std h hx hq k hs).outcome h hx.docs hx.built hk hk' (fun _ _ h1 h2 h3 h4 => Index1.extract_outcome h hx h1 h2 h3 h4)

theorem Index1.prefix_spec (std : StdLib) {C : Coll} {F : Files} (h : Ready C F) {x : Index1} (hx : x.Rep F) {q : Str} (hq : IsText q) {k : Nat}
    (hk : 1 ≤ k) (hk' : k ≤ MAX_K) {s : Scratch} (hs : s.WF) :
    Outcome C F.terms (PrefixFound C (completeTerms q) (lastTerm q)) k (x.prefixTopk std q k s) :=
  Index1.prefix_spec' std h hx hq hk (Or.inl hk') hs

/-! ## Types 2, 3 and 4 -/

theorem Base.extract_loads {x : Base} {L : List Str} (R : FC.Rep Elem.byte MAX_CHARS x.dict L)
    (cOf : Nat → Ids) {s : Scratch} (hs : s.WF) (hp : s.pool.Holds []) {n : Nat} (hn : n ≤ s.pool.scores.length)
    (hd : ∀ d ∈ s.pool.scores.take n, x.Loads d (cOf d) ∧ IdsIn L (cOf d)) :
    ∃ s1, s1.WF ∧ Decoded x.dict L s1 (s.pool.scores.take n) ((s.pool.scores.take n).map cOf) (x.extract n s) := by
  have h15 := hs.scores
  obtain ⟨compl, sizes, a1, a2, a3⟩ := Base.extractCompletions_loads cOf (scores := s.pool.scores) n 0 s.compl s.sizes [] (by omega) (by omega)
    (by intro d hd'; rw [List.drop_zero] at hd'; exact (hd d hd').1) hs.shape Rows.nil rfl
  rw [List.nil_append, List.drop_zero] at a3
  refine ⟨{ s with compl := compl, sizes := sizes }, ⟨hs.scores, hs.data, hs.dbuf, hs.cbuf, a2⟩, ?_⟩
  unfold Base.extract
  rw [a1, M.ok_bind]
  dsimp only
  have := Base.strings_spec (x := x) R (s := { s with compl := compl, sizes := sizes }) hp hs.data a3 a2 (n := n) (docs := s.pool.scores.take n)
    (by simp; omega) rfl hn (by
      intro c hc
      obtain ⟨d, hd', rfl⟩ := List.mem_map.mp hc
      exact (hd d hd').2)
  exact this

theorem Base.extract_spec {x : Base} {mapped : List (Nat × Ids)} (h : x.Rep mapped) {L : List Str} (R : FC.Rep Elem.byte MAX_CHARS x.dict L)
    (cOf : Nat → Ids) {s : Scratch} (hs : s.WF) (hp : s.pool.Holds []) {n : Nat} (hn : n ≤ s.pool.scores.length)
    (hd : ∀ d ∈ s.pool.scores.take n, (d, cOf d) ∈ mapped ∧ IdsIn L (cOf d)) :
    ∃ s1, s1.WF ∧ Decoded x.dict L s1 (s.pool.scores.take n) ((s.pool.scores.take n).map cOf) (x.extract n s) :=
  Base.extract_loads R cOf hs hp hn (fun d hd' => ⟨h.loads (hd d hd').1, (hd d hd').2⟩)

theorem Base.extract_shows {C : Coll} {F : Files} (h : Ready C F) {x : Base} (hx : x.Rep F.mapped) (R : FC.Rep Elem.byte MAX_CHARS x.dict F.terms)
    (hdict : FcDict.build F.terms = .ok x.dict) {n : Nat} {s : Scratch}
    (hs : s.WF) (hp : s.pool.Holds []) (hn : n ≤ s.pool.scores.length) (ht : ∀ d ∈ s.pool.scores.take n, ∃ c, (d, c) ∈ C) :
    Shows F.terms ((s.pool.scores.take n).map (fun d => (d, (F.forward.getD d []).map (fun t => F.terms.getD (t - 1) [])))) (x.extract n s) := by
  obtain ⟨s1, w1, w2⟩ := Base.extract_spec hx R (fun d => F.forward.getD d []) hs hp hn (by
    intro d hd
    obtain ⟨c, hc⟩ := ht d hd
    exact ⟨h.mapped_mem hc, h.idsIn hc⟩)
  exact h.shows ht w1 hdict w2

theorem Base.extract_outcome {C : Coll} {F : Files} (h : Ready C F) {x : Base} (hx : x.Rep F.mapped) (R : FC.Rep Elem.byte MAX_CHARS x.dict F.terms)
    (hdict : FcDict.build F.terms = .ok x.dict) {P : List Str → Prop} {k n : Nat} {s : Scratch}
    (hs : s.WF) (hp : s.pool.Holds []) (hn : n ≤ s.pool.scores.length) (ht : IsTopK (Doc C P) k (s.pool.scores.take n)) :
    Outcome C F.terms P k (x.extract n s) :=
  ⟨_, h.best ht, Base.extract_shows h hx R hdict hs hp hn (fun d hd => by obtain ⟨c, hc, _⟩ := ht.sound d hd; exact ⟨c, hc⟩)⟩

theorem Ready.isFirstCompletion {C : Coll} {F : Files} (h : Ready C F) {i : Nat} (hi : i < C.length) : IsFirstCompletion C C[i].2 ↔ i = 0 := by
  have hsort := h.coll.sorted
  have h0 : C.head? = some C[0] := by cases C with
    | nil => simp at hi
    | cons a l => rfl
  unfold IsFirstCompletion
  rw [h0]
  constructor
  · rintro ⟨d, hd⟩
    rcases Nat.eq_zero_or_pos i with hz | hz
    · exact hz
    · exfalso
      have := (List.pairwise_iff_getElem.mp hsort) 0 i (by simp; omega) (by simpa using hi) hz
      simp only [List.getElem_map] at this
      have he : C[0].2 = C[i].2 := by rw [Option.some.inj hd]
      rw [he] at this
      exact List.lt_irrefl _ this
  · rintro rfl
    exact ⟨C[0].1, rfl⟩

theorem Ready.firstReached {C : Coll} {F : Files} (h : Ready C F) {last : Str} {b e : Nat} (hr : LastRange C F last b e) (y : Str) :
    FirstReached C last y ↔ y ∈ F.terms ∧ rankOf F.terms y = b + 1 := by
  have hb : b < F.terms.length := by have := hr.le; have := hr.lt; omega
  have hs := h.files.terms
  have hrb : rankOf F.terms F.terms[b] = b + 1 := rankOf_getElem hs hb
  have hreach : Reaches C last F.terms[b] := (hr.iff b hb).mp ⟨Nat.le_refl _, hr.le⟩
  constructor
  · rintro ⟨h1, h2, h3⟩
    have hy := (h.isTerm y).mp h1
    refine ⟨hy, ?_⟩
    have h4 := (hr.rank hy).mpr h2
    have h5 := h3 F.terms[b] ((h.isTerm _).mpr (List.getElem_mem hb)) hreach
    rw [← rankOf_lt hs (List.getElem_mem hb) hy, hrb] at h5
    omega
  · rintro ⟨h1, h2⟩
    have : y = F.terms[b] := rankOf_inj h1 (List.getElem_mem hb) (by rw [h2, hrb])
    subst this
    refine ⟨(h.isTerm _).mpr h1, hreach, ?_⟩
    intro z hz hzr hlt
    have hz' := (h.isTerm z).mp hz
    rw [← rankOf_lt hs hz' h1, h2] at hlt
    have := (hr.rank hz').mpr hzr
    omega

/-- the matches of the search in the dictionary of completions, in terms of the collection -/
theorem Ready.prefix2_iff {C : Coll} {F : Files} (h : Ready C F) {complete : List Str} (hall : ∀ t ∈ complete, t ∈ F.terms) {last : Str} {b e : Nat}
    (hr : LastRange C F last b e) : ∀ i (hi : i < C.length), (MatchIds (complete.map (rankOf F.terms)) (b + 1) (e + 1) (C[i].2.map (rankOf F.terms)) ∧
      ¬ (i = 0 ∧ C[i].2.map (rankOf F.terms) ≠ complete.map (rankOf F.terms) ++ [b + 1])) ↔ PrefixFound2 C complete last C[i].2 := by
  have hle := hr.le
  have hlt := hr.lt
  intro i hi
  unfold PrefixFound2
  rw [h.match_iff hall hr (h.mem (List.getElem_mem hi)), h.isFirstCompletion hi]
  apply and_congr_right
  intro _
  have hb' : b < F.terms.length := by omega
  have hrb : rankOf F.terms F.terms[b] = b + 1 := rankOf_getElem h.files.terms hb'
  constructor
  · intro hn h0
    have he : C[i].2.map (rankOf F.terms) = complete.map (rankOf F.terms) ++ [b + 1] :=
      Classical.byContradiction (fun hc => hn ⟨h0, hc⟩)
    refine ⟨F.terms[b], (h.firstReached hr _).mpr ⟨List.getElem_mem hb', hrb⟩, ?_⟩
    apply map_rankOf_inj (h.mem (List.getElem_mem hi)) ?_ ?_
    · intro t ht
      rcases List.mem_append.mp ht with ht | ht
      · exact hall t ht
      · simp only [List.mem_singleton] at ht; subst ht; exact List.getElem_mem hb'
    · rw [he]; simp [hrb]
  · rintro hf ⟨h0, hne⟩
    obtain ⟨y, h1, h2⟩ := hf h0
    apply hne
    rw [h2]; simp [((h.firstReached hr y).mp h1).2]

theorem Base.prefix_run (std : StdLib) {C : Coll} {F : Files} (h : Ready C F) {x : Base} (hx : x.Rep F.mapped)
    (R : FC.Rep Elem.byte MAX_CHARS x.dict F.terms) {q : Str} (hq : IsText q) (k : Nat) {s : Scratch} (hs : s.WF) :
    PrefixRun C (PrefixFound2 C (completeTerms q) (lastTerm q)) x.docs x.extract std k (x.prefixTopk std q k s) := by
  have ha := analyse_spec h R hq true hs.dbuf
  unfold Base.prefixTopk
  generalize analyse x.dict q true s = a at ha
  cases ha with
  | unknown buf hb hm hu =>
      exact ⟨_, wf_init hs hb, Pool.Holds.init _, Or.inl ⟨rfl, fun r hr hp => h.not_prefixFound hu r hr hp.1⟩⟩
  | nothing buf hb hu =>
      exact ⟨_, wf_init hs hb, Pool.Holds.init _, Or.inl ⟨rfl, fun r hr hp => h.not_prefixFound' hu r hr hp.1⟩⟩
  | some buf hb r hr hk2 =>
      have hall := hk2 rfl
      rw [M.ok_bind, List.filter_eq_self.mpr (by simpa using hall)]
      dsimp only
      have hsz : F.terms.length < 2 ^ 30 := by have := h.termCount_le; have := h.coll.size; omega
      have hle := hr.le
      have hlt := hr.lt
      have hlen : (F.mapped.map (·.2)).length = C.length := by rw [List.length_map, h.length_mapped]
      obtain ⟨r', pfx', cbuf, l1, l0, l2⟩ := IntDict.locatePrefix_exact h.validIds hx.completions
        (pfx := (completeTerms q).map (rankOf F.terms)) (show r.b + 1 ≤ r.e + 1 by omega) (by omega) s.cbuf (by rw [hs.cbuf]; decide)
      rw [l1, M.ok_bind]
      dsimp only
      have hw : Scratch.WF { s with pool := s.pool.init, dbuf := buf, cbuf := cbuf } :=
        ⟨hs.scores, hs.data, hb.trans hs.dbuf, l0.trans hs.cbuf, hs.shape⟩
      have hcond := h.prefix2_iff hall hr
      refine ⟨_, hw, Pool.Holds.init _, ?_⟩
      rcases l2 with ⟨e1, e2, e3⟩ | ⟨e1, e2, e3, e4⟩
      · subst e1
        rw [if_pos (by decide)]
        refine Or.inl ⟨rfl, ?_⟩
        intro r' hr' hp
        obtain ⟨i, hi, rfl⟩ := List.getElem_of_mem hr'
        obtain ⟨c1, c2⟩ := (hcond i hi).mpr hp
        have := e3 i (by rw [hlen]; exact hi)
        rw [h.getElem_snd hi] at this
        exact c2 (this c1)
      · have hcl : C.length < 2 ^ 30 := by have := h.count_le; have := h.coll.size; omega
        rw [hlen] at e2
        rw [if_neg (by simp [isInvalid_false (Nat.le_of_lt e1) (by omega)])]
        refine Or.inr ⟨r'.b, r'.e, e1, e2, ?_, rfl⟩
        intro i hi
        rw [e4 i (by rw [hlen]; exact hi), h.getElem_snd hi]
        exact hcond i hi

theorem Base.prefix_spec' (std : StdLib) {C : Coll} {F : Files} (h : Ready C F) {x : Base} (hx : x.Rep F.mapped)
    (R : FC.Rep Elem.byte MAX_CHARS x.dict F.terms) (hdict : FcDict.build F.terms = .ok x.dict) {q : Str} (hq : IsText q) {k : Nat} (hk : 1 ≤ k)
    (hk' : k ≤ MAX_K ∨ AtMost C (PrefixFound2 C (completeTerms q) (lastTerm q)) MAX_K) {s : Scratch} (hs : s.WF) :
    Outcome C F.terms (PrefixFound2 C (completeTerms q) (lastTerm q)) k (x.prefixTopk std q k s) :=
  (Base.prefix_run std h hx R hq k hs).outcome h hx.docs hdict hk hk' (fun _ _ h1 h2 h3 h4 => Base.extract_outcome h hx R hdict h1 h2 h3 h4)

theorem Base.prefix_spec (std : StdLib) {C : Coll} {F : Files} (h : Ready C F) {x : Base} (hx : x.Rep F.mapped)
    (R : FC.Rep Elem.byte MAX_CHARS x.dict F.terms) (hdict : FcDict.build F.terms = .ok x.dict) {q : Str} (hq : IsText q) {k : Nat} (hk : 1 ≤ k)
    (hk' : k ≤ MAX_K) {s : Scratch} (hs : s.WF) :
    Outcome C F.terms (PrefixFound2 C (completeTerms q) (lastTerm q)) k (x.prefixTopk std q k s) :=
  Base.prefix_spec' std h hx R hdict hq hk (Or.inl hk') hs

end AC
