import Verif.Proofs.LossyPrefix
import Verif.Proofs.BuildAll
import Verif.Proofs.Type4
/-!
# Types 2, 3 and 4 when the number of completions is a multiple of 17
-/
namespace AC
open Spec

/-- what the members common to types 2, 3 and 4 represent, for a number of completions that is a multiple of 17 -/
structure Base.Rep17 (x : Base) (mapped : List (Nat × Ids)) : Prop where
  mod : mapped.length % 17 = 0
  pos : 17 ≤ mapped.length
  completions : ∃ d, x.completions = { d with size := mapped.length } ∧ FC.Rep Elem.u32 64 d ((mapped.take (mapped.length - 16)).map (·.2))
  docs : x.docs.Rep ((mapped.take (mapped.length - 16)).map (·.1) ++ List.replicate 16 0)
  lexids : ∀ i (h : i < mapped.length), i < mapped.length - 16 → ∃ w, x.lexids.get (mapped[i]).1 = .ok w ∧ w.toNat = i
  lost : ∀ i (h : i < mapped.length), mapped.length - 16 ≤ i → ∃ w, x.lexids.get (mapped[i]).1 = .ok w ∧ mapped.length ≤ w.toNat

theorem FC.extractAt_size {E : Elem} {d : FC} {n : Nat} (k b : Nat) (out : List Nat) (base : Nat) :
    FC.extractAt E { d with size := n } k b out base = FC.extractAt E d k b out base := by
  have hl : ∀ (m cur : Nat) (o : List Nat) (b len : Nat), FC.extractLoop E { d with size := n } m cur o b len = FC.extractLoop E d m cur o b len := by
    intro m
    induction m with
    | zero => intros; rfl
    | succ m ih =>
        intro cur o b len
        simp only [FC.extractLoop, ih]
        rfl
  simp only [FC.extractAt, hl]
  rfl

/-- the completions that are kept can be loaded -/
theorem Base.Rep17.loads {x : Base} {mapped : List (Nat × Ids)} (h : x.Rep17 mapped) {d : Nat} {c : Ids}
    (hc : (d, c) ∈ mapped.take (mapped.length - 16)) : x.Loads d c := by
  intro compl sizes hs i hi
  obtain ⟨j, hj, e⟩ := List.getElem_of_mem hc
  rw [List.length_take] at hj
  rw [List.getElem_take] at e
  obtain ⟨w, w1, w2⟩ := h.lexids j (by omega) (by omega)
  rw [e] at w1
  obtain ⟨d', hd', R⟩ := h.completions
  have hil : i < compl.length := by rw [hs.count]; exact hi
  have hrow := hs.rows compl[i] (List.getElem_mem hil)
  obtain ⟨row, r1, r2, r3, r4⟩ := R.extract j (by simp; omega) compl[i] 0 (by rw [hrow]; decide)
  have hL : ((mapped.take (mapped.length - 16)).map (·.2))[j]'(by simp; omega) = c := by simp [e]
  rw [hL] at r1 r4
  refine ⟨row, ?_, by rw [r2, hrow], by simpa using r4⟩
  unfold Base.load
  rw [w1, M.ok_bind, rd_ok hil, M.ok_bind, w2, IntDict.extract, hd', FC.extractAt_size, r1, M.ok_bind]
  dsimp only
  rw [wr_ok hil]; rfl

/-- the others cannot: there is no such bucket -/
theorem Base.Rep17.load_lost {x : Base} {mapped : List (Nat × Ids)} (h : x.Rep17 mapped) {d : Nat} {c : Ids}
    (hc : (d, c) ∈ mapped.drop (mapped.length - 16)) (i : Nat) (compl : List Ids) : x.load d i compl = .error .oob := by
  obtain ⟨j, hj, e⟩ := List.getElem_of_mem hc
  rw [List.length_drop] at hj
  rw [List.getElem_drop] at e
  obtain ⟨w, w1, w2⟩ := h.lost (mapped.length - 16 + j) (by omega) (by omega)
  rw [e] at w1
  obtain ⟨d', hd', R⟩ := h.completions
  have hmod := h.mod
  have hpos := h.pos
  have hnb : d'.nBuckets = mapped.length / 17 := by
    have := R.nb
    simp only [List.length_map, List.length_take] at this
    omega
  unfold Base.load
  rw [w1, M.ok_bind]
  cases hr : rd compl i with
  | error e => rw [rd_err hr]; rfl
  | ok row =>
      rw [M.ok_bind, IntDict.extract, hd', FC.extractAt_size, FC.extractAt]
      have : d'.header (w.toNat / 17) = .error .oob := by
        apply error_of (header_oobOnly _ _)
        intro y hy
        unfold FC.header at hy
        obtain ⟨a, ha, hy⟩ := bind_ok hy
        obtain ⟨b, hb, hy⟩ := bind_ok hy
        unfold rd at hb
        unfold FC.nBuckets at hnb
        rw [List.getElem?_eq_none (by omega)] at hb
        cases hb
      rw [this]; rfl

theorem IntDict.locatePrefix_size {d : FC} {n : Nat} (h : FC.tail n = FC.tail d.size) (p : Ids) (r : Range) (buf : Ids) :
    IntDict.locatePrefix { d with size := n } p r buf = IntDict.locatePrefix d p r buf := by
  have hl : ∀ t k s, IntDict.rightBucketLoop { d with size := n } t k s = IntDict.rightBucketLoop d t k s := by
    intro t k
    induction k with
    | zero => intros; rfl
    | succ k ih =>
        intro s
        simp only [IntDict.rightBucketLoop, ih]
        rfl
  have hb : ∀ t k, IntDict.locateRightBucket { d with size := n } t k = IntDict.locateRightBucket d t k := by
    intro t k
    simp only [IntDict.locateRightBucket, hl]
    rfl
  simp only [IntDict.locatePrefix, hb, IntDict.beginOffset, IntDict.leftLocate, IntDict.rightLocate, FC.scan_size h, FC.bucketSize_size h,
    FC.locateBucket_size]

/-- The outcome of a query: the best completions with property `P`, with their texts; unless the texts do not fit, or one of them is one of the last
16 completions, in which case a pointer to a header is read outside of the dictionary. -/
def OutcomeC (C : Coll) (terms : List Str) (P : List Str → Prop) (k : Nat) (o : M Scratch) : Prop :=
  ∃ E, Spec.Best C P k E ∧ ((∀ r ∈ E, ¬ LastCompletion C 16 r.2) → Shows terms E o) ∧ ((∃ r ∈ E, LastCompletion C 16 r.2) → o = .error .oob)

section
variable {C : Coll} {F : Files} (h : Ready C F)
include h

theorem Ready.lastCompletion (hn : 16 ≤ C.length) {i : Nat} (hi : i < C.length) : LastCompletion C 16 C[i].2 ↔ C.length - 16 ≤ i := by
  have hs : (C.map (·.2)).Pairwise (· < ·) := h.coll.sorted
  have hmem : ∀ x, (∃ d, (d, x) ∈ C) ↔ x ∈ C.map (·.2) := by
    intro x
    constructor
    · rintro ⟨d, hd⟩; exact List.mem_map.mpr ⟨_, hd, rfl⟩
    · intro hx
      obtain ⟨r, hr, rfl⟩ := List.mem_map.mp hx
      exact ⟨r.1, hr⟩
  have hnd : (C.map (·.2)).Nodup := hs.imp (fun {a b} hab he => by rw [he] at hab; exact List.lt_irrefl _ hab)
  have hget : C[i].2 = (C.map (·.2))[i]'(by simpa using hi) := by simp
  constructor
  · intro hl
    apply Classical.byContradiction
    intro hc
    have := hl.2 ((C.map (·.2)).drop (i + 1)) (hnd.sublist (List.drop_sublist _ _)) (fun x hx => by
      refine ⟨(hmem x).mpr (List.mem_of_mem_drop hx), ?_⟩
      obtain ⟨j, hj, rfl⟩ := List.getElem_of_mem hx
      rw [List.getElem_drop, hget]
      exact (List.pairwise_iff_getElem.mp hs) _ _ _ _ (by omega))
    simp at this
    omega
  · intro hi'
    refine ⟨⟨C[i].1, List.getElem_mem hi⟩, ?_⟩
    intro G hG hGP
    have := nodup_subset_length' (B := (C.map (·.2)).drop (i + 1)) hG (fun x hx => by
      obtain ⟨h1, h2⟩ := hGP x hx
      obtain ⟨j, hj, rfl⟩ := List.getElem_of_mem ((hmem x).mp h1)
      have hj' : j < C.length := by simpa using hj
      have hij : i < j := by
        apply Classical.byContradiction
        intro hc
        rw [hget] at h2
        rcases Nat.lt_or_eq_of_le (Nat.le_of_not_lt hc) with hlt | he
        · exact List.lt_irrefl _ (List.lt_trans h2 ((List.pairwise_iff_getElem.mp hs) j i hj (by simpa using hi) hlt))
        · subst he; exact List.lt_irrefl _ h2
      have : (C.map (·.2))[j] = ((C.map (·.2)).drop (i + 1))[j - (i + 1)]'(by simp; omega) := by
        rw [List.getElem_drop]; congr 1; omega
      rw [this]
      exact List.getElem_mem _)
    simp at this
    omega

/-- a document and its completion are in the dictionary, or cannot be loaded -/
theorem Ready.loads17 {x : Base} (hx : x.Rep17 F.mapped) {d : Nat} {c : List Str} (hc : (d, c) ∈ C) :
    (¬ LastCompletion C 16 c → x.Loads d (F.forward.getD d [])) ∧ (LastCompletion C 16 c → ∀ i compl, x.load d i compl = .error .oob) := by
  have hlen := h.length_mapped
  have hpos := hx.pos
  obtain ⟨i, hi, he⟩ := List.getElem_of_mem hc
  have hl := h.lastCompletion (by omega) hi
  rw [he] at hl
  have hm : F.mapped[i]'(by omega) = (d, F.forward.getD d []) := by
    have h1 := h.fst_mapped
    have hk : (F.mapped.map (·.1))[i]? = (C.map (·.1))[i]? := by rw [h1]
    rw [List.getElem?_map, List.getElem?_map, List.getElem?_eq_getElem hi, List.getElem?_eq_getElem (by omega), he] at hk
    have h2 : (F.mapped[i]'(by omega)).1 = d := by simpa using hk
    have h3 := h.getElem_snd hi
    rw [List.getElem_map, he] at h3
    apply Prod.ext
    · exact h2
    · rw [h3, h.files.forward _ hc]
  constructor
  · intro hn
    apply hx.loads
    rw [hl] at hn
    rw [← hm, List.mem_take_iff_getElem]
    exact ⟨i, by omega, rfl⟩
  · intro hn j compl
    apply hx.load_lost (c := F.forward.getD d [])
    rw [hl] at hn
    rw [← hm, List.mem_drop_iff_getElem]
    exact ⟨i - (F.mapped.length - 16), by omega, by congr 1; omega⟩

theorem Ready.lost_iff {x : Base} (hx : x.Rep17 F.mapped) {i : Nat} (hi : i < C.length) : LastCompletion C 16 C[i].2 ↔ C.length - 16 ≤ i := by
  have := hx.pos
  have := h.length_mapped
  exact h.lastCompletion (by omega) hi

/-! ## Decoding -/

/-- the results can be decoded, when none of them is lost -/
theorem Base.extract_shows17 {x : Base} (hx : x.Rep17 F.mapped) (R : FC.Rep Elem.byte MAX_CHARS x.dict F.terms)
    (hdict : FcDict.build F.terms = .ok x.dict) {n : Nat} {s : Scratch}
    (hs : s.WF) (hp : s.pool.Holds []) (hn : n ≤ s.pool.scores.length) (ht : ∀ d ∈ s.pool.scores.take n, ∃ c, (d, c) ∈ C ∧ ¬ LastCompletion C 16 c) :
    Shows F.terms ((s.pool.scores.take n).map (fun d => (d, (F.forward.getD d []).map (fun t => F.terms.getD (t - 1) [])))) (x.extract n s) := by
  obtain ⟨s1, w1, w2⟩ := Base.extract_loads R (fun d => F.forward.getD d []) hs hp hn (by
    intro d hd
    obtain ⟨c, hc, hl⟩ := ht d hd
    exact ⟨(h.loads17 hx hc).1 hl, h.idsIn hc⟩)
  exact h.shows (fun d hd => by obtain ⟨c, hc, _⟩ := ht d hd; exact ⟨c, hc⟩) w1 hdict w2

/-- a fault, when one of them is lost -/
theorem Base.extract_lost17 {x : Base} (hx : x.Rep17 F.mapped) {n : Nat} {s : Scratch}
    (hs : s.WF) (hn : n ≤ s.pool.scores.length) (ht : ∀ d ∈ s.pool.scores.take n, ∃ c, (d, c) ∈ C)
    (hl : ∃ d ∈ s.pool.scores.take n, ∃ c, (d, c) ∈ C ∧ LastCompletion C 16 c) : x.extract n s = .error .oob := by
  have h15 := hs.scores
  unfold Base.extract
  rw [Base.extractCompletions_lost (fun d => F.forward.getD d []) (lost := fun d => ∃ c, (d, c) ∈ C ∧ LastCompletion C 16 c)
    (fun d ⟨c, hc, hl⟩ => (h.loads17 hx hc).2 hl) n 0 s.compl s.sizes (by omega) (by omega) ?_ (by simpa using hl) hs.shape]
  · rfl
  · intro d hd
    rw [List.drop_zero] at hd
    obtain ⟨c, hc⟩ := ht d hd
    by_cases hlc : LastCompletion C 16 c
    · exact Or.inl ⟨c, hc, hlc⟩
    · exact Or.inr ((h.loads17 hx hc).1 hlc)

/-- decoding the best completions with property `P` -/
theorem Base.extract_outcomeC {x : Base} (hx : x.Rep17 F.mapped) (R : FC.Rep Elem.byte MAX_CHARS x.dict F.terms)
    (hdict : FcDict.build F.terms = .ok x.dict) {P : List Str → Prop} {k n : Nat} {s : Scratch}
    (hs : s.WF) (hp : s.pool.Holds []) (hn : n ≤ s.pool.scores.length) (ht : IsTopK (Doc C P) k (s.pool.scores.take n)) :
    OutcomeC C F.terms P k (x.extract n s) := by
  have hdoc : ∀ d ∈ s.pool.scores.take n, ∃ c, (d, c) ∈ C := fun d hd => by obtain ⟨c, hc, _⟩ := ht.sound d hd; exact ⟨c, hc⟩
  refine ⟨_, h.best ht, ?_, ?_⟩
  · intro hno
    refine Base.extract_shows17 h hx R hdict hs hp hn ?_
    intro d hd
    obtain ⟨c, hc⟩ := hdoc d hd
    refine ⟨c, hc, ?_⟩
    have := hno _ (List.mem_map.mpr ⟨d, hd, rfl⟩)
    dsimp only at this
    rwa [h.terms_of hc] at this
  · rintro ⟨r, hr, hl⟩
    obtain ⟨d, hd, rfl⟩ := List.mem_map.mp hr
    obtain ⟨c, hc⟩ := hdoc d hd
    dsimp only at hl
    rw [h.terms_of hc] at hl
    exact Base.extract_lost17 h hx hs hn hdoc ⟨d, hd, c, hc, hl⟩

/-! ## Prefix search -/

theorem Base.prefix_run17 (std : StdLib) {x : Base} (hx : x.Rep17 F.mapped)
    (R : FC.Rep Elem.byte MAX_CHARS x.dict F.terms) {q : Str} (hq : IsText q) (k : Nat) {s : Scratch} (hs : s.WF) :
    PrefixRun C (PrefixKeptC C (completeTerms q) (lastTerm q)) x.docs x.extract std k (x.prefixTopk std q k s) := by
  have ha := analyse_spec h R hq true hs.dbuf
  unfold Base.prefixTopk
  generalize analyse x.dict q true s = a at ha
  cases ha with
  | unknown buf hb hm hu =>
      exact ⟨_, wf_init hs hb, Pool.Holds.init _, Or.inl ⟨rfl, fun r hr hp => h.not_prefixFound hu r hr hp.1.1⟩⟩
  | nothing buf hb hu =>
      exact ⟨_, wf_init hs hb, Pool.Holds.init _, Or.inl ⟨rfl, fun r hr hp => h.not_prefixFound' hu r hr hp.1.1⟩⟩
  | some buf hb r hr hk2 =>
      have hall := hk2 rfl
      rw [M.ok_bind, List.filter_eq_self.mpr (by simpa using hall)]
      dsimp only
      have hsz : F.terms.length < 2 ^ 30 := by have := h.termCount_le; have := h.coll.size; omega
      have hle := hr.le
      have hlt := hr.lt
      have hml := h.length_mapped
      have hmod := hx.mod
      have hpos := hx.pos
      obtain ⟨d', hd', R'⟩ := hx.completions
      have hlen : ((F.mapped.take (F.mapped.length - 16)).map (·.2)).length = C.length - 16 := by simp [hml]
      have v := h.validIds
      have v' : ValidIds ((F.mapped.take (F.mapped.length - 16)).map (·.2)) := by
        rw [List.map_take]
        exact ⟨v.sorted.sublist (List.take_sublist _ _), fun s hs => v.elems s (List.mem_of_mem_take hs),
          fun s hs => v.len s (List.mem_of_mem_take hs), by have := v.count; rw [List.length_take]; omega⟩
      have hget : ∀ i (hi : i < C.length) (hi' : i < C.length - 16),
          ((F.mapped.take (F.mapped.length - 16)).map (·.2))[i]'(by rw [hlen]; exact hi') = C[i].2.map (rankOf F.terms) := by
        intro i hi hi'
        have := h.getElem_snd hi
        rw [List.getElem_map] at this
        rw [List.getElem_map, List.getElem_take, this]
      obtain ⟨r', pfx', cbuf, l1, l0, l2⟩ := IntDict.locatePrefix_exact v' R'
        (pfx := (completeTerms q).map (rankOf F.terms)) (show r.b + 1 ≤ r.e + 1 by omega) (by omega) s.cbuf (by rw [hs.cbuf]; decide)
      rw [hd', IntDict.locatePrefix_size (by
        rw [R'.size, hlen, hml]; rw [hml] at hmod hpos; simp only [FC.tail]; (repeat' split) <;> omega), l1, M.ok_bind]
      dsimp only
      have hw : Scratch.WF { s with pool := s.pool.init, dbuf := buf, cbuf := cbuf } :=
        ⟨hs.scores, hs.data, hb.trans hs.dbuf, l0.trans hs.cbuf, hs.shape⟩
      have hcond := h.prefix2_iff hall hr
      have hlost := fun i (hi : i < C.length) => h.lost_iff hx hi
      refine ⟨_, hw, Pool.Holds.init _, ?_⟩
      rcases l2 with ⟨e1, e2, e3⟩ | ⟨e1, e2, e3, e4⟩
      · subst e1
        rw [if_pos (by decide)]
        refine Or.inl ⟨rfl, ?_⟩
        intro r' hr' hp
        obtain ⟨i, hi, rfl⟩ := List.getElem_of_mem hr'
        obtain ⟨c1, c2⟩ := (hcond i hi).mpr hp.1
        have hik : i < C.length - 16 := Nat.lt_of_not_le (fun hc => hp.2 ((hlost i hi).mpr hc))
        have := e3 i (by rw [hlen]; exact hik)
        rw [hget i hi hik] at this
        exact c2 (this c1)
      · have hcl : C.length < 2 ^ 30 := by have := h.count_le; have := h.coll.size; omega
        rw [hlen] at e2
        rw [if_neg (by simp [isInvalid_false (Nat.le_of_lt e1) (by omega)])]
        refine Or.inr ⟨r'.b, r'.e, e1, by omega, ?_, rfl⟩
        intro i hi
        unfold PrefixKeptC
        rw [hlost i hi]
        by_cases hik : i < C.length - 16
        · rw [e4 i (by rw [hlen]; exact hik), hget i hi hik, hcond i hi]
          exact ⟨fun hh => ⟨hh, by omega⟩, fun hh => hh.1⟩
        · constructor
          · intro hh; omega
          · intro hh; exact absurd hh.2 (by omega)

/-- the documents of a range of completions that are kept -/
theorem Ready.topk17 (std : StdLib) {x : Base} (hx : x.Rep17 F.mapped) {P : List Str → Prop} {b e : Nat} (e1 : b < e) (e2 : e ≤ C.length)
    (e3 : ∀ i (hi : i < C.length), (b ≤ i ∧ i < e) ↔ P C[i].2) (hP : ∀ c, P c → ¬ LastCompletion C 16 c) {k : Nat} (hk : 1 ≤ k) (hk' : k ≤ MAX_K)
    {buf : List Nat} (h15 : buf.length = MAX_K) :
    ∃ buf' n, x.docs.topk std b e k false buf = .ok (buf', n) ∧ buf'.length = buf.length ∧ n ≤ k ∧ IsTopK (Doc C P) k (buf'.take n) := by
  have hml := h.length_mapped
  have hpos := hx.pos
  have he : e ≤ C.length - 16 := by
    have := (e3 (e - 1) (by omega)).mp (by omega)
    have h5 := hP _ this
    rw [h.lost_iff hx (by omega)] at h5
    omega
  have hv : (F.mapped.take (F.mapped.length - 16)).map (·.1) = (C.take (C.length - 16)).map (·.1) := by
    rw [List.map_take, h.fst_mapped, hml, List.map_take]
  have hu := hx.docs
  rw [hv] at hu
  obtain ⟨buf', t1, t2, t3⟩ := UL.topk_spec std hu (a := b) (b := e) (k := k) (buf := buf) (Nat.le_of_lt e1) (by simp; omega) (Or.inl hk)
    (by omega)
  have hsl : (((C.take (C.length - 16)).map (fun r : Nat × List Str => r.1) ++ List.replicate 16 0).drop b).take (e - b) = ((F.mapped.map (·.1)).drop b).take (e - b) := by
    rw [h.fst_mapped, List.drop_append_of_le_length (by simp; omega), List.take_append_of_le_length (by simp; omega), List.map_take, List.drop_take,
      List.take_take, Nat.min_eq_left (by omega)]
  rw [hsl] at t3
  have hn : (F.mapped.map (·.1)).Nodup := by rw [h.fst_mapped]; exact h.coll.docs
  have t4 := IsTopK_congr (h.slice_docs e3) (sortedPrefix_topk (hn.sublist ((List.take_sublist _ _).trans (List.drop_sublist _ _))) t3)
  exact ⟨buf', _, t1, t2, Nat.min_le_left _ _, t4⟩

/-- prefix search: the best among the completions that are not lost -/
theorem Base.prefix_spec17 (std : StdLib) {x : Base} (hx : x.Rep17 F.mapped)
    (R : FC.Rep Elem.byte MAX_CHARS x.dict F.terms) (hdict : FcDict.build F.terms = .ok x.dict) {q : Str} (hq : IsText q) {k : Nat} (hk : 1 ≤ k)
    (hk' : k ≤ MAX_K) {s : Scratch} (hs : s.WF) :
    Outcome C F.terms (PrefixKeptC C (completeTerms q) (lastTerm q)) k (x.prefixTopk std q k s) := by
  have hr := Base.prefix_run17 h std hx R hq k hs
  generalize x.prefixTopk std q k s = o at hr
  obtain ⟨s, h1, h2, ⟨rfl, h4⟩ | ⟨b, e, e1, e2, e3, rfl⟩⟩ := hr
  · exact outcome_none h1 h2 hdict h4
  · have h15 := h1.scores
    obtain ⟨buf', n, t1, t2, t3, t4⟩ := h.topk17 std hx e1 e2 e3 (fun c hc => hc.2) hk hk' (buf := s.pool.scores) h1.scores
    rw [t1, M.ok_bind]
    refine ⟨_, h.best t4, Base.extract_shows17 h hx R hdict (wf_scores h1 t2) (holds_scores h2 _) (by dsimp only; omega) ?_⟩
    intro d hd
    obtain ⟨c, hc, hp⟩ := t4.sound d hd
    exact ⟨c, hc, hp.2⟩

/-! ## Conjunctive search -/

theorem outcomeC_none {P : List Str → Prop} {k : Nat} {s : Scratch} (hs : s.WF) (hp : s.pool.Holds [])
    {d : FC} (hdict : FcDict.build F.terms = .ok d) (hno : ∀ r ∈ C, ¬ P r.2) : OutcomeC C F.terms P k (.ok s) := by
  obtain ⟨E, b, hE⟩ := outcome_none (k := k) hs hp hdict hno
  refine ⟨E, b, fun _ => hE, ?_⟩
  rintro ⟨r, hr, _⟩
  exact absurd (b.sound r hr).2 (hno r (b.sound r hr).1)

end

/-- like `Index3.Rep` -/
structure Index3.RepC (x : Index3) (F : Files) : Prop where
  base : x.toBase.Rep17 F.mapped
  dict : FC.Rep Elem.byte MAX_CHARS x.dict F.terms
  built : FcDict.build F.terms = .ok x.dict
  inverted : x.inverted.Rep F.univ F.inverted

/-- like `Index2.Rep` -/
structure Index2.RepC (x : Index2) (F : Files) : Prop where
  base : x.toBase.Rep17 F.mapped
  dict : FC.Rep Elem.byte MAX_CHARS x.dict F.terms
  built : FcDict.build F.terms = .ok x.dict
  minimal : x.minimal.Rep (F.inverted.map (fun l => l.headD 0))
  inverted : x.inverted.Rep F.univ F.inverted

section
variable {C : Coll} {F : Files} (h : Ready C F)
include h

theorem Index3.conj_specC (std : StdLib) {x : Index3} (hx : x.RepC F) {q : Str} (hq : IsText q) {k : Nat}
    (hk : 1 ≤ k) (hk' : k ≤ MAX_K) {s : Scratch} (hs : s.WF) :
    OutcomeC C F.terms (ConjFound C (completeTerms q) (lastTerm q)) k (x.conjTopk std q k s) := by
  have ha := analyse_spec h hx.dict hq false hs.dbuf
  unfold Index3.conjTopk
  generalize analyse x.dict q false s = a at ha
  cases ha with
  | unknown buf hb hm hu => simp at hm
  | nothing buf hb hu => exact outcomeC_none h (wf_init hs hb) (Pool.Holds.init _) hx.built (h.not_conjFound hu)
  | some buf hb r hr hk2 =>
      rw [M.ok_bind]
      dsimp only
      obtain ⟨scores', n, t1, t2, t3, t4⟩ := Index3.conjScores_inv std h hx.inverted (complete := completeTerms q) hr hk
        (scores := s.pool.init.scores) (by rw [Pool.init, hs.scores]; exact hk')
      unfold knownPfx at t1
      rw [t1, M.ok_bind]
      refine Base.extract_outcomeC h hx.base hx.dict hx.built (wf_scores (wf_init hs hb) t2) (holds_scores (Pool.Holds.init _) _) ?_ t4
      have := hs.scores
      dsimp only [Pool.init] at t2 ⊢
      omega

omit h in
theorem best_mem {P : List Str → Prop} {k : Nat} {E : Coll} (b : Spec.Best C P k E) (r : Nat × List Str) :
    r ∈ E ↔ r ∈ C ∧ P r.2 ∧ ∀ G : Coll, G.Nodup → (∀ g ∈ G, g ∈ C ∧ P g.2 ∧ g.1 < r.1) → G.length < k := by
  have hnd : E.Nodup := b.sorted.imp (fun {a b} hab he => by rw [he] at hab; exact Nat.lt_irrefl _ hab)
  constructor
  · intro hr
    refine ⟨(b.sound r hr).1, (b.sound r hr).2, ?_⟩
    intro G hG hGP
    have := nodup_subset_length' (A := r :: G) (B := E) (List.nodup_cons.mpr ⟨fun hm => Nat.lt_irrefl _ (hGP r hm).2.2, hG⟩) (by
      intro g hg
      rcases List.mem_cons.mp hg with rfl | hg
      · exact hr
      · apply Classical.byContradiction
        intro hn
        obtain ⟨g1, g2, g3⟩ := hGP g hg
        have := (b.complete g g1 g2 hn).2 r hr
        omega)
    have := b.le
    simp at *
    omega
  · rintro ⟨h1, h2, h3⟩
    apply Classical.byContradiction
    intro hn
    obtain ⟨e1, e2⟩ := b.complete r h1 h2 hn
    have := h3 E hnd (fun g hg => ⟨(b.sound g hg).1, (b.sound g hg).2, e2 g hg⟩)
    omega

/-- the outcome of conjunctive search with type 2: a fault when one of the completions that it loads is lost -/
def Outcome2C (C : Coll) (terms : List Str) (complete : List Str) (last : Str) (k : Nat) (o : M Scratch) : Prop :=
  ((∃ d c, Examined C complete last k d c ∧ LastCompletion C 16 c) → o = .error .oob) ∧
  ((¬ ∃ d c, Examined C complete last k d c ∧ LastCompletion C 16 c) → Outcome C terms (ConjFound C complete last) k o)

/-- the completions among the first documents of a list, in terms of the collection -/
theorem Ready.before_iff {complete : List Str} (hne : knownPfx F complete ≠ []) {last : Str} {b e : Nat} (hr : LastRange C F last b e)
    {A : List Nat} {d : Nat} {B : List Nat} (hR : docsOf F (knownPfx F complete) = A ++ d :: B) (k : Nat) :
    (∀ G : Coll, G.Nodup → (∀ r ∈ G, r ∈ C ∧ ConjFound C complete last r.2 ∧ r.1 < d) → G.length < k) ↔
      (A.filter (fun d => (F.forward.getD d []).any (fun t => Range.contains ⟨b + 1, e + 1⟩ t))).length < k := by
  have hs := docsOf_sorted F (knownPfx F complete)
  rw [hR] at hs
  have hA := (List.pairwise_append.mp hs).1
  have hAd : ∀ a ∈ A, a < d := fun a ha => (List.pairwise_append.mp hs).2.2 a ha d (by simp)
  have hB : ∀ a ∈ B, d < a := (List.pairwise_cons.mp (List.pairwise_append.mp hs).2.1).1
  have hmem : ∀ r : Nat × List Str, (r ∈ C ∧ ConjFound C complete last r.2 ∧ r.1 < d) ↔
      r ∈ (A.filter (fun d => (F.forward.getD d []).any (fun t => Range.contains ⟨b + 1, e + 1⟩ t))).map (AC.rowOf F) := by
    intro r
    rw [List.mem_map]
    constructor
    · rintro ⟨h1, h2, h3⟩
      refine ⟨r.1, ?_, h.rowOf h1⟩
      obtain ⟨h4, h5⟩ := (h.conj_docs hne hr r.1).mpr ⟨r.2, h1, h2⟩
      refine List.mem_filter.mpr ⟨?_, h5⟩
      rw [hR] at h4
      rcases List.mem_append.mp h4 with h4 | h4
      · exact h4
      · rcases List.mem_cons.mp h4 with h4 | h4
        · omega
        · have := hB _ h4; omega
    · rintro ⟨a, ha, rfl⟩
      obtain ⟨h1, h2⟩ := List.mem_filter.mp ha
      obtain ⟨c, hc, hp⟩ := (h.conj_docs hne hr a).mp ⟨by rw [hR]; simp [h1], h2⟩
      rw [h.rowOf hc]
      exact ⟨hc, hp, hAd a h1⟩
  have hnd : ((A.filter (fun d => (F.forward.getD d []).any (fun t => Range.contains ⟨b + 1, e + 1⟩ t))).map (AC.rowOf F)).Nodup := by
    refine List.Pairwise.map _ (R := (· < ·)) ?_ (hA.sublist List.filter_sublist)
    intro a b hab he
    have := congrArg Prod.fst he
    simp only [AC.rowOf] at this
    omega
  constructor
  · intro hG
    have := hG _ hnd (fun r hr => (hmem r).mpr hr)
    simpa using this
  · intro hlt G hG hGP
    have := nodup_subset_length' hG (fun r hr => (hmem r).mp (hGP r hr))
    rw [List.length_map] at this
    omega

omit h in
theorem knownPfx_ne {complete : List Str} (h : Ready C F) : knownPfx F complete ≠ [] ↔ ∃ t ∈ complete, IsTerm C t := by
  unfold knownPfx
  rw [ne_eq, List.map_eq_nil_iff, List.filter_eq_nil_iff]
  constructor
  · intro hh
    apply Classical.byContradiction
    intro hc
    apply hh
    intro t ht hm
    exact hc ⟨t, ht, (h.isTerm t).mpr (by simpa using hm)⟩
  · rintro ⟨t, ht, hk⟩ hh
    exact hh t ht (by simpa using (h.isTerm t).mp hk)

theorem Index2.conj_specC (std : StdLib) {x : Index2} (hx : x.RepC F) {q : Str} (hq : IsText q) {k : Nat}
    (hk : 1 ≤ k) (hk' : k ≤ MAX_K) {s : Scratch} (hs : s.WF) :
    Outcome2C C F.terms (completeTerms q) (lastTerm q) k (x.conjTopk std q k s) := by
  have ha := analyse_spec h hx.dict hq false hs.dbuf
  unfold Index2.conjTopk
  generalize analyse x.dict q false s = a at ha
  cases ha with
  | unknown buf hb hm hu => simp at hm
  | nothing buf hb hu =>
      refine ⟨?_, fun _ => outcome_none (wf_init hs hb) (Pool.Holds.init _) hx.built (h.not_conjFound hu)⟩
      rintro ⟨d, c, ⟨_, ⟨y, y1, y2⟩, _⟩, _⟩
      exact absurd y2 (hu y y1)
  | some buf hb r hr hk2 =>
      rw [M.ok_bind]
      dsimp only
      have h15 := hs.scores
      have hlt := hr.lt
      have hreach : ∃ y, IsTerm C y ∧ Reaches C (lastTerm q) y := by
        have hle := hr.le
        exact ⟨F.terms[r.b]'(by omega), (h.isTerm _).mpr (List.getElem_mem _), (hr.iff r.b (by omega)).mp ⟨Nat.le_refl _, hle⟩⟩
      by_cases hne : knownPfx F (completeTerms q) = []
      · rw [if_pos (by unfold knownPfx at hne; rw [hne]; rfl)]
        obtain ⟨buf', n, t1, t2, t3, t4⟩ := MinDocs.topk_spec std hx.inverted hx.minimal (a := r.b) (b := r.e + 1) (by have := hr.le; omega)
          (by rw [h.files.numLists]; omega) hk (buf := s.pool.init.scores) (by rw [Pool.init, hs.scores]; exact hk')
        rw [t1, M.ok_bind]
        obtain ⟨E, b, o1, o2⟩ := Base.extract_outcomeC h hx.base hx.dict hx.built (n := n) (wf_scores (wf_init hs hb) t2) (holds_scores (Pool.Holds.init _) _)
          (by dsimp only [Pool.init] at t2 ⊢; omega) (IsTopK_congr (h.union_docs hne hr) t4)
        have hno : ¬ ∃ t ∈ completeTerms q, IsTerm C t := fun hc => (knownPfx_ne h).mpr hc hne
        constructor
        · rintro ⟨d, c, ⟨x1, _, x2, x3, x4⟩, x5⟩
          exact o2 ⟨(d, c), (best_mem b (d, c)).mpr ⟨x1, ⟨x2, x3.resolve_left hno⟩, x4⟩, x5⟩
        · intro hnl
          refine ⟨E, b, o1 ?_⟩
          intro r hr hl
          obtain ⟨y1, y2, y3⟩ := (best_mem b r).mp hr
          exact hnl ⟨r.1, r.2, ⟨y1, by obtain ⟨z, z1, z2⟩ := y2.2; exact ⟨z, ⟨r, y1, z1⟩, z2⟩, y2.1, Or.inr y2.2, y3⟩, hl⟩
      · rw [if_neg (by unfold knownPfx at hne; simpa using hne)]
        constructor
        · rintro ⟨d, c, ⟨x1, _, x2, x3, x4⟩, x5⟩
          have key := withDocs_spec (std := std) hx.inverted hne h.knownPfx_in (docsOf_sorted F _) (h.mem_docsOf hne)
            (fun I it => x.conjLoop I ⟨r.b + 1, r.e + 1⟩ k (x.inverted.numDocs + 1) it s.pool.init.scores s.compl s.sizes 0)
            (fun o => o = .error .oob)
            (by
              intro σ I it he
              obtain ⟨A, B, hR⟩ := List.append_of_mem ((h.docsOf_iff hne d).mpr ⟨c, x1, x2⟩)
              have hb := (h.before_iff hne hr hR k).mp x4
              have hall : ∀ e ∈ docsOf F (knownPfx F (completeTerms q)), (∃ c, (e, c) ∈ C ∧ LastCompletion C 16 c) ∨ x.toBase.Loads e (F.forward.getD e []) := by
                intro e he
                obtain ⟨c, hc, _⟩ := (h.docsOf_iff hne e).mp he
                by_cases hlc : LastCompletion C 16 c
                · exact Or.inl ⟨c, hc, hlc⟩
                · exact Or.inr ((h.loads17 hx.base hc).1 hlc)
              have hlen := docsOf_length F (knownPfx F (completeTerms q))
              rw [hR] at he hall hlen
              exact Index2.conjLoop_lost (fun d => F.forward.getD d []) ⟨r.b + 1, r.e + 1⟩ k hk' (lost := fun e => ∃ c, (e, c) ∈ C ∧ LastCompletion C 16 c)
                (fun e ⟨c, hc, hl⟩ => (h.loads17 hx.base hc).2 hl) A d B (x.inverted.numDocs + 1) it s.pool.init.scores s.compl s.sizes 0 he
                (fun e he => hall e (by simp [he])) ⟨c, x1, x5⟩ (by rw [Nat.zero_add]; exact hb) (by rw [hx.inverted.docs]; omega) hs.scores hs.shape)
          unfold knownPfx at key
          rw [key]; rfl
        · intro hnl
          have key := withDocs_spec (std := std) hx.inverted hne h.knownPfx_in (docsOf_sorted F _) (h.mem_docsOf hne)
            (fun I it => x.conjLoop I ⟨r.b + 1, r.e + 1⟩ k (x.inverted.numDocs + 1) it s.pool.init.scores s.compl s.sizes 0)
            (fun o => ∃ scores' compl' sizes' n', o = .ok (scores', compl', sizes', n') ∧ scores'.length = s.pool.scores.length ∧ n' ≤ k ∧
              IsTopK (Doc C (ConjFound C (completeTerms q) (lastTerm q))) k (scores'.take n') ∧ Shape compl' sizes' ∧
              Rows compl' sizes' ((scores'.take n').map (fun d => F.forward.getD d [])))
            (by
              intro σ I it he
              obtain ⟨scores', compl', sizes', n', t1, t2, t3, t4⟩ := Index2.conjLoop_loads (x := x) (fun d => F.forward.getD d []) ⟨r.b + 1, r.e + 1⟩ k
                hk' (docsOf F (knownPfx F (completeTerms q))) (x.inverted.numDocs + 1) it s.pool.init.scores s.compl s.sizes 0 [] he
                (by
                  intro A d B hR hA
                  rw [Nat.zero_add] at hA
                  obtain ⟨c, hc, hct⟩ := (h.docsOf_iff hne d).mp (by rw [hR]; simp)
                  refine (h.loads17 hx.base hc).1 (fun hl => hnl ⟨d, c, ⟨hc, hreach, hct, Or.inl ((knownPfx_ne h).mp hne), ?_⟩, hl⟩)
                  exact (h.before_iff hne hr hR k).mpr hA)
                (by rw [hx.inverted.docs]; have := docsOf_length F (knownPfx F (completeTerms q)); omega) hk hs.scores hs.shape Rows.nil rfl
              obtain ⟨t5, t6⟩ := t2.topk (docsOf_sorted F _) (h.conj_docs hne hr)
              have t7 := t2.taken
              rw [List.take_zero, List.nil_append] at t7
              rw [List.nil_append, ← t7] at t4
              exact ⟨scores', compl', sizes', n', t1, t2.length, t6, t5, t3, t4⟩)
          obtain ⟨scores', compl', sizes', n', t1, t2, t3, t4, t5, t6⟩ := key
          unfold knownPfx at t1
          rw [t1, M.ok_bind]
          dsimp only
          have hw : Scratch.WF { s with pool := { s.pool.init with scores := scores' }, dbuf := buf, compl := compl', sizes := sizes' } :=
            ⟨t2.trans hs.scores, hs.data, hb.trans hs.dbuf, hs.cbuf, t5⟩
          refine h.outcome t4 hw hx.built ?_
          have := Base.strings_spec (x := x.toBase) hx.dict
            (s := { s with pool := { s.pool.init with scores := scores' }, dbuf := buf, compl := compl', sizes := sizes' })
            (holds_scores (Pool.Holds.init _) _) hs.data t6 t5 (n := n') (docs := scores'.take n') (by simp; omega) rfl (by dsimp only; omega)
            (by
              intro c hc
              obtain ⟨d, hd, rfl⟩ := List.mem_map.mp hc
              obtain ⟨c, hc, _⟩ := t4.sound d hd
              exact h.idsIn hc)
          exact this

/-! ## Type 4 -/

end

/-- like `Index4.Rep` -/
structure Index4.RepC (x : Index4) (m : Nat) (F : Files) (docss : List (List Nat)) : Prop where
  base : x.toBase.Rep17 F.mapped
  dict : FC.Rep Elem.byte MAX_CHARS x.dict F.terms
  built : FcDict.build F.terms = .ok x.dict
  inverted : x.inverted.Rep F.univ m F.inverted docss

section
variable {C : Coll} {F : Files} (h : Ready C F)
include h

/-- conjunctive search with type 4 of such a collection: as in `Index4.conj_spec` as long as no result is lost -/
theorem Index4.conj_likeC (std : StdLib) {m : Nat} {x : Index4} {docss : List (List Nat)} (hx : x.RepC m F docss) (hids : ∀ r ∈ C, r.1 < 2 ^ 32 - 2)
    {q : Str} (hq : IsText q) :
    ∃ S, Result4 C (blocksOf F.terms x.inverted.blocks) (completeTerms q) (lastTerm q) S ∧
      ∀ q', IsText q' → lastTerm q' = lastTerm q → (∀ t, t ∈ completeTerms q' ↔ t ∈ completeTerms q) →
        ∀ k, 1 ≤ k → k ≤ MAX_K → ∀ s : Scratch, s.WF → ((∀ r ∈ S.take k, ¬ LastCompletion C 16 r.2) → Shows F.terms (S.take k) (x.conjTopk std q' k s)) ∧
        ((∃ r ∈ S.take k, LastCompletion C 16 r.2) → x.conjTopk std q' k s = .error .oob) := by
  by_cases hex : ∃ b e, LastRange C F (lastTerm q) b e
  · obtain ⟨b, e, hr⟩ := hex
    obtain ⟨S, s1, s2, s3⟩ := Index4.scores_spec h std hx.inverted hids (complete := completeTerms q) hr
    refine ⟨_, s1, ?_⟩
    intro q' hq' hlast hcompl k hk hk' s hs
    have ha := analyse_spec h hx.dict hq' false hs.dbuf
    unfold Index4.conjTopk
    generalize analyse x.dict q' false s = a at ha
    cases ha with
    | unknown buf hb hm hu => simp at hm
    | nothing buf hb hu =>
        have hlt := hr.lt
        have hle := hr.le
        exact absurd ((hr.iff b (by omega)).mp ⟨Nat.le_refl _, hle⟩) ((hlast ▸ hu) _ ((h.isTerm _).mpr (List.getElem_mem _)))
    | some buf hb r hr' hk2 =>
        rw [M.ok_bind]
        dsimp only
        obtain ⟨rfl, rfl⟩ := hr.unique (hlast ▸ hr')
        obtain ⟨n, hn, hsc⟩ := s3 k hk hk'
        obtain ⟨scores', e0, e1, e3⟩ := hsc s.pool.init.scores hs.scores
        have hsl := hs.scores
        have hkn : ∀ t, t ∈ knownPfx F (completeTerms q) ↔ t ∈ knownPfx F (completeTerms q') := by
          intro t
          unfold knownPfx
          simp only [List.mem_map, List.mem_filter, hcompl]
        rw [Index4.conjScores_congr std x.inverted hkn] at e0
        unfold knownPfx at e0
        rw [e0, M.ok_bind]
        have hin : ∀ d ∈ scores'.take n, ∃ c, (d, c) ∈ C := by
          intro d hd
          rw [e3] at hd
          exact s2 d (List.mem_of_mem_take hd)
        have hlen : n ≤ scores'.length := by dsimp only [Pool.init] at e1; omega
        rw [← List.map_take, ← e3]
        constructor
        · intro hno
          refine Base.extract_shows17 h hx.base hx.dict hx.built (n := n) (wf_scores (wf_init hs hb) e1) (holds_scores (Pool.Holds.init _) _) hlen ?_
          intro d hd
          obtain ⟨c, hc⟩ := hin d hd
          have := hno _ (List.mem_map.mpr ⟨d, hd, rfl⟩)
          rw [h.rowOf hc] at this
          exact ⟨c, hc, this⟩
        · rintro ⟨r, hr, hl⟩
          obtain ⟨d, hd, rfl⟩ := List.mem_map.mp hr
          obtain ⟨c, hc⟩ := hin d hd
          rw [h.rowOf hc] at hl
          exact Base.extract_lost17 h hx.base (wf_scores (wf_init hs hb) e1) hlen hin ⟨d, hd, c, hc, hl⟩
  · have hu : ∀ x, IsTerm C x → ¬ Reaches C (lastTerm q) x := by
      have ha := analyse_spec h hx.dict hq false Scratch.fresh_wf.dbuf
      generalize analyse x.dict q false Scratch.fresh = a at ha
      cases ha with
      | unknown buf hb hm hu => simp at hm
      | nothing buf hb hu => exact hu
      | some buf hb r hr hk2 => exact absurd ⟨_, _, hr⟩ hex
    refine ⟨[], h.result_none hu, ?_⟩
    intro q' hq' hlast hcompl k hk hk' s hs
    refine ⟨fun _ => ?_, by simp⟩
    have ha := analyse_spec h hx.dict hq' false hs.dbuf
    unfold Index4.conjTopk
    generalize analyse x.dict q' false s = a at ha
    cases ha with
    | unknown buf hb hm hu => simp at hm
    | nothing buf hb hu =>
        obtain ⟨E, b, hE⟩ := outcome_none (k := k) (wf_init hs hb) (Pool.Holds.init s.pool) hx.built (h.not_conjFound (complete := completeTerms q') hu)
        have : E = [] := by
          rw [List.eq_nil_iff_forall_not_mem]
          intro r hr
          exact h.not_conjFound hu r (b.sound r hr).1 (b.sound r hr).2
        rw [this] at hE
        rw [List.take_nil]
        exact hE
    | some buf hb r hr hk2 => exact absurd ⟨_, _, hlast ▸ hr⟩ hex

/-- the same for the query itself -/
theorem Index4.conj_specC (std : StdLib) {m : Nat} {x : Index4} {docss : List (List Nat)} (hx : x.RepC m F docss) (hids : ∀ r ∈ C, r.1 < 2 ^ 32 - 2)
    {q : Str} (hq : IsText q) :
    ∃ S, Result4 C (blocksOf F.terms x.inverted.blocks) (completeTerms q) (lastTerm q) S ∧
      ∀ k, 1 ≤ k → k ≤ MAX_K → ∀ s : Scratch, s.WF → ((∀ r ∈ S.take k, ¬ LastCompletion C 16 r.2) → Shows F.terms (S.take k) (x.conjTopk std q k s)) ∧
        ((∃ r ∈ S.take k, LastCompletion C 16 r.2) → x.conjTopk std q k s = .error .oob) := by
  obtain ⟨S, s1, s2⟩ := Index4.conj_likeC h std hx hids hq
  exact ⟨S, s1, s2 q hq rfl (fun _ => Iff.rfl)⟩

end

/-! ## Building -/

section
variable {C : Coll} {F : Files} (h : Ready C F)
include h

theorem Ready.keptDoc (hm : C.length % 17 = 0) (h0 : ∃ r ∈ C, r.1 ≠ 0 ∧ ¬ LastCompletion C 16 r.2) : KeptDoc C := by
  obtain ⟨r, hr, h1, h2⟩ := h0
  obtain ⟨i, hi, rfl⟩ := List.getElem_of_mem hr
  rw [h.lastCompletion (by omega) hi] at h2
  refine ⟨C[i], ?_, h1⟩
  unfold AC.kept
  rw [if_pos hm, List.mem_take_iff_getElem]
  exact ⟨i, by omega, rfl⟩

theorem Base.build_lost' {dict : FC} (e1 : FcDict.build F.terms = .ok dict) (hc17 : C.length % 17 = 0) (h0 : KeptDoc C) (mem : Nat → W) :
    ∃ x, Base.build F mem = .ok x ∧ x.Rep17 F.mapped ∧ x.dict = dict := by
  obtain ⟨⟨x, hx⟩, _⟩ | hb := Base.build_iff h mem
  · refine ⟨x, hx, ?_⟩
    have hmaps := fun i hi => Base.maps h hx i hi
    have hml := h.length_mapped
    have hk : AC.kept C.length = C.length - 16 := by unfold AC.kept; rw [if_pos hc17]
    have hkm : AC.kept F.mapped.length = F.mapped.length - 16 := by rw [hml]; exact hk
    have hn : F.mapped.length < 2 ^ 30 - 1 := by
      have := h.count_le; have := h.coll.size; rw [h.length_mapped]; omega
    have hCpos : 0 < C.length := List.length_pos_iff.mpr h.coll.ne
    have hne : F.mapped ≠ [] := by
      intro hc
      rw [hc] at hml
      simp at hml; omega
    have hdoc : ∀ r ∈ F.mapped, r.1 < F.univ ∧ r.1 < 2 ^ 32 := by
      intro r hr
      have : r.1 ∈ F.mapped.map (·.1) := List.mem_map.mpr ⟨r, hr, rfl⟩
      rw [h.fst_mapped] at this
      obtain ⟨r', hr', he⟩ := List.mem_map.mp this
      rw [← he]
      have := h.coll.ids r' hr'
      exact ⟨h.files.lt_univ r' hr', by omega⟩
    obtain ⟨d, m, i1, i3, i4, i5⟩ := IntDict.build_any h.validIds (fun r hr => (hdoc r hr).1) (by rw [h.fst_mapped]; exact h.coll.docs) hne
    rw [hkm] at i4 i5
    have hinv := invert_any i3 (n := F.mapped.length) (by rw [List.length_take]; omega) (by omega) i4 i5
    have hfst : ∀ i (hi : i < C.length), (F.mapped[i]'(by omega)).1 = C[i].1 := by
      intro i hi
      have hk : (F.mapped.map (·.1))[i]? = (C.map (·.1))[i]? := by rw [h.fst_mapped]
      rw [List.getElem?_map, List.getElem?_map, List.getElem?_eq_getElem hi, List.getElem?_eq_getElem (by omega)] at hk
      simpa using hk
    have hv := h.validIds
    unfold Base.build at hx
    rw [i1, M.ok_bind] at hx
    dsimp only at hx
    obtain ⟨cv, _, hx⟩ := bind_ok hx
    rw [hinv] at hx
    obtain ⟨docs, d1, hx⟩ := bind_ok hx
    rw [e1, M.ok_bind] at hx
    cases hx
    have hsmall : ∀ x ∈ (F.mapped.take (F.mapped.length - 16)).map (·.1) ++ List.replicate (F.mapped.length - (F.mapped.take (F.mapped.length - 16)).length) 0,
        x < 2 ^ 32 := by
      intro x hx
      rcases List.mem_append.mp hx with hx | hx
      · obtain ⟨r, hr, rfl⟩ := List.mem_map.mp hx
        exact (hdoc r (List.mem_of_mem_take hr)).2
      · rw [(List.mem_replicate.mp hx).2]; decide
    have hnz : ∃ x ∈ (F.mapped.take (F.mapped.length - 16)).map (·.1) ++ List.replicate (F.mapped.length - (F.mapped.take (F.mapped.length - 16)).length) 0,
        x ≠ 0 := by
      obtain ⟨r, hr, hr0⟩ := h0
      rw [hk] at hr
      refine ⟨r.1, List.mem_append_left _ ?_, hr0⟩
      rw [List.map_take, h.fst_mapped, hml, ← List.map_take]
      exact List.mem_map.mpr ⟨r, hr, rfl⟩
    obtain ⟨u, u1, u2⟩ := UL.build_spec _ (mem 0) (mem 1) (by simp; omega) hsmall hnz
    rw [d1] at u1
    cases u1
    rw [show F.mapped.length - (F.mapped.take (F.mapped.length - 16)).length = 16 by rw [List.length_take]; omega] at u2
    refine ⟨⟨by omega, by omega, ?_, u2, ?_, ?_⟩, rfl⟩
    · -- the dictionary
      unfold IntDict.build at i1
      obtain ⟨v, _, i1⟩ := bind_ok i1
      obtain ⟨d2, b1, i1⟩ := bind_ok i1
      have hd2 : d2 = d := by cases i1; rfl
      subst hd2
      rw [FC.build_mod17 (by rw [List.length_map]; omega) (by simpa using hne)] at b1
      have hv' : ValidIds ((F.mapped.map (·.2)).take ((F.mapped.map (·.2)).length - 16)) :=
        ⟨hv.sorted.sublist (List.take_sublist _ _), fun s hs => hv.elems s (List.mem_of_mem_take hs),
          fun s hs => hv.len s (List.mem_of_mem_take hs), by have := hv.count; rw [List.length_take]; omega⟩
      obtain ⟨d', g1, g2⟩ := IntDict.build_fc_rep hv' (by simp; omega)
      rw [g1] at b1
      cases b1
      refine ⟨d', by simp, ?_⟩
      rw [List.map_take]
      simpa using g2
    · intro i hi hik
      obtain ⟨w, w1, w2⟩ := hmaps i (by omega)
      rw [hfst i (by omega)]
      refine ⟨w, w1, ?_⟩
      rcases w2 with ⟨_, w2, _⟩ | ⟨w2, _⟩
      · exact w2
      · omega
    · intro i hi hik
      obtain ⟨w, w1, w2⟩ := hmaps i (by omega)
      rw [hfst i (by omega)]
      refine ⟨w, w1, ?_⟩
      rcases w2 with ⟨w2, _⟩ | ⟨_, w2, _⟩
      · omega
      · omega
  · exact absurd h0 hb.2

theorem Base.build_lost (h17 : F.terms.length % 17 ≠ 0) (hc17 : C.length % 17 = 0) (h0 : KeptDoc C) (mem : Nat → W) :
    ∃ x, Base.build F mem = .ok x ∧ x.Rep17 F.mapped ∧ FC.Rep Elem.byte MAX_CHARS x.dict F.terms ∧ FcDict.build F.terms = .ok x.dict := by
  obtain ⟨dict, e1, e2⟩ := h.dict_build h17
  obtain ⟨x, x1, x2, rfl⟩ := Base.build_lost' h e1 hc17 h0 mem
  exact ⟨x, x1, x2, e2, e1⟩

theorem Index2.build_lost (h17 : F.terms.length % 17 ≠ 0) (hc17 : C.length % 17 = 0) (h0 : KeptDoc C) (hmin : ∃ l ∈ F.inverted, 0 ∉ l) (mem : Nat → W) :
    ∃ x, Index2.build F mem = .ok x ∧ x.RepC F := by
  obtain ⟨ib, b1, b2, b3⟩ := InvBuilder.build_spec h.invLists
  obtain ⟨ii, b4, b5⟩ := b3 (mem 4)
  obtain ⟨mn, m1, m2⟩ := h.minimal_build hmin (mem 2) (mem 3)
  obtain ⟨x, x1, x2, x3, x4⟩ := Base.build_lost h h17 hc17 h0 mem
  refine ⟨⟨x, mn, ii⟩, ?_, ⟨x2, x3, x4, m2, b5⟩⟩
  unfold Index2.build
  rw [b1, M.ok_bind, x1, M.ok_bind, b2, m1, M.ok_bind, b4, M.ok_bind]

theorem Index3.build_lost (h17 : F.terms.length % 17 ≠ 0) (hc17 : C.length % 17 = 0) (h0 : KeptDoc C) (mem : Nat → W) :
    ∃ x, Index3.build F mem = .ok x ∧ x.RepC F := by
  obtain ⟨ib, b1, b2, b3⟩ := InvBuilder.build_spec h.invLists
  obtain ⟨ii, b4, b5⟩ := b3 (mem 4)
  obtain ⟨x, x1, x2, x3, x4⟩ := Base.build_lost h h17 hc17 h0 mem
  refine ⟨⟨x, ii⟩, ?_, ⟨x2, x3, x4, b5⟩⟩
  unfold Index3.build
  rw [b1, M.ok_bind, x1, M.ok_bind, b4, M.ok_bind]

theorem Index4.build_lost (h17 : F.terms.length % 17 ≠ 0) (hc17 : C.length % 17 = 0) (h0 : KeptDoc C) (std : StdLib) (m : Nat) (mem : Nat → W) :
    ∃ x docss, Index4.build std m F mem = .ok x ∧ x.RepC m F docss := by
  obtain ⟨ib, b1, b2, b3⟩ := BlkBuilder.build_spec h.blkLists std m
  obtain ⟨ii, docss, b4, b5⟩ := b3 (fun i => mem (7 + i))
  obtain ⟨x, x1, x2, x3, x4⟩ := Base.build_lost h h17 hc17 h0 mem
  refine ⟨⟨x, ii⟩, docss, ?_, ⟨x2, x3, x4, b5⟩⟩
  unfold Index4.build
  rw [b1, M.ok_bind, x1, M.ok_bind, b4, M.ok_bind]

end
end AC
