import Verif.Proofs.DebugSearch
/-!
# The index types 1, 2 and 3, built with assertions: constructors and queries
-/
namespace AC
open Spec

/-! ## Decoding the results -/

theorem extractable_of {d : FC} {L : List Str} (R : FC.Rep Elem.byte MAX_CHARS d L) (hn : L.length % 17 ≠ 0) {t : Nat} (h0 : 0 < t) (ht : t ≤ L.length) :
    Extractable d t := ⟨h0, Props.bucketSize_ge R.size R.nb hn (by omega)⟩

theorem take_rd {v : List Nat} {n i d : Nat} (hi : i < n) (h : rd v i = .ok d) : d ∈ v.take n := by
  have hl := rd_lt h
  rw [rd_ok hl] at h
  cases h
  apply List.mem_of_getElem? (i := i)
  rw [List.getElem?_take, if_pos hi, List.getElem?_eq_getElem hl]

theorem Index1.extractD_stays {C : Coll} {F : Files} (h : Ready C F) (h17 : F.terms.length % 17 ≠ 0) {x : Index1} (hx : x.Rep F) {n : Nat} {s : Scratch}
    (hp : s.pool.offsets.length = 1) (hd : ∀ d ∈ s.pool.scores.take n, ∃ c, (d, c) ∈ C) : Stays (x.extractD n s) (x.extract n s) := by
  unfold Index1.extractD Index1.extract
  refine Stays.bind (extractStringsD_stays ?_ hp) (fun _ _ => .refl _)
  intro i hi
  unfold Index1.sourceD Index1.source
  refine ⟨Stays.bind (.refl _) ?_, ?_⟩
  · intro d he
    obtain ⟨c, hc⟩ := hd d (take_rd hi he)
    rw [FwdIdx.iteratorD_ok (by rw [hx.forward.docs]; exact h.lt_forward hc)]
    exact .refl _
  · intro size term he u hu t ht
    obtain ⟨d, e1, e2⟩ := bind_ok he
    obtain ⟨c, hc⟩ := hd d (take_rd hi e1)
    have hl := h.lt_forward hc
    obtain ⟨p, p1, p2⟩ := hx.forward.at' d hl
    rw [p1, M.ok_bind] at e2
    cases e2
    obtain ⟨w, w1, w2⟩ := p2 u hu
    dsimp only [FwdIt.deref] at ht
    rw [w1, M.ok_bind, w2, id32, Nat.mod_eq_of_lt (by
      have := hx.forward.valid.each _ (List.getElem_mem hl) _ (List.getElem_mem hu)
      have := hx.forward.valid.small
      omega)] at ht
    cases ht
    have := h.idsIn hc (F.forward[d][u]) (by
      rw [List.getD_eq_getElem?_getD, List.getElem?_eq_getElem hl]; exact List.getElem_mem hu)
    exact extractable_of hx.dict h17 this.1 this.2

theorem Base.loadD_stays {x : Base} {mapped : List (Nat × Ids)} (h : x.Rep mapped) (h17 : mapped.length % 17 ≠ 0) {d : Nat} {c : Ids} (hc : (d, c) ∈ mapped)
    (i : Nat) (compl : List Ids) : Stays (x.loadD d i compl) (x.load d i compl) := by
  obtain ⟨j, hj, e⟩ := List.getElem_of_mem hc
  obtain ⟨w, w1, w2⟩ := h.lexids j hj
  rw [e] at w1
  unfold Base.loadD Base.load
  rw [w1, M.ok_bind, M.ok_bind, w2]
  refine Stays.bind (.refl _) (fun row _ => Stays.bind ?_ (fun _ _ => .refl _))
  exact FC.extractAtD_stays _ _ (Props.bucketSize_ge (n := mapped.length) (by rw [h.completions.size]; simp) (by rw [h.completions.nb]; simp) h17 hj) _ _

theorem Base.extractCompletionsD_stays {x : Base} {mapped : List (Nat × Ids)} (h : x.Rep mapped) (h17 : mapped.length % 17 ≠ 0) {scores : List Nat} {m : Nat}
    (hd : ∀ d ∈ scores.take m, ∃ c, (d, c) ∈ mapped) : ∀ (n i : Nat) (compl : List Ids) (sizes : List Nat), i + n ≤ m →
    Stays (x.extractCompletionsD scores n i compl sizes) (x.extractCompletions scores n i compl sizes)
  | 0, _, _, _, _ => .refl _
  | n + 1, i, compl, sizes, hi => by
      unfold Base.extractCompletionsD Base.extractCompletions
      refine Stays.bind (.refl _) (fun d he => ?_)
      obtain ⟨c, hc⟩ := hd d (take_rd (by omega) he)
      refine Stays.bind (Base.loadD_stays h h17 hc i compl) ?_
      rintro ⟨compl, size⟩ _
      exact Stays.bind (.refl _) (fun sizes _ => Base.extractCompletionsD_stays h h17 hd n (i + 1) compl sizes (by omega))

theorem Base.stringsD_stays {x : Base} {L : List Str} (R : FC.Rep Elem.byte MAX_CHARS x.dict L) (h17 : L.length % 17 ≠ 0) {s : Scratch}
    (hp : s.pool.offsets.length = 1) {cs : List Ids} (hr : Rows s.compl s.sizes cs) {n : Nat} (hn : cs.length = n) (hin : ∀ c ∈ cs, IdsIn L c) :
    Stays (x.stringsD n s) (x.strings n s) := by
  unfold Base.stringsD Base.strings
  refine Stays.bind (extractStringsD_stays ?_ hp) (fun _ _ => .refl _)
  intro i hi
  refine ⟨.refl _, ?_⟩
  intro size term he u hu t ht
  have hi' : i < cs.length := by omega
  obtain ⟨row, r1, r2, r3⟩ := hr i hi'
  unfold Base.source at he
  rw [rd_of_getElem? r1, M.ok_bind, rd_of_getElem? r3] at he
  cases he
  replace ht : rd row u = .ok t := ht
  have hl := rd_lt ht
  rw [rd_ok hl] at ht
  cases ht
  have : row[u] ∈ cs[i] := by
    apply List.mem_of_getElem? (i := u)
    rw [← r2, List.getElem?_take, if_pos hu, List.getElem?_eq_getElem hl]
  have := hin _ (List.getElem_mem hi') _ this
  exact extractable_of R h17 this.1 this.2

theorem Base.extractD_stays {C : Coll} {F : Files} (h : Ready C F) (h17 : F.terms.length % 17 ≠ 0) (hc17 : F.mapped.length % 17 ≠ 0) {x : Base}
    (hx : x.Rep F.mapped) (R : FC.Rep Elem.byte MAX_CHARS x.dict F.terms) {n : Nat} {s : Scratch} (hs : s.WF) (hn : n ≤ s.pool.scores.length)
    (hp : s.pool.offsets.length = 1) (hd : ∀ d ∈ s.pool.scores.take n, ∃ c, (d, c) ∈ C) : Stays (x.extractD n s) (x.extract n s) := by
  have hm : ∀ d ∈ s.pool.scores.take n, (d, F.forward.getD d []) ∈ F.mapped := fun d hd' => by
    obtain ⟨c, hc⟩ := hd d hd'
    exact h.mapped_mem hc
  have h15 := hs.scores
  unfold Base.extractD Base.extract
  refine Stays.bind (Base.extractCompletionsD_stays hx hc17 (m := n) (fun d hd' => ⟨_, hm d hd'⟩) n 0 _ _ (by omega)) ?_
  rintro ⟨compl, sizes⟩ he
  obtain ⟨compl', sizes', f1, f2, f3⟩ := Base.extractCompletions_spec hx (fun d => F.forward.getD d []) (scores := s.pool.scores) n 0 s.compl s.sizes []
    (by omega) (by omega) (by simpa using hm) hs.shape Rows.nil rfl
  rw [f1] at he
  cases he
  rw [List.nil_append, List.drop_zero] at f3
  refine Base.stringsD_stays (s := { s with compl := compl, sizes := sizes }) R h17 hp f3 (by simp; omega) ?_
  intro c hc
  obtain ⟨d, hd', rfl⟩ := List.mem_map.mp hc
  obtain ⟨c, hc⟩ := hd d hd'
  exact h.idsIn hc

/-! ## The loops over documents -/

theorem Index1.conjLoopD_stays {x : Index1} {nt : Nat} {fwd : List (List Nat)} (hf : x.forward.Rep nt fwd) (r : Range) (k : Nat) {σ : Type}
    {I' I : DocIter σ} : ∀ (R : List Nat) (fuel : Nat) (it : σ) (scores : List Nat) (n : Nat), DocIter.Both I' I it R →
    (∀ d ∈ R, ∃ hd : d < fwd.length, ∀ t ∈ fwd[d], 0 < t) →
    Stays (x.conjLoopD I' r k fuel it scores n) (x.conjLoop I r k fuel it scores n)
  | _, 0, _, _, _, _, _ => .error
  | [], fuel + 1, it, scores, n, ⟨h1, h2⟩, _ => by
      unfold Index1.conjLoopD Index1.conjLoop
      rw [h1, h2]
      exact .refl _
  | d :: R, fuel + 1, it, scores, n, ⟨h1, h2, h3, h4, it', h5, h6, h7⟩, hR => by
      obtain ⟨hd, hl⟩ := hR d (by simp)
      unfold Index1.conjLoopD Index1.conjLoop
      rw [h1, h2, if_pos rfl, if_pos rfl, h3, h4, FwdIdx.intersectsD_ok hf hd hl, h5, h6]
      refine Stays.bind (.refl _) (fun found _ => Stays.ite (fun _ => ?_) (fun _ => ?_))
      · exact Stays.bind (.refl _) (fun scores _ => Stays.ite (fun _ => .refl _) (fun _ =>
          Stays.bind (.refl _) (fun _ he => by
            cases he
            exact Index1.conjLoopD_stays hf r k R fuel it' scores (n + 1) h7 (fun d hd => hR d (by simp [hd])))))
      · exact Stays.bind (.refl _) (fun _ he => by
          cases he
          exact Index1.conjLoopD_stays hf r k R fuel it' scores n h7 (fun d hd => hR d (by simp [hd])))

theorem Index2.conjLoopD_stays {x : Index2} {mapped : List (Nat × Ids)} (h : x.toBase.Rep mapped) (h17 : mapped.length % 17 ≠ 0) (r : Range) (k : Nat)
    {σ : Type} {I' I : DocIter σ} : ∀ (R : List Nat) (fuel : Nat) (it : σ) (scores : List Nat) (compl : List Ids) (sizes : List Nat) (n : Nat),
    DocIter.Both I' I it R → (∀ d ∈ R, ∃ c, (d, c) ∈ mapped) →
    Stays (x.conjLoopD I' r k fuel it scores compl sizes n) (x.conjLoop I r k fuel it scores compl sizes n)
  | _, 0, _, _, _, _, _, _, _ => .error
  | [], fuel + 1, it, scores, compl, sizes, n, ⟨h1, h2⟩, _ => by
      unfold Index2.conjLoopD Index2.conjLoop
      rw [h1, h2]
      exact .refl _
  | d :: R, fuel + 1, it, scores, compl, sizes, n, ⟨h1, h2, h3, h4, it', h5, h6, h7⟩, hR => by
      obtain ⟨c, hc⟩ := hR d (by simp)
      unfold Index2.conjLoopD Index2.conjLoop
      rw [h1, h2, if_pos rfl, if_pos rfl, h3, h4, h5, h6]
      refine Stays.bind (Base.loadD_stays h h17 hc n compl) ?_
      rintro ⟨compl, size⟩ _
      refine Stays.bind (.refl _) (fun row _ => Stays.bind (.refl _) (fun found _ => Stays.ite (fun _ => ?_) (fun _ => ?_)))
      · exact Stays.bind (.refl _) (fun scores _ => Stays.bind (.refl _) (fun sizes _ => Stays.ite (fun _ => .refl _) (fun _ =>
          Stays.bind (.refl _) (fun _ he => by
            cases he
            exact Index2.conjLoopD_stays h h17 r k R fuel it' scores compl sizes (n + 1) h7 (fun d hd => hR d (by simp [hd]))))))
      · exact Stays.bind (.refl _) (fun _ he => by
          cases he
          exact Index2.conjLoopD_stays h h17 r k R fuel it' scores compl sizes n h7 (fun d hd => hR d (by simp [hd])))

theorem Index3.conjLoop_both (std : StdLib) {x : Index3} (k : Nat) {σ : Type} {I' I : DocIter σ} : ∀ (R : List Nat) (fuel : Nat) (it : σ) (q : List CEI)
    (scores : List Nat) (n : Nat), DocIter.Both I' I it R → conjLoop std x I' k fuel it q scores n = conjLoop std x I k fuel it q scores n
  | _, 0, _, _, _, _, _ => rfl
  | [], fuel + 1, it, q, scores, n, ⟨h1, h2⟩ => by
      unfold Index3.conjLoop
      rw [h1, h2]
      rfl
  | d :: R, fuel + 1, it, q, scores, n, ⟨h1, h2, h3, h4, it', h5, h6, h7⟩ => by
      unfold Index3.conjLoop
      rw [h1, h2, h3, h4, h5, h6]
      have ih : ∀ q scores n, conjLoop std x I' k fuel it' q scores n = conjLoop std x I k fuel it' q scores n :=
        fun q scores n => Index3.conjLoop_both std k R fuel it' q scores n h7
      simp only [M.ok_bind, ih]

/-! ## Queries -/

theorem Ready.docsOf_in {C : Coll} {F : Files} (h : Ready C F) {complete : List Str} (hne : knownPfx F complete ≠ []) :
    ∀ d ∈ docsOf F (knownPfx F complete), ∃ c, (d, c) ∈ C := fun d hd => by
  obtain ⟨c, hc, _⟩ := (h.docsOf_iff hne d).mp hd
  exact ⟨c, hc⟩

theorem Scored.docs {C : Coll} {P : List Str → Prop} {k : Nat} {scores : List Nat} {o : M (List Nat × Nat)} (h : Scored C P k scores o) {scores' : List Nat}
    {n : Nat} (ho : o = .ok (scores', n)) : scores'.length = scores.length ∧ n ≤ k ∧ ∀ d ∈ scores'.take n, ∃ c, (d, c) ∈ C := by
  obtain ⟨a, b, h1, h2, h3, h4⟩ := h
  rw [ho] at h1
  cases h1
  exact ⟨h2, h3, fun d hd => by obtain ⟨c, hc, _⟩ := h4.sound d hd; exact ⟨c, hc⟩⟩

section
variable {C : Coll} {F : Files} (h : Ready C F)
include h

theorem Ready.lists_lt : F.inverted.length < 2 ^ 32 := by
  have := h.termCount_le; have := h.coll.size; rw [h.files.numLists]; omega

theorem Ready.fwd_pos {d : Nat} {c : List Str} (hc : (d, c) ∈ C) : ∃ hd : d < F.forward.length, ∀ t ∈ F.forward[d], 0 < t := by
  have hl := h.lt_forward hc
  refine ⟨hl, fun t ht => ?_⟩
  have := h.files.forward _ hc
  rw [List.getD_eq_getElem?_getD, List.getElem?_eq_getElem hl, Option.getD_some] at this
  rw [this] at ht
  obtain ⟨s, _, rfl⟩ := List.mem_map.mp ht
  exact rankOf_pos s

theorem Index1.conjScoresD_stays (std : StdLib) {x : Index1} (hx : x.Rep F) {complete : List Str} {last : Str}
    {r : Range} (hr : LastRange C F last r.b r.e) (k : Nat) (scores : List Nat) :
    Stays (x.conjScoresD std (knownPfx F complete) r k scores) (x.conjScores std (knownPfx F complete) r k scores) := by
  have hlt := hr.lt
  have hle := hr.le
  unfold Index1.conjScoresD Index1.conjScores
  by_cases hne : knownPfx F complete = []
  · rw [if_pos (by rw [hne]; rfl), if_pos (by rw [hne]; rfl)]
    exact MinDocs.topkD_stays std hx.inverted h.lists_lt hx.minimal (by omega) (by rw [h.files.numLists]; omega) _ _
  · rw [if_neg (by simpa using hne), if_neg (by simpa using hne)]
    refine withDocsD_stays hx.inverted hne h.knownPfx_in (docsOf_sorted F _) (h.mem_docsOf hne) _ _ ?_
    intro σ I' I it hb
    exact Index1.conjLoopD_stays hx.forward _ _ _ _ _ _ _ hb (fun d hd => by
      obtain ⟨c, hc⟩ := h.docsOf_in hne d hd
      exact h.fwd_pos hc)

theorem Index3.conjScoresD_stays (std : StdLib) {x : Index3} (hx : x.Rep F) {complete : List Str} {last : Str}
    {r : Range} (hr : LastRange C F last r.b r.e) (k : Nat) (scores : List Nat) :
    Stays (x.conjScoresD std (knownPfx F complete) ⟨r.b + 1, r.e + 1⟩ k scores) (x.conjScores std (knownPfx F complete) ⟨r.b + 1, r.e + 1⟩ k scores) := by
  have hlt := hr.lt
  have hle := hr.le
  have hnt : x.inverted.numTerms = F.terms.length := by rw [hx.inverted.terms, h.files.numLists]
  have hsm := h.lists_lt
  rw [h.files.numLists] at hsm
  unfold Index3.conjScoresD Index3.conjScores
  by_cases hne : knownPfx F complete = []
  · rw [if_pos (by rw [hne]; rfl), if_pos (by rw [hne]; rfl)]
    rw [HeapTopK.topkD_ok std (by dsimp only; omega) (by dsimp only; omega) (by dsimp only; omega) (by omega)]
    exact .refl _
  · rw [if_neg (by simpa using hne), if_neg (by simpa using hne)]
    refine withDocsD_stays hx.inverted hne h.knownPfx_in (docsOf_sorted F _) (h.mem_docsOf hne) _ _ ?_
    intro σ I' I it hb
    unfold Index3.conjScanD Index3.conjScan
    rw [HeapTopK.startD_ok (by dsimp only; omega) (by dsimp only; omega) (by dsimp only; omega) (by omega)]
    refine Stays.bind (.refl _) (fun q _ => ?_)
    rw [Index3.conjLoop_both std k _ _ _ _ _ _ hb]
    exact .refl _

theorem Index1.conjTopkD_stays (std : StdLib) (h17 : F.terms.length % 17 ≠ 0) {x : Index1} (hx : x.Rep F) {q : Str} (hq : IsText q) {k : Nat} (hk : 1 ≤ k)
    (hk' : k ≤ MAX_K) {s : Scratch} (hs : s.WF) : Stays (x.conjTopkD std q k s) (x.conjTopk std q k s) := by
  unfold Index1.conjTopkD Index1.conjTopk
  refine Stays.bind (analyseD_stays x.dict q hk' false s) ?_
  intro p hp
  have ha := analyse_spec h hx.dict hq false hs.dbuf
  rw [hp] at ha
  cases ha with
  | unknown buf hb hm hu => exact .refl _
  | nothing buf hb hu => exact .refl _
  | some buf hb r hr hk2 =>
      dsimp only
      refine Stays.bind (Index1.conjScoresD_stays h std hx (complete := completeTerms q) hr k _) ?_
      rintro ⟨scores, n⟩ ho
      obtain ⟨-, -, t⟩ := (Index1.conjScores_spec std h hx (complete := completeTerms q) hr hk (scores := s.pool.init.scores)
        (by rw [Pool.init, hs.scores]; exact hk')).docs ho
      exact Index1.extractD_stays h h17 hx rfl t

theorem Index3.conjTopkD_stays (std : StdLib) (h17 : F.terms.length % 17 ≠ 0) (hc17 : F.mapped.length % 17 ≠ 0) {x : Index3} (hx : x.Rep F) {q : Str}
    (hq : IsText q) {k : Nat} (hk : 1 ≤ k) (hk' : k ≤ MAX_K) {s : Scratch} (hs : s.WF) : Stays (x.conjTopkD std q k s) (x.conjTopk std q k s) := by
  unfold Index3.conjTopkD Index3.conjTopk
  refine Stays.bind (analyseD_stays x.dict q hk' false s) ?_
  intro p hp
  have ha := analyse_spec h hx.dict hq false hs.dbuf
  rw [hp] at ha
  cases ha with
  | unknown buf hb hm hu => exact .refl _
  | nothing buf hb hu => exact .refl _
  | some buf hb r hr hk2 =>
      dsimp only
      refine Stays.bind (Index3.conjScoresD_stays h std hx (complete := completeTerms q) hr k _) ?_
      rintro ⟨scores, n⟩ ho
      obtain ⟨t1, t2, t⟩ := (Index3.conjScores_spec std h hx (complete := completeTerms q) hr hk (scores := s.pool.init.scores)
        (by rw [Pool.init, hs.scores]; exact hk')).docs ho
      refine Base.extractD_stays h h17 hc17 hx.base hx.dict (wf_scores (wf_init hs hb) t1) ?_ rfl t
      have := hs.scores
      dsimp only [Pool.init] at t1 ⊢
      omega

theorem Index2.conjTopkD_stays (std : StdLib) (h17 : F.terms.length % 17 ≠ 0) (hc17 : F.mapped.length % 17 ≠ 0) {x : Index2} (hx : x.Rep F) {q : Str}
    (hq : IsText q) {k : Nat} (hk : 1 ≤ k) (hk' : k ≤ MAX_K) {s : Scratch} (hs : s.WF) : Stays (x.conjTopkD std q k s) (x.conjTopk std q k s) := by
  unfold Index2.conjTopkD Index2.conjTopk
  refine Stays.bind (analyseD_stays x.dict q hk' false s) ?_
  intro p hp
  have ha := analyse_spec h hx.dict hq false hs.dbuf
  rw [hp] at ha
  cases ha with
  | unknown buf hb hm hu => exact .refl _
  | nothing buf hb hu => exact .refl _
  | some buf hb r hr hk2 =>
      dsimp only
      have h15 := hs.scores
      have hlt := hr.lt
      have hle := hr.le
      by_cases hne : knownPfx F (completeTerms q) = []
      · rw [if_pos (by unfold knownPfx at hne; rw [hne]; rfl), if_pos (by unfold knownPfx at hne; rw [hne]; rfl)]
        refine Stays.bind (MinDocs.topkD_stays std hx.inverted h.lists_lt hx.minimal (by omega) (by rw [h.files.numLists]; omega) _ _) ?_
        rintro ⟨scores, n⟩ ho
        obtain ⟨buf', n', t1, t2, t3, t4⟩ := MinDocs.topk_spec std hx.inverted hx.minimal (a := r.b) (b := r.e + 1) (by omega)
          (by rw [h.files.numLists]; omega) hk (buf := s.pool.init.scores) (by rw [Pool.init, hs.scores]; exact hk')
        rw [ho] at t1
        cases t1
        have t5 := IsTopK_congr (h.union_docs hne hr) t4
        refine Base.extractD_stays h h17 hc17 hx.base hx.dict (wf_scores (wf_init hs hb) t2) ?_ rfl
          (fun d hd => by obtain ⟨c, hc, _⟩ := t5.sound d hd; exact ⟨c, hc⟩)
        dsimp only [Pool.init] at t2 ⊢
        omega
      · rw [if_neg (by unfold knownPfx at hne; simpa using hne), if_neg (by unfold knownPfx at hne; simpa using hne)]
        have hin : ∀ d ∈ docsOf F (knownPfx F (completeTerms q)), (d, F.forward.getD d []) ∈ F.mapped := fun d hd => by
          obtain ⟨c, hc⟩ := h.docsOf_in hne d hd
          exact h.mapped_mem hc
        refine Stays.bind (withDocsD_stays (pfx := knownPfx F (completeTerms q)) hx.inverted hne h.knownPfx_in (docsOf_sorted F _) (h.mem_docsOf hne) _ _ ?_) ?_
        · intro σ I' I it hb
          exact Index2.conjLoopD_stays hx.base hc17 _ _ _ _ _ _ _ _ _ hb (fun d hd => ⟨_, hin d hd⟩)
        · rintro ⟨scores, compl, sizes, n⟩ ho
          have key := withDocs_spec (std := std) hx.inverted hne h.knownPfx_in (docsOf_sorted F _) (h.mem_docsOf hne)
            (fun I it => x.conjLoop I ⟨r.b + 1, r.e + 1⟩ k (x.inverted.numDocs + 1) it s.pool.init.scores s.compl s.sizes 0)
            (fun o => ∃ scores' compl' sizes' n', o = .ok (scores', compl', sizes', n') ∧ n' = min k ((docsOf F (knownPfx F (completeTerms q))).filter
                (fun d => (F.forward.getD d []).any (fun t => Range.contains ⟨r.b + 1, r.e + 1⟩ t))).length ∧
              Rows compl' sizes' ((((docsOf F (knownPfx F (completeTerms q))).filter
                (fun d => (F.forward.getD d []).any (fun t => Range.contains ⟨r.b + 1, r.e + 1⟩ t))).take k).map (fun d => F.forward.getD d [])))
            (by
              intro σ I it he
              obtain ⟨scores', compl', sizes', n', t1, t2, t3, t4⟩ := Index2.conjLoop_spec hx.base (fun d => F.forward.getD d []) ⟨r.b + 1, r.e + 1⟩ k
                hk' (docsOf F (knownPfx F (completeTerms q))) (x.inverted.numDocs + 1) it s.pool.init.scores s.compl s.sizes 0 [] he hin
                (by rw [hx.inverted.docs]; have := docsOf_length F (knownPfx F (completeTerms q)); omega) hk hs.scores hs.shape Rows.nil rfl
              refine ⟨scores', compl', sizes', n', t1, ?_, by simpa using t4⟩
              have := t2.count
              rw [Nat.zero_add, Nat.sub_zero, List.length_take] at this
              exact this)
          obtain ⟨scores', compl', sizes', n', t1, t2, t3⟩ := key
          rw [show withDocs std x.inverted (knownPfx F (completeTerms q)) _ = _ from ho] at t1
          cases t1
          refine Base.stringsD_stays (s := { s with pool := { s.pool.init with scores := scores }, dbuf := buf, compl := compl, sizes := sizes })
            hx.dict h17 rfl t3 (by rw [List.length_map, List.length_take, t2]) ?_
          intro c hc
          obtain ⟨d, hd, rfl⟩ := List.mem_map.mp hc
          obtain ⟨c, hc⟩ := h.docsOf_in hne d (List.mem_filter.mp (List.mem_of_mem_take hd)).1
          exact h.idsIn hc

theorem Base.prefixTopkD_stays (std : StdLib) (h17 : F.terms.length % 17 ≠ 0) (hc17 : F.mapped.length % 17 ≠ 0) {x : Base} (hx : x.Rep F.mapped)
    (R : FC.Rep Elem.byte MAX_CHARS x.dict F.terms) {q : Str}
    (hq : IsText q) {k : Nat} (hk : 1 ≤ k) (hk' : k ≤ MAX_K) {s : Scratch} (hs : s.WF) : Stays (x.prefixTopkD std q k s) (x.prefixTopk std q k s) := by
  have hrun := Base.prefix_run std h hx R hq k hs
  unfold Base.prefixTopk at hrun
  unfold Base.prefixTopkD Base.prefixTopk
  refine Stays.bind (analyseD_stays x.dict q hk' true s) ?_
  intro p hp
  have ha := analyse_spec h R hq true hs.dbuf
  rw [hp] at ha hrun
  rw [M.ok_bind] at hrun
  cases ha with
  | unknown buf hb hm hu => exact .refl _
  | nothing buf hb hu => exact .refl _
  | some buf hb r hr hk2 =>
      have hall := hk2 rfl
      rw [List.filter_eq_self.mpr (by simpa using hall)]
      dsimp only
      have hsz : F.terms.length < 2 ^ 30 := by have := h.termCount_le; have := h.coll.size; omega
      have hle := hr.le
      have hlt := hr.lt
      have hlen : (F.mapped.map (·.2)).length = C.length := by rw [List.length_map, h.length_mapped]
      refine Stays.bind (IntDict.locatePrefixD_stays _ _ _ _) ?_
      rintro ⟨r', pfx', cbuf⟩ hl
      obtain ⟨r'', pfx'', cbuf', l1, l0, l2⟩ := IntDict.locatePrefix_exact h.validIds hx.completions
        (pfx := (completeTerms q).map (rankOf F.terms)) (show r.b + 1 ≤ r.e + 1 by omega) (by omega) s.cbuf (by rw [hs.cbuf]; decide)
      rw [hl] at l1
      cases l1
      dsimp only
      refine Stays.ite (fun _ => .refl _) (fun hv => Stays.bind (.refl _) ?_)
      rintro ⟨scores, n⟩ ht
      have hcond := h.prefix2_iff hall hr
      rcases l2 with ⟨e1, _, _⟩ | ⟨e1, e2, e3, e4⟩
      · subst e1; exact absurd rfl hv
      · rw [hlen] at e2
        obtain ⟨buf', n', t1, t2, t3, t4⟩ := h.topk_docs std hx.docs (P := PrefixFound2 C (completeTerms q) (lastTerm q)) e1 e2
          (by intro i hi; rw [e4 i (by rw [hlen]; exact hi), h.getElem_snd hi]; exact hcond i hi) hk (buf := s.pool.init.scores)
          (by have := hs.scores; dsimp only [Pool.init]; omega)
        rw [ht] at t1
        cases t1
        have hw : Scratch.WF { s with pool := s.pool.init, dbuf := buf, cbuf := cbuf } :=
          ⟨hs.scores, hs.data, hb.trans hs.dbuf, l0.trans hs.cbuf, hs.shape⟩
        refine Base.extractD_stays h h17 hc17 hx R (wf_scores hw t2) ?_ rfl
          (fun d hd => by obtain ⟨c, hc, _⟩ := t4.sound d hd; exact ⟨c, hc⟩)
        dsimp only [Pool.init] at t2 t3 ⊢
        omega

theorem Ready.trie : Trie.Compl (F.mapped.map (·.2)) ∧ Trie.Shape F.levels (F.mapped.map (·.2)) ∧ (F.mapped.map (·.2)).length < 2 ^ 32 ∧
    ∃ T, Trie.build F.levels (F.mapped.map (·.2)) = .ok T ∧ Trie.Rep T F.levels (F.mapped.map (·.2)) := by
  have v := h.validIds
  have hL : Trie.Compl (F.mapped.map (·.2)) := ⟨v.sorted, fun s hs x hx => (v.elems s hs x hx).1, h.nonempty_mapped⟩
  have hsh : Trie.Shape F.levels (F.mapped.map (·.2)) := by
    rw [h.snd_mapped]
    constructor
    · intro c hc
      obtain ⟨r, hr, rfl⟩ := List.mem_map.mp hc
      simpa using h.files.lt_levels r hr
    · obtain ⟨r, hr, he⟩ := h.files.levels
      exact ⟨_, List.mem_map.mpr ⟨r, hr, rfl⟩, by simpa using he⟩
  have hn := v.count
  exact ⟨hL, hsh, by omega, Trie.build_spec hL hsh (fun s hs x hx => by have := (v.elems s hs x hx).2; omega) (by omega)⟩

theorem Index1.prefixTopkD_stays (std : StdLib) (h17 : F.terms.length % 17 ≠ 0) {x : Index1} (hx : x.Rep F)
    (hT : Trie.Rep x.completions F.levels (F.mapped.map (·.2))) {q : Str}
    (hq : IsText q) {k : Nat} (hk : 1 ≤ k) (hk' : k ≤ MAX_K) {s : Scratch} (hs : s.WF) : Stays (x.prefixTopkD std q k s) (x.prefixTopk std q k s) := by
  unfold Index1.prefixTopkD Index1.prefixTopk
  refine Stays.bind (analyseD_stays x.dict q hk' true s) ?_
  intro p hp
  have ha := analyse_spec h hx.dict hq true hs.dbuf
  rw [hp] at ha
  cases ha with
  | unknown buf hb hm hu => exact .refl _
  | nothing buf hb hu => exact .refl _
  | some buf hb r hr hk2 =>
      have hall := hk2 rfl
      rw [List.filter_eq_self.mpr (by simpa using hall)]
      dsimp only
      have hsz : F.terms.length < 2 ^ 30 := by have := h.termCount_le; have := h.coll.size; omega
      have hle := hr.le
      have hlt := hr.lt
      obtain ⟨hL, hsh, hn, _⟩ := h.trie
      refine Stays.bind (Trie.locatePrefixD_stays hT hL hsh hn (h.pfx_small hall) (by omega) (by omega)) ?_
      intro r' hl
      obtain ⟨r'', l1, l2⟩ := hx.trie ((completeTerms q).map (rankOf F.terms)) (r.b + 1) (r.e + 1) (h.pfx_small hall) (by omega) (by omega)
        (by omega)
      rw [hl] at l1
      cases l1
      refine Stays.ite (fun _ => .refl _) (fun hv => Stays.bind (.refl _) ?_)
      rintro ⟨scores, n⟩ ht
      have hlen : (F.mapped.map (·.2)).length = C.length := by rw [List.length_map, h.length_mapped]
      rcases l2 with ⟨e1, _⟩ | ⟨e1, e2, e3⟩
      · subst e1; exact absurd rfl hv
      · rw [hlen] at e2
        obtain ⟨buf', n', t1, t2, t3, t4⟩ := h.topk_docs std hx.docs (P := PrefixFound C (completeTerms q) (lastTerm q)) e1 e2
          (by intro i hi; rw [e3 i (by rw [hlen]; exact hi), h.getElem_snd hi]; exact h.match_iff hall hr (h.mem (List.getElem_mem hi))) hk
          (buf := s.pool.init.scores) (by have := hs.scores; dsimp only [Pool.init]; omega)
        rw [ht] at t1
        cases t1
        exact Index1.extractD_stays h h17 hx rfl (fun d hd => by obtain ⟨c, hc, _⟩ := t4.sound d hd; exact ⟨c, hc⟩)

/-! ## Constructors -/

theorem Ready.checkParams : F.checkParams = .ok () := by
  unfold Files.checkParams
  have hm := h.length_mapped
  obtain ⟨r, hr, he⟩ := h.files.levels
  have hc : 0 < C.length := List.length_pos_of_mem hr
  have hmax : 0 < F.maxLen := by
    have h1 := h.files.maxLen r hr
    obtain ⟨t, ht⟩ := List.exists_mem_of_ne_nil _ (h.coll.nonempty r hr)
    have h2 := List.length_pos_iff.mpr (h.coll.words r hr t ht).1
    have h3 : t.length ≤ (r.2.map List.length).sum := le_sum_of_mem' (List.mem_map.mpr ⟨t, ht, rfl⟩)
    omega
  have hu : F.mapped.length ≤ F.univ := by
    have := nodup_subset_length' (A := C.map (·.1)) (B := List.range F.univ) h.coll.docs (by
      intro d hd
      obtain ⟨r, hr, rfl⟩ := List.mem_map.mp hd
      simpa using h.files.lt_univ r hr)
    simp only [List.length_map, List.length_range] at this
    omega
  rw [check_ok (List.length_pos_iff.mpr h.terms_ne), M.ok_bind, check_ok hmax, M.ok_bind, check_ok (by omega), M.ok_bind, check_ok hu, M.ok_bind,
    check_ok (by omega)]

theorem Ready.dict_buildD : Stays (FcDict.buildD F.terms) (FcDict.build F.terms) :=
  FC.buildD_stays (by decide) (fun _ a b _ _ => FC.lcp_ok b a) (fun s hs => by
    obtain ⟨r, hr, ht⟩ := (h.files.memTerms s).mp hs
    exact ⟨List.length_pos_iff.mpr (h.coll.words r hr s ht).1, h.validTerms.len s hs⟩)

theorem Ready.fwd_buildD (nt : Nat) (w : W) : FwdIdx.buildD nt F.forward w = FwdIdx.build nt F.forward w := by
  unfold FwdIdx.buildD
  rw [FwdIdx.checkLists_ok, M.ok_bind]
  intro l hl
  rcases h.mem_forward hl with rfl | ⟨r, hr, rfl⟩
  · simp [MAX_TERMS]
  · refine ⟨by have := h.coll.short r hr; simpa [MAX_TERMS] using this, ?_⟩
    intro x hx
    obtain ⟨t, _, rfl⟩ := List.mem_map.mp hx
    exact rankOf_pos t

theorem Index1.buildD_stays (mem : Nat → W) : Stays (Index1.buildD F mem) (Index1.build F mem) := by
  unfold Index1.buildD Index1.build
  refine Stays.ok_bind h.checkParams ?_
  refine Stays.bind (.refl _) fun _ _ => Stays.bind (.refl _) fun _ _ => Stays.bind (.refl _) fun _ _ => Stays.bind (.refl _) fun _ _ =>
    Stays.bind h.dict_buildD fun _ _ => Stays.bind (.refl _) fun _ _ => ?_
  rw [h.fwd_buildD]
  exact .refl _

theorem Base.buildD_stays (mem : Nat → W) : Stays (Base.buildD F mem) (Base.build F mem) := by
  unfold Base.buildD Base.build
  have v := h.validIds
  refine Stays.bind ?_ ?_
  · exact Stays.bind (.refl _) (fun _ _ => Stays.bind (FC.buildD_stays (by decide) (IntDict.consecOk v) (fun s hs => ⟨by omega, by have := v.len s hs; exact this⟩))
      fun _ _ => .refl _)
  · rintro ⟨_, _⟩ _
    exact Stays.bind (.refl _) fun _ _ => Stays.bind (.refl _) fun _ _ => Stays.bind h.dict_buildD fun _ _ => .refl _

theorem Index2.buildD_stays (mem : Nat → W) : Stays (Index2.buildD F mem) (Index2.build F mem) := by
  unfold Index2.buildD Index2.build
  refine Stays.ok_bind h.checkParams ?_
  exact Stays.bind (.refl _) fun _ _ => Stays.bind (Base.buildD_stays h mem) fun _ _ => .refl _

theorem Index3.buildD_stays (mem : Nat → W) : Stays (Index3.buildD F mem) (Index3.build F mem) := by
  unfold Index3.buildD Index3.build
  refine Stays.ok_bind h.checkParams ?_
  exact Stays.bind (.refl _) fun _ _ => Stays.bind (Base.buildD_stays h mem) fun _ _ => .refl _

/-- the trie of the index is that of the completions -/
theorem Index1.build_trie {mem : Nat → W} {x : Index1} (hb : Index1.build F mem = .ok x) : Trie.Rep x.completions F.levels (F.mapped.map (·.2)) := by
  obtain ⟨-, -, -, T, t1, t2⟩ := h.trie
  unfold Index1.build at hb
  obtain ⟨_, -, hb⟩ := bind_ok hb
  obtain ⟨_, -, hb⟩ := bind_ok hb
  obtain ⟨_, -, hb⟩ := bind_ok hb
  obtain ⟨_, e, hb⟩ := bind_ok hb
  obtain ⟨_, -, hb⟩ := bind_ok hb
  obtain ⟨_, -, hb⟩ := bind_ok hb
  obtain ⟨_, -, hb⟩ := bind_ok hb
  cases hb
  rw [t1] at e
  cases e
  exact t2

end
end AC
