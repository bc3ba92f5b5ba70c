import Verif.Proofs.DebugIndex
import Verif.Proofs.DebugAllTrie
/-!
# The index types 1, 2 and 3, built with all assertions: constructors and queries
-/
namespace AC
open Spec

theorem Stays.trans {α : Type} {a b c : M α} (h1 : Stays a b) (h2 : Stays b c) : Stays a c := fun x h => h1 x (h2 x h)

/-! ## What the parts of an index hold -/

/-- every document has a cell in the map from documents to completions -/
def Base.LexFits (x : Base) (mapped : List (Nat × Ids)) : Prop := ∀ d c, (d, c) ∈ mapped → d < x.lexids.size

structure Index1.RepA (x : Index1) (F : Files) : Prop where
  rep : x.Rep F
  trie : Trie.Rep x.completions F.levels (F.mapped.map (·.2))
  sides : ∀ i t, x.completions[i]? = some t → Trie.Sides (F.mapped.map (·.2)) i t
  inverted : x.inverted.RepA F.univ F.inverted
  forward : x.forward.RepA F.terms.length F.forward

structure Index2.RepA (x : Index2) (F : Files) : Prop where
  rep : x.Rep F
  lex : x.toBase.LexFits F.mapped
  inverted : x.inverted.RepA F.univ F.inverted

structure Index3.RepA (x : Index3) (F : Files) : Prop where
  rep : x.Rep F
  lex : x.toBase.LexFits F.mapped
  inverted : x.inverted.RepA F.univ F.inverted

theorem Index1.build_repA {C : Coll} {F : Files} (h : Ready C F) {mem : Nat → W} {x : Index1} (hb : Index1.build F mem = .ok x) (hx : x.Rep F) : x.RepA F := by
  have hT := Index1.build_trie h hb
  obtain ⟨hL, hsh, -, -⟩ := h.trie
  unfold Index1.build at hb
  obtain ⟨ib, i1, hb⟩ := bind_ok hb
  obtain ⟨_, -, hb⟩ := bind_ok hb
  obtain ⟨_, -, hb⟩ := bind_ok hb
  obtain ⟨_, t1, hb⟩ := bind_ok hb
  obtain ⟨_, -, hb⟩ := bind_ok hb
  obtain ⟨_, i2, hb⟩ := bind_ok hb
  obtain ⟨_, f1, hb⟩ := bind_ok hb
  cases hb
  exact ⟨hx, hT, Trie.build_sides hL hsh t1, InvBuilder.build_repA h.invLists i1 i2, FwdIdx.build_repA h.fwdLists f1⟩

theorem Base.build_lexFits {C : Coll} {F : Files} (h : Ready C F) (hc17 : F.mapped.length % 17 ≠ 0) {mem : Nat → W} {x : Base} (hb : Base.build F mem = .ok x) :
    x.LexFits F.mapped := by
  have hn : F.mapped.length < 2 ^ 30 - 1 := by
    have := h.count_le; have := h.coll.size; rw [h.length_mapped]; omega
  have hu : ∀ r ∈ F.mapped, r.1 < F.univ := by
    intro r hr
    have : r.1 ∈ F.mapped.map (·.1) := List.mem_map.mpr ⟨r, hr, rfl⟩
    rw [h.fst_mapped] at this
    obtain ⟨r', hr', he⟩ := List.mem_map.mp this
    rw [← he]; exact h.files.lt_univ r' hr'
  obtain ⟨d, m, i1, i2, i3, i4, i5⟩ := IntDict.build_spec h.validIds hu (by rw [h.fst_mapped]; exact h.coll.docs) hc17
  have w1 := ceilLog2_pos (F.mapped.length + 1) (by omega)
  have w32 := ceilLog2_le (F.mapped.length + 1) 32 (by omega)
  obtain ⟨cv, c1, c2, _⟩ := CV.build_spec (toWords m) (ceilLog2 (F.mapped.length + 1)) (mem 6) w1 (by omega)
  unfold Base.build at hb
  rw [i1, M.ok_bind] at hb
  dsimp only at hb
  rw [c1, M.ok_bind] at hb
  obtain ⟨_, -, hb⟩ := bind_ok hb
  obtain ⟨_, -, hb⟩ := bind_ok hb
  cases hb
  intro d c hc
  dsimp only
  rw [c2.size]
  have := hu _ hc
  simp only [toWords, List.length_map]
  omega

theorem Index2.build_repA {C : Coll} {F : Files} (h : Ready C F) (hc17 : F.mapped.length % 17 ≠ 0) {mem : Nat → W} {x : Index2}
    (hb : Index2.build F mem = .ok x) (hx : x.Rep F) : x.RepA F := by
  unfold Index2.build at hb
  obtain ⟨ib, i1, hb⟩ := bind_ok hb
  obtain ⟨_, b1, hb⟩ := bind_ok hb
  obtain ⟨_, -, hb⟩ := bind_ok hb
  obtain ⟨_, i2, hb⟩ := bind_ok hb
  cases hb
  exact ⟨hx, Base.build_lexFits h hc17 b1, InvBuilder.build_repA h.invLists i1 i2⟩

theorem Index3.build_repA {C : Coll} {F : Files} (h : Ready C F) (hc17 : F.mapped.length % 17 ≠ 0) {mem : Nat → W} {x : Index3}
    (hb : Index3.build F mem = .ok x) (hx : x.Rep F) : x.RepA F := by
  unfold Index3.build at hb
  obtain ⟨ib, i1, hb⟩ := bind_ok hb
  obtain ⟨_, b1, hb⟩ := bind_ok hb
  obtain ⟨_, i2, hb⟩ := bind_ok hb
  cases hb
  exact ⟨hx, Base.build_lexFits h hc17 b1, InvBuilder.build_repA h.invLists i1 i2⟩

/-! ## Decoding the results -/

theorem writeTermsD_congr {d : FC} {term' term : Nat → M Nat} : ∀ (n j : Nat) (data : Str) (off : Nat), (∀ u, j ≤ u → u < j + n → term' u = term u) →
    writeTermsD d term' n j data off = writeTermsD d term n j data off
  | 0, _, _, _, _ => rfl
  | n + 1, j, data, off, h => by
      unfold writeTermsD
      rw [h j (Nat.le_refl _) (by omega)]
      refine M.bind_congr_ok ?_
      intro t _
      refine M.bind_congr_ok ?_
      intro dl _
      refine M.bind_congr_ok ?_
      intro dl' _
      exact writeTermsD_congr n (j + 1) _ _ (fun u h1 h2 => h u (by omega) (by omega))

/-- the terms of the first `n` results are read alike -/
def Reads (src' src : Nat → M (Nat × (Nat → M Nat))) (n : Nat) : Prop :=
  ∀ i, i < n → ∀ size term, src i = .ok (size, term) → ∃ term', src' i = .ok (size, term') ∧ ∀ u, u < size → term' u = term u

theorem stringsLoopD_reads {d : FC} {src' src : Nat → M (Nat × (Nat → M Nat))} {m : Nat} (h : Reads src' src m) :
    ∀ (n i : Nat) (p : Pool), i + n ≤ m → Stays (stringsLoopD d src' n i p) (stringsLoopD d src n i p)
  | 0, _, _, _ => .refl _
  | n + 1, i, p, hi => by
      intro p' hp
      unfold stringsLoopD at hp ⊢
      obtain ⟨⟨size, term⟩, e1, hp⟩ := bind_ok hp
      obtain ⟨term', e1', ht⟩ := h i (by omega) size term e1
      obtain ⟨off, e2, hp⟩ := bind_ok hp
      obtain ⟨⟨data, off'⟩, e3, hp⟩ := bind_ok hp
      rw [e1', M.ok_bind]
      dsimp only
      rw [e2, M.ok_bind, writeTermsD_congr _ _ _ _ (fun u _ hu => ht u (by omega)), e3, M.ok_bind]
      exact stringsLoopD_reads h n (i + 1) _ (by omega) p' hp

theorem Index1.extractA_stays {C : Coll} {F : Files} (h : Ready C F) (h17 : F.terms.length % 17 ≠ 0) {x : Index1} (hx : x.RepA F) {n : Nat} {s : Scratch}
    (hp : s.pool.offsets.length = 1) (hd : ∀ d ∈ s.pool.scores.take n, ∃ c, (d, c) ∈ C) : Stays (x.extractA n s) (x.extract n s) := by
  refine .trans ?_ (Index1.extractD_stays h h17 hx.rep hp hd)
  unfold Index1.extractA Index1.extractD extractStringsD
  refine .bind (.bind (stringsLoopD_reads (m := n) ?_ n 0 _ (by omega)) fun _ _ => .refl _) fun _ _ => .refl _
  intro i hi size term he
  unfold Index1.sourceD at he
  unfold Index1.sourceA
  obtain ⟨d, e1, he⟩ := bind_ok he
  obtain ⟨c, hc⟩ := hd d (take_rd hi e1)
  have hl := h.lt_forward hc
  obtain ⟨p, p1, p2⟩ := hx.rep.forward.at' d hl
  rw [FwdIdx.iteratorD_ok (by rw [hx.rep.forward.docs]; exact hl), p1, M.ok_bind] at he
  cases he
  rw [e1, M.ok_bind, FwdIdx.iteratorA_eq hx.forward hl, p1, M.ok_bind]
  refine ⟨_, rfl, fun u hu => ?_⟩
  have hf := hx.forward.fits d hl _ p1
  dsimp only at hu hf ⊢
  unfold FwdIt.derefA FwdIt.deref
  dsimp only
  rw [CV.getD'_eq (by omega)]

theorem Base.loadA_stays {x : Base} {mapped : List (Nat × Ids)} (h : x.Rep mapped) (hl : x.LexFits mapped) (h17 : mapped.length % 17 ≠ 0) {d : Nat} {c : Ids} (hc : (d, c) ∈ mapped)
    (i : Nat) (compl : List Ids) : Stays (x.loadA d i compl) (x.load d i compl) := by
  obtain ⟨j, hj, e⟩ := List.getElem_of_mem hc
  obtain ⟨w, w1, w2⟩ := h.lexids j hj
  rw [e] at w1
  unfold Base.loadA Base.load
  rw [CV.getD'_eq (hl d c hc), w1, M.ok_bind, M.ok_bind, w2]
  refine Stays.bind (.refl _) (fun row _ => Stays.bind ?_ (fun _ _ => .refl _))
  exact FC.extractAtD_stays _ _ (Props.bucketSize_ge (n := mapped.length) (by rw [h.completions.size]; simp) (by rw [h.completions.nb]; simp) h17 hj) _ _

theorem Base.extractCompletionsA_stays {x : Base} {mapped : List (Nat × Ids)} (h : x.Rep mapped) (hl : x.LexFits mapped) (h17 : mapped.length % 17 ≠ 0) {scores : List Nat} {m : Nat}
    (hd : ∀ d ∈ scores.take m, ∃ c, (d, c) ∈ mapped) : ∀ (n i : Nat) (compl : List Ids) (sizes : List Nat), i + n ≤ m →
    Stays (x.extractCompletionsA scores n i compl sizes) (x.extractCompletions scores n i compl sizes)
  | 0, _, _, _, _ => .refl _
  | n + 1, i, compl, sizes, hi => by
      unfold Base.extractCompletionsA Base.extractCompletions
      refine Stays.bind (.refl _) (fun d he => ?_)
      obtain ⟨c, hc⟩ := hd d (take_rd (by omega) he)
      refine Stays.bind (Base.loadA_stays h hl h17 hc i compl) ?_
      rintro ⟨compl, size⟩ _
      exact Stays.bind (.refl _) (fun sizes _ => Base.extractCompletionsA_stays h hl h17 hd n (i + 1) compl sizes (by omega))

theorem Base.extractA_stays {C : Coll} {F : Files} (h : Ready C F) (h17 : F.terms.length % 17 ≠ 0) (hc17 : F.mapped.length % 17 ≠ 0) {x : Base}
    (hx : x.Rep F.mapped) (hl : x.LexFits F.mapped) (R : FC.Rep Elem.byte MAX_CHARS x.dict F.terms) {n : Nat} {s : Scratch} (hs : s.WF) (hn : n ≤ s.pool.scores.length)
    (hp : s.pool.offsets.length = 1) (hd : ∀ d ∈ s.pool.scores.take n, ∃ c, (d, c) ∈ C) : Stays (x.extractA n s) (x.extract n s) := by
  have hm : ∀ d ∈ s.pool.scores.take n, (d, F.forward.getD d []) ∈ F.mapped := fun d hd' => by
    obtain ⟨c, hc⟩ := hd d hd'
    exact h.mapped_mem hc
  have h15 := hs.scores
  unfold Base.extractA Base.extract
  refine Stays.bind (Base.extractCompletionsA_stays hx hl hc17 (m := n) (fun d hd' => ⟨_, hm d hd'⟩) n 0 _ _ (by omega)) ?_
  rintro ⟨compl, sizes⟩ he
  obtain ⟨compl', sizes', f1, f2, f3⟩ := Base.extractCompletions_spec hx (fun d => F.forward.getD d []) (scores := s.pool.scores) n 0 s.compl s.sizes []
    (by omega) (by omega) (by simpa using hm) hs.shape Rows.nil rfl
  rw [f1] at he
  cases he
  rw [List.nil_append, List.drop_zero] at f3
  refine Base.stringsD_stays (s := { s with compl := compl, sizes := sizes }) R h17 hp f3 (by simp; omega) ?_
  intro c hc
  obtain ⟨d, hd', rfl⟩ := List.mem_map.mp hc
  obtain ⟨c, hc⟩ := hd d hd'
  exact h.idsIn hc

/-! ## The loops over documents -/

theorem Index1.conjLoopA_stays {x : Index1} {nt : Nat} {fwd : List (List Nat)} (hf : x.forward.RepA nt fwd) (r : Range) (k : Nat) {σ : Type}
    {I' I : DocIter σ} : ∀ (R : List Nat) (fuel : Nat) (it : σ) (scores : List Nat) (n : Nat), DocIter.Both I' I it R →
    (∀ d ∈ R, ∃ hd : d < fwd.length, ∀ t ∈ fwd[d], 0 < t) →
    Stays (x.conjLoopA I' r k fuel it scores n) (x.conjLoop I r k fuel it scores n)
  | _, 0, _, _, _, _, _ => .error
  | [], fuel + 1, it, scores, n, ⟨h1, h2⟩, _ => by
      unfold Index1.conjLoopA Index1.conjLoop
      rw [h1, h2]
      exact .refl _
  | d :: R, fuel + 1, it, scores, n, ⟨h1, h2, h3, h4, it', h5, h6, h7⟩, hR => by
      obtain ⟨hd, hl⟩ := hR d (by simp)
      unfold Index1.conjLoopA Index1.conjLoop
      rw [h1, h2, if_pos rfl, if_pos rfl, h3, h4, FwdIdx.intersectsA_eq hf hd hl, h5, h6]
      refine Stays.bind (.refl _) (fun found _ => Stays.ite (fun _ => ?_) (fun _ => ?_))
      · exact Stays.bind (.refl _) (fun scores _ => Stays.ite (fun _ => .refl _) (fun _ =>
          Stays.bind (.refl _) (fun _ he => by
            cases he
            exact Index1.conjLoopA_stays hf r k R fuel it' scores (n + 1) h7 (fun d hd => hR d (by simp [hd])))))
      · exact Stays.bind (.refl _) (fun _ he => by
          cases he
          exact Index1.conjLoopA_stays hf r k R fuel it' scores n h7 (fun d hd => hR d (by simp [hd])))

theorem Index2.conjLoopA_stays {x : Index2} {mapped : List (Nat × Ids)} (h : x.toBase.Rep mapped) (hl : x.toBase.LexFits mapped) (h17 : mapped.length % 17 ≠ 0) (r : Range) (k : Nat)
    {σ : Type} {I' I : DocIter σ} : ∀ (R : List Nat) (fuel : Nat) (it : σ) (scores : List Nat) (compl : List Ids) (sizes : List Nat) (n : Nat),
    DocIter.Both I' I it R → (∀ d ∈ R, ∃ c, (d, c) ∈ mapped) →
    Stays (x.conjLoopA I' r k fuel it scores compl sizes n) (x.conjLoop I r k fuel it scores compl sizes n)
  | _, 0, _, _, _, _, _, _, _ => .error
  | [], fuel + 1, it, scores, compl, sizes, n, ⟨h1, h2⟩, _ => by
      unfold Index2.conjLoopA Index2.conjLoop
      rw [h1, h2]
      exact .refl _
  | d :: R, fuel + 1, it, scores, compl, sizes, n, ⟨h1, h2, h3, h4, it', h5, h6, h7⟩, hR => by
      obtain ⟨c, hc⟩ := hR d (by simp)
      unfold Index2.conjLoopA Index2.conjLoop
      rw [h1, h2, if_pos rfl, if_pos rfl, h3, h4, h5, h6]
      refine Stays.bind (Base.loadA_stays h hl h17 hc n compl) ?_
      rintro ⟨compl, size⟩ _
      refine Stays.bind (.refl _) (fun row _ => Stays.bind (.refl _) (fun found _ => Stays.ite (fun _ => ?_) (fun _ => ?_)))
      · exact Stays.bind (.refl _) (fun scores _ => Stays.bind (.refl _) (fun sizes _ => Stays.ite (fun _ => .refl _) (fun _ =>
          Stays.bind (.refl _) (fun _ he => by
            cases he
            exact Index2.conjLoopA_stays h hl h17 r k R fuel it' scores compl sizes (n + 1) h7 (fun d hd => hR d (by simp [hd]))))))
      · exact Stays.bind (.refl _) (fun _ he => by
          cases he
          exact Index2.conjLoopA_stays h hl h17 r k R fuel it' scores compl sizes n h7 (fun d hd => hR d (by simp [hd])))

theorem Index3.advanceA_eq (std : StdLib) (x : Index3) (doc : Nat) : ∀ (fuel : Nat) (q : List CEI), advanceA std x doc fuel q = advance std x doc fuel q
  | 0, _ => rfl
  | fuel + 1, q => by
      unfold Index3.advanceA Index3.advance
      simp only [CEI.nextGeqD_eq, Index3.advanceA_eq std x doc fuel]
      rfl

theorem Index3.conjLoopA_eq (std : StdLib) (x : Index3) {σ : Type} (I : DocIter σ) (k : Nat) : ∀ (fuel : Nat) (it : σ) (q : List CEI) (scores : List Nat) (n : Nat),
    conjLoopA std x I k fuel it q scores n = conjLoop std x I k fuel it q scores n
  | 0, _, _, _, _ => rfl
  | fuel + 1, it, q, scores, n => by
      unfold Index3.conjLoopA Index3.conjLoop
      simp only [Index3.advanceA_eq, Index3.conjLoopA_eq std x I k fuel]

/-! ## Queries -/

section
variable {C : Coll} {F : Files} (h : Ready C F)
include h

theorem Index1.conjScoresA_stays (std : StdLib) {x : Index1} (hx : x.RepA F) {complete : List Str} {last : Str}
    {r : Range} (hr : LastRange C F last r.b r.e) (k : Nat) (scores : List Nat) :
    Stays (x.conjScoresA std (knownPfx F complete) r k scores) (x.conjScores std (knownPfx F complete) r k scores) := by
  have hlt := hr.lt
  have hle := hr.le
  unfold Index1.conjScoresA Index1.conjScores
  by_cases hne : knownPfx F complete = []
  · rw [if_pos (by rw [hne]; rfl), if_pos (by rw [hne]; rfl)]
    exact MinDocs.topkA_stays std hx.inverted h.lists_lt hx.rep.minimal (by omega) (by rw [h.files.numLists]; omega) _ _
  · rw [if_neg (by simpa using hne), if_neg (by simpa using hne)]
    refine withDocsA_stays hx.inverted hne h.knownPfx_in (docsOf_sorted F _) (h.mem_docsOf hne) _ _ ?_
    intro σ I' I it hb
    exact Index1.conjLoopA_stays hx.forward _ _ _ _ _ _ _ hb (fun d hd => by
      obtain ⟨c, hc⟩ := h.docsOf_in hne d hd
      exact h.fwd_pos hc)

theorem Index3.conjScoresA_stays (std : StdLib) {x : Index3} (hx : x.RepA F) {complete : List Str} {last : Str}
    {r : Range} (hr : LastRange C F last r.b r.e) (k : Nat) (scores : List Nat) :
    Stays (x.conjScoresA std (knownPfx F complete) ⟨r.b + 1, r.e + 1⟩ k scores) (x.conjScores std (knownPfx F complete) ⟨r.b + 1, r.e + 1⟩ k scores) := by
  have hlt := hr.lt
  have hle := hr.le
  have hnt : x.inverted.numTerms = F.terms.length := by rw [hx.inverted.rep.terms, h.files.numLists]
  have hsm := h.lists_lt
  rw [h.files.numLists] at hsm
  unfold Index3.conjScoresA Index3.conjScores
  by_cases hne : knownPfx F complete = []
  · rw [if_pos (by rw [hne]; rfl), if_pos (by rw [hne]; rfl)]
    exact HeapTopK.topkA_stays std hx.inverted (by dsimp only; omega) (by dsimp only; omega) (by dsimp only; rw [h.files.numLists]; omega) h.lists_lt _ _
  · rw [if_neg (by simpa using hne), if_neg (by simpa using hne)]
    refine withDocsA_stays hx.inverted hne h.knownPfx_in (docsOf_sorted F _) (h.mem_docsOf hne) _ _ ?_
    intro σ I' I it hb
    unfold Index3.conjScanA Index3.conjScan
    rw [HeapTopK.startA_eq hx.inverted (by dsimp only; omega) (by dsimp only; omega) (by dsimp only; rw [h.files.numLists]; omega) h.lists_lt]
    refine Stays.bind (.refl _) (fun q _ => ?_)
    rw [Index3.conjLoopA_eq, Index3.conjLoop_both std k _ _ _ _ _ _ hb]
    exact .refl _

theorem Index1.conjTopkA_stays (std : StdLib) (h17 : F.terms.length % 17 ≠ 0) {x : Index1} (hx : x.RepA F) {q : Str} (hq : IsText q) {k : Nat} (hk : 1 ≤ k)
    (hk' : k ≤ MAX_K) {s : Scratch} (hs : s.WF) : Stays (x.conjTopkA std q k s) (x.conjTopk std q k s) := by
  unfold Index1.conjTopkA Index1.conjTopk
  refine Stays.bind (analyseD_stays x.dict q hk' false s) ?_
  intro p hp
  have ha := analyse_spec h hx.rep.dict hq false hs.dbuf
  rw [hp] at ha
  cases ha with
  | unknown buf hb hm hu => exact .refl _
  | nothing buf hb hu => exact .refl _
  | some buf hb r hr hk2 =>
      dsimp only
      refine Stays.bind (Index1.conjScoresA_stays h std hx (complete := completeTerms q) hr k _) ?_
      rintro ⟨scores, n⟩ ho
      obtain ⟨-, -, t⟩ := (Index1.conjScores_spec std h hx.rep (complete := completeTerms q) hr hk (scores := s.pool.init.scores)
        (by rw [Pool.init, hs.scores]; exact hk')).docs ho
      exact Index1.extractA_stays h h17 hx rfl t

theorem Index3.conjTopkA_stays (std : StdLib) (h17 : F.terms.length % 17 ≠ 0) (hc17 : F.mapped.length % 17 ≠ 0) {x : Index3} (hx : x.RepA F) {q : Str}
    (hq : IsText q) {k : Nat} (hk : 1 ≤ k) (hk' : k ≤ MAX_K) {s : Scratch} (hs : s.WF) : Stays (x.conjTopkA std q k s) (x.conjTopk std q k s) := by
  unfold Index3.conjTopkA Index3.conjTopk
  refine Stays.bind (analyseD_stays x.dict q hk' false s) ?_
  intro p hp
  have ha := analyse_spec h hx.rep.dict hq false hs.dbuf
  rw [hp] at ha
  cases ha with
  | unknown buf hb hm hu => exact .refl _
  | nothing buf hb hu => exact .refl _
  | some buf hb r hr hk2 =>
      dsimp only
      refine Stays.bind (Index3.conjScoresA_stays h std hx (complete := completeTerms q) hr k _) ?_
      rintro ⟨scores, n⟩ ho
      obtain ⟨t1, t2, t⟩ := (Index3.conjScores_spec std h hx.rep (complete := completeTerms q) hr hk (scores := s.pool.init.scores)
        (by rw [Pool.init, hs.scores]; exact hk')).docs ho
      refine Base.extractA_stays h h17 hc17 hx.rep.base hx.lex hx.rep.dict (wf_scores (wf_init hs hb) t1) ?_ rfl t
      have := hs.scores
      dsimp only [Pool.init] at t1 ⊢
      omega

theorem Index2.conjTopkA_stays (std : StdLib) (h17 : F.terms.length % 17 ≠ 0) (hc17 : F.mapped.length % 17 ≠ 0) {x : Index2} (hx : x.RepA F) {q : Str}
    (hq : IsText q) {k : Nat} (hk : 1 ≤ k) (hk' : k ≤ MAX_K) {s : Scratch} (hs : s.WF) : Stays (x.conjTopkA std q k s) (x.conjTopk std q k s) := by
  unfold Index2.conjTopkA Index2.conjTopk
  refine Stays.bind (analyseD_stays x.dict q hk' false s) ?_
  intro p hp
  have ha := analyse_spec h hx.rep.dict hq false hs.dbuf
  rw [hp] at ha
  cases ha with
  | unknown buf hb hm hu => exact .refl _
  | nothing buf hb hu => exact .refl _
  | some buf hb r hr hk2 =>
      dsimp only
      have h15 := hs.scores
      have hlt := hr.lt
      have hle := hr.le
      by_cases hne : knownPfx F (completeTerms q) = []
      · rw [if_pos (by unfold knownPfx at hne; rw [hne]; rfl), if_pos (by unfold knownPfx at hne; rw [hne]; rfl)]
        refine Stays.bind (MinDocs.topkA_stays std hx.inverted h.lists_lt hx.rep.minimal (by omega) (by rw [h.files.numLists]; omega) _ _) ?_
        rintro ⟨scores, n⟩ ho
        obtain ⟨buf', n', t1, t2, t3, t4⟩ := MinDocs.topk_spec std hx.inverted.rep hx.rep.minimal (a := r.b) (b := r.e + 1) (by omega)
          (by rw [h.files.numLists]; omega) hk (buf := s.pool.init.scores) (by rw [Pool.init, hs.scores]; exact hk')
        rw [ho] at t1
        cases t1
        have t5 := IsTopK_congr (h.union_docs hne hr) t4
        refine Base.extractA_stays h h17 hc17 hx.rep.base hx.lex hx.rep.dict (wf_scores (wf_init hs hb) t2) ?_ rfl
          (fun d hd => by obtain ⟨c, hc, _⟩ := t5.sound d hd; exact ⟨c, hc⟩)
        dsimp only [Pool.init] at t2 ⊢
        omega
      · rw [if_neg (by unfold knownPfx at hne; simpa using hne), if_neg (by unfold knownPfx at hne; simpa using hne)]
        have hin : ∀ d ∈ docsOf F (knownPfx F (completeTerms q)), (d, F.forward.getD d []) ∈ F.mapped := fun d hd => by
          obtain ⟨c, hc⟩ := h.docsOf_in hne d hd
          exact h.mapped_mem hc
        refine Stays.bind (withDocsA_stays (pfx := knownPfx F (completeTerms q)) hx.inverted hne h.knownPfx_in (docsOf_sorted F _) (h.mem_docsOf hne) _ _ ?_) ?_
        · intro σ I' I it hb
          exact Index2.conjLoopA_stays hx.rep.base hx.lex hc17 _ _ _ _ _ _ _ _ _ hb (fun d hd => ⟨_, hin d hd⟩)
        · rintro ⟨scores, compl, sizes, n⟩ ho
          have key := withDocs_spec (std := std) hx.inverted.rep hne h.knownPfx_in (docsOf_sorted F _) (h.mem_docsOf hne)
            (fun I it => x.conjLoop I ⟨r.b + 1, r.e + 1⟩ k (x.inverted.numDocs + 1) it s.pool.init.scores s.compl s.sizes 0)
            (fun o => ∃ scores' compl' sizes' n', o = .ok (scores', compl', sizes', n') ∧ n' = min k ((docsOf F (knownPfx F (completeTerms q))).filter
                (fun d => (F.forward.getD d []).any (fun t => Range.contains ⟨r.b + 1, r.e + 1⟩ t))).length ∧
              Rows compl' sizes' ((((docsOf F (knownPfx F (completeTerms q))).filter
                (fun d => (F.forward.getD d []).any (fun t => Range.contains ⟨r.b + 1, r.e + 1⟩ t))).take k).map (fun d => F.forward.getD d [])))
            (by
              intro σ I it he
              obtain ⟨scores', compl', sizes', n', t1, t2, t3, t4⟩ := Index2.conjLoop_spec hx.rep.base (fun d => F.forward.getD d []) ⟨r.b + 1, r.e + 1⟩ k
                hk' (docsOf F (knownPfx F (completeTerms q))) (x.inverted.numDocs + 1) it s.pool.init.scores s.compl s.sizes 0 [] he hin
                (by rw [hx.inverted.rep.docs]; have := docsOf_length F (knownPfx F (completeTerms q)); omega) hk hs.scores hs.shape Rows.nil rfl
              refine ⟨scores', compl', sizes', n', t1, ?_, by simpa using t4⟩
              have := t2.count
              rw [Nat.zero_add, Nat.sub_zero, List.length_take] at this
              exact this)
          obtain ⟨scores', compl', sizes', n', t1, t2, t3⟩ := key
          rw [show withDocs std x.inverted (knownPfx F (completeTerms q)) _ = _ from ho] at t1
          cases t1
          refine Base.stringsD_stays (s := { s with pool := { s.pool.init with scores := scores }, dbuf := buf, compl := compl, sizes := sizes })
            hx.rep.dict h17 rfl t3 (by rw [List.length_map, List.length_take, t2]) ?_
          intro c hc
          obtain ⟨d, hd, rfl⟩ := List.mem_map.mp hc
          obtain ⟨c, hc⟩ := h.docsOf_in hne d (List.mem_filter.mp (List.mem_of_mem_take hd)).1
          exact h.idsIn hc

theorem Base.prefixTopkA_stays (std : StdLib) (h17 : F.terms.length % 17 ≠ 0) (hc17 : F.mapped.length % 17 ≠ 0) {x : Base} (hx : x.Rep F.mapped) (hlex : x.LexFits F.mapped)
    (R : FC.Rep Elem.byte MAX_CHARS x.dict F.terms) {q : Str}
    (hq : IsText q) {k : Nat} (hk : 1 ≤ k) (hk' : k ≤ MAX_K) {s : Scratch} (hs : s.WF) : Stays (x.prefixTopkA std q k s) (x.prefixTopk std q k s) := by
  have hrun := Base.prefix_run std h hx R hq k hs
  unfold Base.prefixTopk at hrun
  unfold Base.prefixTopkA Base.prefixTopk
  refine Stays.bind (analyseD_stays x.dict q hk' true s) ?_
  intro p hp
  have ha := analyse_spec h R hq true hs.dbuf
  rw [hp] at ha hrun
  rw [M.ok_bind] at hrun
  cases ha with
  | unknown buf hb hm hu => exact .refl _
  | nothing buf hb hu => exact .refl _
  | some buf hb r hr hk2 =>
      have hall := hk2 rfl
      rw [List.filter_eq_self.mpr (by simpa using hall)]
      dsimp only
      have hsz : F.terms.length < 2 ^ 30 := by have := h.termCount_le; have := h.coll.size; omega
      have hle := hr.le
      have hlt := hr.lt
      have hlen : (F.mapped.map (·.2)).length = C.length := by rw [List.length_map, h.length_mapped]
      refine Stays.bind (IntDict.locatePrefixD_stays _ _ _ _) ?_
      rintro ⟨r', pfx', cbuf⟩ hl
      obtain ⟨r'', pfx'', cbuf', l1, l0, l2⟩ := IntDict.locatePrefix_exact h.validIds hx.completions
        (pfx := (completeTerms q).map (rankOf F.terms)) (show r.b + 1 ≤ r.e + 1 by omega) (by omega) s.cbuf (by rw [hs.cbuf]; decide)
      rw [hl] at l1
      cases l1
      dsimp only
      refine Stays.ite (fun _ => .refl _) (fun hv => ?_)
      have hr' : r'.b ≤ r'.e ∧ r'.e ≤ (F.mapped.map (·.1)).length := by
        rcases l2 with ⟨e1, _, _⟩ | ⟨e1, e2, e3, e4⟩
        · subst e1; exact absurd rfl hv
        · rw [hlen] at e2; rw [List.length_map, h.length_mapped]; exact ⟨Nat.le_of_lt e1, e2⟩
      rw [UL.topkA_eq std hx.docs hr'.1 hr'.2]
      refine Stays.bind (.refl _) ?_
      rintro ⟨scores, n⟩ ht
      have hcond := h.prefix2_iff hall hr
      rcases l2 with ⟨e1, _, _⟩ | ⟨e1, e2, e3, e4⟩
      · subst e1; exact absurd rfl hv
      · rw [hlen] at e2
        obtain ⟨buf', n', t1, t2, t3, t4⟩ := h.topk_docs std hx.docs (P := PrefixFound2 C (completeTerms q) (lastTerm q)) e1 e2
          (by intro i hi; rw [e4 i (by rw [hlen]; exact hi), h.getElem_snd hi]; exact hcond i hi) hk (buf := s.pool.init.scores)
          (by have := hs.scores; dsimp only [Pool.init]; omega)
        rw [ht] at t1
        cases t1
        have hw : Scratch.WF { s with pool := s.pool.init, dbuf := buf, cbuf := cbuf } :=
          ⟨hs.scores, hs.data, hb.trans hs.dbuf, l0.trans hs.cbuf, hs.shape⟩
        refine Base.extractA_stays h h17 hc17 hx hlex R (wf_scores hw t2) ?_ rfl
          (fun d hd => by obtain ⟨c, hc, _⟩ := t4.sound d hd; exact ⟨c, hc⟩)
        dsimp only [Pool.init] at t2 t3 ⊢
        omega

theorem Index1.prefixTopkA_stays (std : StdLib) (h17 : F.terms.length % 17 ≠ 0) {x : Index1} (hx : x.RepA F) {q : Str}
    (hq : IsText q) {k : Nat} (hk : 1 ≤ k) (hk' : k ≤ MAX_K) {s : Scratch} (hs : s.WF) : Stays (x.prefixTopkA std q k s) (x.prefixTopk std q k s) := by
  unfold Index1.prefixTopkA Index1.prefixTopk
  refine Stays.bind (analyseD_stays x.dict q hk' true s) ?_
  intro p hp
  have ha := analyse_spec h hx.rep.dict hq true hs.dbuf
  rw [hp] at ha
  cases ha with
  | unknown buf hb hm hu => exact .refl _
  | nothing buf hb hu => exact .refl _
  | some buf hb r hr hk2 =>
      have hall := hk2 rfl
      rw [List.filter_eq_self.mpr (by simpa using hall)]
      dsimp only
      have hsz : F.terms.length < 2 ^ 30 := by have := h.termCount_le; have := h.coll.size; omega
      have hle := hr.le
      have hlt := hr.lt
      obtain ⟨hL, hsh, hn, _⟩ := h.trie
      refine Stays.bind (Trie.locatePrefixA_stays hx.trie hx.sides hL hsh hn (h.pfx_small hall) (by omega) (by omega)) ?_
      intro r' hl
      obtain ⟨r'', l1, l2⟩ := hx.rep.trie ((completeTerms q).map (rankOf F.terms)) (r.b + 1) (r.e + 1) (h.pfx_small hall) (by omega) (by omega)
        (by omega)
      rw [hl] at l1
      cases l1
      have hlen : (F.mapped.map (·.2)).length = C.length := by rw [List.length_map, h.length_mapped]
      refine Stays.ite (fun _ => .refl _) (fun hv => ?_)
      have hr' : r'.b ≤ r'.e ∧ r'.e ≤ (F.mapped.map (·.1)).length := by
        rcases l2 with ⟨e1, _⟩ | ⟨e1, e2, e3⟩
        · subst e1; exact absurd rfl hv
        · rw [hlen] at e2; rw [List.length_map, h.length_mapped]; exact ⟨Nat.le_of_lt e1, e2⟩
      rw [UL.topkA_eq std hx.rep.docs hr'.1 hr'.2]
      refine Stays.bind (.refl _) ?_
      rintro ⟨scores, n⟩ ht
      rcases l2 with ⟨e1, _⟩ | ⟨e1, e2, e3⟩
      · subst e1; exact absurd rfl hv
      · rw [hlen] at e2
        obtain ⟨buf', n', t1, t2, t3, t4⟩ := h.topk_docs std hx.rep.docs (P := PrefixFound C (completeTerms q) (lastTerm q)) e1 e2
          (by intro i hi; rw [e3 i (by rw [hlen]; exact hi), h.getElem_snd hi]; exact h.match_iff hall hr (h.mem (List.getElem_mem hi))) hk
          (buf := s.pool.init.scores) (by have := hs.scores; dsimp only [Pool.init]; omega)
        rw [ht] at t1
        cases t1
        exact Index1.extractA_stays h h17 hx rfl (fun d hd => by obtain ⟨c, hc, _⟩ := t4.sound d hd; exact ⟨c, hc⟩)

/-! ## Constructors -/

theorem Ready.fwd_buildA (nt : Nat) (w : W) : FwdIdx.buildA nt F.forward w = FwdIdx.build nt F.forward w := by
  refine FwdIdx.buildA_eq ?_ w
  intro l hl
  rcases h.mem_forward hl with rfl | ⟨r, hr, rfl⟩
  · simp [MAX_TERMS]
  · refine ⟨by have := h.coll.short r hr; simpa [MAX_TERMS] using this, ?_⟩
    intro x hx
    obtain ⟨t, _, rfl⟩ := List.mem_map.mp hx
    exact rankOf_pos t

theorem Ready.docs_buildA {list : List Nat} (hl : list.length = F.mapped.length) (a b : W) : UL.buildA list a b = UL.build list a b :=
  UL.buildA_eq (by have := h.count_le; have := h.coll.size; rw [hl, h.length_mapped]; omega) a b

theorem Ready.minimal_buildA {ib : InvBuilder} (hb : InvBuilder.mk' F.univ F.inverted = .ok ib) (a b : W) : UL.buildA ib.minimal a b = UL.build ib.minimal a b := by
  obtain ⟨ib', b1, b2, -⟩ := InvBuilder.build_spec h.invLists
  rw [b1] at hb
  cases hb
  refine UL.buildA_eq ?_ a b
  have := h.termCount_le; have := h.coll.size; rw [b2, List.length_map, h.files.numLists]; omega

omit h in
theorem invertLoop_length (n : Nat) : ∀ (l : List Nat) (doc : Nat) (v : List Nat), (invertLoop n l doc v).length = v.length
  | [], _, _ => rfl
  | lex :: rest, doc, v => by
      unfold invertLoop
      rw [invertLoop_length n rest]
      split
      · rw [List.length_set]
      · rfl

theorem Index1.buildA_stays (mem : Nat → W) : Stays (Index1.buildA F mem) (Index1.build F mem) := by
  unfold Index1.buildA Index1.build
  refine Stays.ok_bind h.checkParams ?_
  rw [InvBuilder.mkA_eq h.invLists]
  refine Stays.bind (.refl _) fun ib hib => ?_
  rw [h.docs_buildA (List.length_map _), h.minimal_buildA hib, InvBuilder.buildA_eq, h.fwd_buildA]
  exact Stays.bind (.refl _) fun _ _ => Stays.bind (.refl _) fun _ _ => Stays.bind (Trie.buildA_stays _ _) fun _ _ =>
    Stays.bind h.dict_buildD fun _ _ => .refl _

theorem Base.buildA_stays (mem : Nat → W) : Stays (Base.buildA F mem) (Base.build F mem) := by
  unfold Base.buildA Base.build
  have v := h.validIds
  refine Stays.bind ?_ ?_
  · exact Stays.bind (.refl _) (fun _ _ => Stays.bind (FC.buildD_stays (by decide) (IntDict.consecOk v) (fun s hs => ⟨by omega, by have := v.len s hs; exact this⟩))
      fun _ _ => .refl _)
  · rintro ⟨_, m⟩ _
    dsimp only
    rw [ceilLog2A_eq, M.ok_bind, CV.buildD_eq, h.docs_buildA (by unfold invert; rw [invertLoop_length, List.length_replicate])]
    exact Stays.bind (.refl _) fun _ _ => Stays.bind (.refl _) fun _ _ => Stays.bind h.dict_buildD fun _ _ => .refl _

theorem Index2.buildA_stays (mem : Nat → W) : Stays (Index2.buildA F mem) (Index2.build F mem) := by
  unfold Index2.buildA Index2.build
  refine Stays.ok_bind h.checkParams ?_
  rw [InvBuilder.mkA_eq h.invLists]
  refine Stays.bind (.refl _) fun ib hib => Stays.bind (Base.buildA_stays h mem) fun _ _ => ?_
  rw [h.minimal_buildA hib, InvBuilder.buildA_eq]
  exact .refl _

theorem Index3.buildA_stays (mem : Nat → W) : Stays (Index3.buildA F mem) (Index3.build F mem) := by
  unfold Index3.buildA Index3.build
  refine Stays.ok_bind h.checkParams ?_
  rw [InvBuilder.mkA_eq h.invLists]
  refine Stays.bind (.refl _) fun ib hib => Stays.bind (Base.buildA_stays h mem) fun _ _ => ?_
  rw [InvBuilder.buildA_eq]
  exact .refl _

end
end AC
