import Verif.Proofs.LossyPrefix
/-!
# Conjunctive queries when the number of terms is a multiple of 17
-/
namespace AC
open Spec

/-- the ids of the complete terms that the dictionary finds -/
def keptPfx (F : Files) (complete : List Str) : Ids :=
  (complete.filter (fun t => decide (t ∈ F.kept))).map (rankOf F.terms)

/-- like `Index2.Rep`, with a dictionary that has lost terms -/
structure Index2.Rep17 (x : Index2) (F : Files) : Prop where
  base : x.toBase.Rep F.mapped
  dict : Lossy x.dict F.terms
  built : FcDict.build F.terms = .ok x.dict
  minimal : x.minimal.Rep (F.inverted.map (fun l => l.headD 0))
  inverted : x.inverted.Rep F.univ F.inverted

/-- like `Index3.Rep`, with a dictionary that has lost terms -/
structure Index3.Rep17 (x : Index3) (F : Files) : Prop where
  base : x.toBase.Rep F.mapped
  dict : Lossy x.dict F.terms
  built : FcDict.build F.terms = .ok x.dict
  inverted : x.inverted.Rep F.univ F.inverted

section
variable {C : Coll} {F : Files} (h : Ready C F)
include h

theorem Ready.keptPfx_in {complete : List Str} : ∀ t ∈ keptPfx F complete, 0 < t ∧ t ≤ F.inverted.length := by
  intro t ht
  obtain ⟨s, hs, rfl⟩ := List.mem_map.mp ht
  rw [h.files.numLists]
  exact ⟨rankOf_pos s, rankOf_le (Files.kept_sub (by simpa using (List.mem_filter.mp hs).2))⟩

theorem Ready.mem_docsOf17 {complete : List Str} (hne : keptPfx F complete ≠ []) (d : Nat) :
    d ∈ docsOf F (keptPfx F complete) ↔ ∀ t ∈ keptPfx F complete, d ∈ F.inverted.getD (t - 1) [] := by
  unfold docsOf
  rw [List.mem_filter, List.mem_range, List.all_eq_true]
  simp only [List.contains_iff_mem]
  constructor
  · exact fun hh => hh.2
  · intro hh
    refine ⟨?_, hh⟩
    obtain ⟨t, ht⟩ := List.exists_mem_of_ne_nil _ hne
    have := hh t ht
    obtain ⟨s, hs, rfl⟩ := List.mem_map.mp ht
    obtain ⟨c, hc, _⟩ := (h.mem_list (Files.kept_sub (by simpa using (List.mem_filter.mp hs).2)) d).mp this
    exact h.files.lt_univ _ hc

/-- the documents in `docsOf`, in terms of the collection -/
theorem Ready.docsOf_iff17 (hn : 16 ≤ F.terms.length) {complete : List Str} (hne : keptPfx F complete ≠ []) (d : Nat) :
    d ∈ docsOf F (keptPfx F complete) ↔ ∃ c, (d, c) ∈ C ∧ ∀ t ∈ complete, KeptTerm C t → t ∈ c := by
  rw [h.mem_docsOf17 hne]
  constructor
  · intro hh
    obtain ⟨t, ht⟩ := List.exists_mem_of_ne_nil _ hne
    have h0 := hh t ht
    obtain ⟨s, hs, rfl⟩ := List.mem_map.mp ht
    obtain ⟨c, hc, _⟩ := (h.mem_list (Files.kept_sub (by simpa using (List.mem_filter.mp hs).2)) d).mp h0
    refine ⟨c, hc, ?_⟩
    intro t ht hk
    have hk' : t ∈ F.kept := (h.kept hn t).mp hk
    obtain ⟨c', hc', ht'⟩ := (h.mem_list (Files.kept_sub hk') d).mp (hh _ (List.mem_map.mpr ⟨t, List.mem_filter.mpr ⟨ht, by simpa using hk'⟩, rfl⟩))
    rwa [h.unique hc hc']
  · rintro ⟨c, hc, hall⟩ t ht
    obtain ⟨s, hs, rfl⟩ := List.mem_map.mp ht
    obtain ⟨hs1, hs2⟩ := List.mem_filter.mp hs
    have hs2 : s ∈ F.kept := by simpa using hs2
    exact (h.mem_list (Files.kept_sub hs2) d).mpr ⟨c, hc, hall s hs1 ((h.kept hn s).mpr hs2)⟩

theorem Ready.any_iff17 {last : Str} {b e : Nat} (hr : KeptRange C F last b e) {d : Nat} {c : List Str} (hc : (d, c) ∈ C) :
    (F.forward.getD d []).any (fun t => Range.contains ⟨b + 1, e + 1⟩ t) = true ↔ ∃ x ∈ c, ReachesKept C last x := by
  rw [h.files.forward _ hc, List.any_eq_true]
  constructor
  · rintro ⟨t, ht, hin⟩
    obtain ⟨x, hx, rfl⟩ := List.mem_map.mp ht
    refine ⟨x, hx, (hr.rank (h.mem hc x hx)).mp ?_⟩
    simpa [Range.contains] using hin
  · rintro ⟨x, hx, hre⟩
    refine ⟨_, List.mem_map.mpr ⟨x, hx, rfl⟩, ?_⟩
    have := (hr.rank (h.mem hc x hx)).mpr hre
    simpa [Range.contains] using this

/-- the documents of the lists of a range of terms -/
theorem Ready.inSome17 {last : Str} {b e : Nat} (hr : KeptRange C F last b e) (d : Nat) :
    (∃ l ∈ (F.inverted.drop b).take (e + 1 - b), d ∈ l) ↔ ∃ c, (d, c) ∈ C ∧ ∃ x ∈ c, ReachesKept C last x := by
  have hlt := hr.lt
  rw [Props.inSomeList_iff _ _ _ _ (by rw [h.files.numLists]; omega)]
  unfold Props.inSomeList
  constructor
  · rintro ⟨t, t1, t2, hd⟩
    have htl : t < F.terms.length := by omega
    obtain ⟨c, hc, hx⟩ := (h.files.memList t d htl).mp hd
    rw [h.getD_terms htl] at hx
    exact ⟨c, hc, _, hx, (hr.iff t htl).mp (by omega)⟩
  · rintro ⟨c, hc, x, hx, hre⟩
    have hxt := h.mem hc x hx
    have := (hr.rank hxt).mpr hre
    exact ⟨rankOf F.terms x - 1, by omega, by omega, (h.mem_list hxt d).mpr ⟨c, hc, hx⟩⟩

theorem Ready.union_docs17 (hn : 16 ≤ F.terms.length) {complete : List Str} (hne : keptPfx F complete = []) {last : Str} {b e : Nat} (hr : KeptRange C F last b e) (d : Nat) :
    (∃ l ∈ (F.inverted.drop b).take (e + 1 - b), d ∈ l) ↔ Doc C (ConjKept C complete last) d := by
  rw [h.inSome17 hr]
  have hno : ∀ t ∈ complete, ¬ KeptTerm C t := by
    intro t ht hk
    have : rankOf F.terms t ∈ keptPfx F complete :=
      List.mem_map.mpr ⟨t, List.mem_filter.mpr ⟨ht, by simpa using (show t ∈ F.kept from (h.kept hn t).mp hk)⟩, rfl⟩
    rw [hne] at this; simp at this
  constructor
  · rintro ⟨c, hc, hx⟩
    exact ⟨c, hc, fun t ht hk => absurd hk (hno t ht), hx⟩
  · rintro ⟨c, hc, _, hx⟩
    exact ⟨c, hc, hx⟩

theorem Ready.conj_docs17 (hn : 16 ≤ F.terms.length) {complete : List Str} (hne : keptPfx F complete ≠ []) {last : Str} {b e : Nat} (hr : KeptRange C F last b e) (d : Nat) :
    (d ∈ docsOf F (keptPfx F complete) ∧ (F.forward.getD d []).any (fun t => Range.contains ⟨b + 1, e + 1⟩ t) = true) ↔
      Doc C (ConjKept C complete last) d := by
  rw [h.docsOf_iff17 hn hne]
  constructor
  · rintro ⟨⟨c, hc, hall⟩, hany⟩
    exact ⟨c, hc, hall, (h.any_iff17 hr hc).mp hany⟩
  · rintro ⟨c, hc, hall, hx⟩
    exact ⟨⟨c, hc, hall⟩, (h.any_iff17 hr hc).mpr hx⟩

theorem Ready.conj_lists17 (hn : 16 ≤ F.terms.length) {complete : List Str} (hne : keptPfx F complete ≠ []) {last : Str} {b e : Nat} (hr : KeptRange C F last b e) (d : Nat) :
    (d ∈ docsOf F (keptPfx F complete) ∧ Index3.inLists F.inverted (b + 1) (e + 1) d = true) ↔
      Doc C (ConjKept C complete last) d := by
  rw [h.docsOf_iff17 hn hne]
  have : Index3.inLists F.inverted (b + 1) (e + 1) d = true ↔ ∃ c, (d, c) ∈ C ∧ ∃ x ∈ c, ReachesKept C last x := by
    rw [← h.inSome17 hr]
    unfold Index3.inLists
    rw [List.any_eq_true, show e + 1 + 1 - (b + 1) = e + 1 - b by omega]
    simp
  rw [this]
  constructor
  · rintro ⟨⟨c, hc, hall⟩, c', hc', hx⟩
    rw [h.unique hc' hc] at hx
    exact ⟨c, hc, hall, hx⟩
  · rintro ⟨c, hc, hall, hx⟩
    exact ⟨⟨c, hc, hall⟩, c, hc, hx⟩

omit h in
theorem Ready.not_conjKept (_h : Ready C F) {complete : List Str} {last : Str} (hu : ∀ x, IsTerm C x → ¬ ReachesKept C last x) :
    ∀ r ∈ C, ¬ ConjKept C complete last r.2 := by
  rintro r hr ⟨_, x, hx, hre⟩
  exact hu x ⟨r, hr, hx⟩ hre

end

theorem Index1.conjScores_lossy (std : StdLib) {C : Coll} {F : Files} (h : Ready C F) {x : Index1} (hx : x.Rep17 F) {complete : List Str} {last : Str}
    {r : Range} (hr : KeptRange C F last r.b r.e) {k : Nat} (hk : 1 ≤ k) {scores : List Nat} (hk' : k ≤ scores.length) :
    Scored C (ConjKept C complete last) k scores (x.conjScores std (keptPfx F complete) r k scores) := by
  have hlt := hr.lt
  have hn : 16 ≤ F.terms.length := by have := hx.dict.pos; omega
  unfold Index1.conjScores
  by_cases hne : keptPfx F complete = []
  · rw [if_pos (by rw [hne]; rfl)]
    obtain ⟨buf', n, t1, t2, t3, t4⟩ := MinDocs.topk_spec std hx.inverted hx.minimal (a := r.b) (b := r.e + 1) (by have := hr.le; omega)
      (by rw [h.files.numLists]; omega) hk hk'
    exact ⟨buf', n, t1, t2, t3, IsTopK_congr (h.union_docs17 hn hne hr) t4⟩
  · rw [if_neg (by simpa using hne)]
    apply withDocs_spec hx.inverted hne h.keptPfx_in (docsOf_sorted F _) (h.mem_docsOf17 hne)
    intro σ I it he
    obtain ⟨scores', n', t1, t2⟩ := Index1.conjLoop_spec hx.forward ⟨r.b + 1, r.e + 1⟩ k (docsOf F (keptPfx F complete))
      (x.inverted.numDocs + 1) it scores 0 he
      (fun d hd => by rw [h.files.numDocs]; exact docsOf_lt hd)
      (by rw [hx.inverted.docs]; have := docsOf_length F (keptPfx F complete); omega) hk hk'
    obtain ⟨t3, t4⟩ := t2.topk (docsOf_sorted F _) (h.conj_docs17 hn hne hr)
    exact ⟨scores', n', t1, t2.length, t4, t3⟩

theorem Index1.conj_lossy (std : StdLib) {C : Coll} {F : Files} (h : Ready C F) {x : Index1} (hx : x.Rep17 F) {q : Str} (hq : IsText q) {k : Nat}
    (hk : 1 ≤ k) (hk' : k ≤ MAX_K) {s : Scratch} (hs : s.WF) :
    Outcome17 C F.terms (ConjKept C (completeTerms q) (lastTerm q)) k (x.conjTopk std q k s) := by
  have ha := analyse_lossy h hx.dict hq false hs.dbuf
  unfold Index1.conjTopk
  generalize analyse x.dict q false s = a at ha
  cases ha with
  | unknown buf hb hm hu => simp at hm
  | nothing buf hb hu => exact outcome17_none (wf_init hs hb) (Pool.Holds.init _) hx.built (h.not_conjKept hu)
  | some buf hb r hr hk2 =>
      rw [M.ok_bind]
      dsimp only
      obtain ⟨scores', n, t1, t2, t3, t4⟩ := Index1.conjScores_lossy std h hx (complete := completeTerms q) hr hk
        (scores := s.pool.init.scores) (by rw [Pool.init, hs.scores]; exact hk')
      unfold keptPfx at t1
      rw [t1, M.ok_bind]
      refine Index1.extract_outcome17 h hx (wf_scores (wf_init hs hb) t2) (holds_scores (Pool.Holds.init _) _) ?_ t4
      have := hs.scores
      dsimp only [Pool.init] at t2 ⊢
      omega

theorem Index2.conj_lossy (std : StdLib) {C : Coll} {F : Files} (h : Ready C F) {x : Index2} (hx : x.Rep17 F) {q : Str} (hq : IsText q) {k : Nat}
    (hk : 1 ≤ k) (hk' : k ≤ MAX_K) {s : Scratch} (hs : s.WF) :
    Outcome17 C F.terms (ConjKept C (completeTerms q) (lastTerm q)) k (x.conjTopk std q k s) := by
  have ha := analyse_lossy h hx.dict hq false hs.dbuf
  unfold Index2.conjTopk
  generalize analyse x.dict q false s = a at ha
  cases ha with
  | unknown buf hb hm hu => simp at hm
  | nothing buf hb hu => exact outcome17_none (wf_init hs hb) (Pool.Holds.init _) hx.built (h.not_conjKept hu)
  | some buf hb r hr hk2 =>
      rw [M.ok_bind]
      dsimp only
      have h15 := hs.scores
      have hlt := hr.lt
      have hn : 16 ≤ F.terms.length := by have := hx.dict.pos; omega
      by_cases hne : keptPfx F (completeTerms q) = []
      · rw [if_pos (by unfold keptPfx at hne; rw [hne]; rfl)]
        obtain ⟨buf', n, t1, t2, t3, t4⟩ := MinDocs.topk_spec std hx.inverted hx.minimal (a := r.b) (b := r.e + 1) (by have := hr.le; omega)
          (by rw [h.files.numLists]; omega) hk (buf := s.pool.init.scores) (by rw [Pool.init, hs.scores]; exact hk')
        rw [t1, M.ok_bind]
        refine Base.extract_outcome17 h hx.base hx.dict hx.built (wf_scores (wf_init hs hb) t2) (holds_scores (Pool.Holds.init _) _) ?_
          (IsTopK_congr (h.union_docs17 hn hne hr) t4)
        dsimp only [Pool.init] at t2 ⊢
        omega
      · rw [if_neg (by unfold keptPfx at hne; simpa using hne)]
        have key := withDocs_spec (std := std) hx.inverted hne h.keptPfx_in (docsOf_sorted F _) (h.mem_docsOf17 hne)
          (fun I it => x.conjLoop I ⟨r.b + 1, r.e + 1⟩ k (x.inverted.numDocs + 1) it s.pool.init.scores s.compl s.sizes 0)
          (fun o => ∃ scores' compl' sizes' n', o = .ok (scores', compl', sizes', n') ∧ scores'.length = s.pool.scores.length ∧ n' ≤ k ∧
            IsTopK (Doc C (ConjKept C (completeTerms q) (lastTerm q))) k (scores'.take n') ∧ Shape compl' sizes' ∧
            Rows compl' sizes' ((scores'.take n').map (fun d => F.forward.getD d [])))
          (by
            intro σ I it he
            obtain ⟨scores', compl', sizes', n', t1, t2, t3, t4⟩ := Index2.conjLoop_spec hx.base (fun d => F.forward.getD d []) ⟨r.b + 1, r.e + 1⟩ k
              hk' (docsOf F (keptPfx F (completeTerms q))) (x.inverted.numDocs + 1) it s.pool.init.scores s.compl s.sizes 0 [] he
              (by
                intro d hd
                obtain ⟨c, hc, _⟩ := (h.docsOf_iff17 hn hne d).mp hd
                exact h.mapped_mem hc)
              (by rw [hx.inverted.docs]; have := docsOf_length F (keptPfx F (completeTerms q)); omega) hk hs.scores hs.shape Rows.nil rfl
            obtain ⟨t5, t6⟩ := t2.topk (docsOf_sorted F _) (h.conj_docs17 hn hne hr)
            have t7 := t2.taken
            rw [List.take_zero, List.nil_append] at t7
            rw [List.nil_append, ← t7] at t4
            exact ⟨scores', compl', sizes', n', t1, t2.length, t6, t5, t3, t4⟩)
        obtain ⟨scores', compl', sizes', n', t1, t2, t3, t4, t5, t6⟩ := key
        unfold keptPfx at t1
        rw [t1, M.ok_bind]
        dsimp only
        have hw : Scratch.WF { s with pool := { s.pool.init with scores := scores' }, dbuf := buf, compl := compl', sizes := sizes' } :=
          ⟨t2.trans hs.scores, hs.data, hb.trans hs.dbuf, hs.cbuf, t5⟩
        refine h.outcome17 (by have := hx.dict.pos; omega) t4 hw hx.built ?_
        have := Base.strings_lossy (x := x.toBase) hx.dict (s := { s with pool := { s.pool.init with scores := scores' }, dbuf := buf, compl := compl', sizes := sizes' })
          (holds_scores (Pool.Holds.init _) _) hs.data t6 (n := n') (docs := scores'.take n') (by simp; omega) rfl (by dsimp only; omega)
          (by
            intro c hc
            obtain ⟨d, hd, rfl⟩ := List.mem_map.mp hc
            obtain ⟨c, hc, _⟩ := t4.sound d hd
            exact h.idsIn hc)
        exact this

theorem Index3.conjScores_kept (std : StdLib) {C : Coll} {F : Files} (h : Ready C F) {x : Index3} (hi : x.inverted.Rep F.univ F.inverted)
    (hn : 16 ≤ F.terms.length) {complete : List Str} {last : Str}
    {r : Range} (hr : KeptRange C F last r.b r.e) {k : Nat} (hk : 1 ≤ k) {scores : List Nat} (hk' : k ≤ scores.length) :
    Scored C (ConjKept C complete last) k scores (x.conjScores std (keptPfx F complete) ⟨r.b + 1, r.e + 1⟩ k scores) := by
  have hlt := hr.lt
  have hle := hr.le
  unfold Index3.conjScores
  by_cases hne : keptPfx F complete = []
  · rw [if_pos (by rw [hne]; rfl)]
    obtain ⟨buf', n, t1, t2, t3, t4⟩ := HeapTopK.topk_spec std hi (a := r.b + 1) (b := r.e + 1) (by omega) (by omega)
      (by rw [h.files.numLists]; omega) hk hk'
    refine ⟨buf', n, t1, t2, t3, IsTopK_congr (fun d => ?_) t4⟩
    rw [← h.union_docs17 hn hne hr, show r.e + 1 + 1 - (r.b + 1) = r.e + 1 - r.b by omega]
    rfl
  · rw [if_neg (by simpa using hne)]
    apply withDocs_spec hi hne h.keptPfx_in (docsOf_sorted F _) (h.mem_docsOf17 hne)
    intro σ I it he
    obtain ⟨scores', n', t1, t2⟩ := Index3.conjScan_spec std hi (r := ⟨r.b + 1, r.e + 1⟩) (by dsimp only; omega) (by dsimp only; omega)
      (by dsimp only; rw [h.files.numLists]; omega) he (docsOf_sorted F _) (fun d hd => docsOf_lt hd) hk hk'
    obtain ⟨t3, t4⟩ := t2.topk (docsOf_sorted F _) (h.conj_lists17 hn hne hr)
    exact ⟨scores', n', t1, t2.length, t4, t3⟩

theorem Index3.conjScores_lossy (std : StdLib) {C : Coll} {F : Files} (h : Ready C F) {x : Index3} (hx : x.Rep17 F) {complete : List Str} {last : Str}
    {r : Range} (hr : KeptRange C F last r.b r.e) {k : Nat} (hk : 1 ≤ k) {scores : List Nat} (hk' : k ≤ scores.length) :
    Scored C (ConjKept C complete last) k scores (x.conjScores std (keptPfx F complete) ⟨r.b + 1, r.e + 1⟩ k scores) :=
  Index3.conjScores_kept std h hx.inverted (by have := hx.dict.pos; omega) hr hk hk'

theorem Index3.conj_lossy (std : StdLib) {C : Coll} {F : Files} (h : Ready C F) {x : Index3} (hx : x.Rep17 F) {q : Str} (hq : IsText q) {k : Nat}
    (hk : 1 ≤ k) (hk' : k ≤ MAX_K) {s : Scratch} (hs : s.WF) :
    Outcome17 C F.terms (ConjKept C (completeTerms q) (lastTerm q)) k (x.conjTopk std q k s) := by
  have ha := analyse_lossy h hx.dict hq false hs.dbuf
  unfold Index3.conjTopk
  generalize analyse x.dict q false s = a at ha
  cases ha with
  | unknown buf hb hm hu => simp at hm
  | nothing buf hb hu => exact outcome17_none (wf_init hs hb) (Pool.Holds.init _) hx.built (h.not_conjKept hu)
  | some buf hb r hr hk2 =>
      rw [M.ok_bind]
      dsimp only
      obtain ⟨scores', n, t1, t2, t3, t4⟩ := Index3.conjScores_lossy std h hx (complete := completeTerms q) hr hk
        (scores := s.pool.init.scores) (by rw [Pool.init, hs.scores]; exact hk')
      unfold keptPfx at t1
      rw [t1, M.ok_bind]
      refine Base.extract_outcome17 h hx.base hx.dict hx.built (wf_scores (wf_init hs hb) t2) (holds_scores (Pool.Holds.init _) _) ?_ t4
      have := hs.scores
      dsimp only [Pool.init] at t2 ⊢
      omega

end AC
