import Verif.Proofs.DebugAllIndex
import Verif.Proofs.DebugSame
import Verif.Proofs.LossyBuild
import Verif.Proofs.LossyConj
/-!
# Type 1 with every assertion in place, when the number of terms is a multiple of 17
-/
namespace AC
open Spec

/-- what succeeds the same with assertions as without answers only what it answers without -/
theorem Stays.back {α : Type} {m' m : M α} (h : Stays m' m) {a : α} (e : m = .ok a) : Stays m m' := by
  rw [h a e, e]
  exact .refl _

structure Index1.Rep17A (x : Index1) (F : Files) : Prop where
  rep : x.Rep17 F
  trie : Trie.Rep x.completions F.levels (F.mapped.map (·.2))
  sides : ∀ i t, x.completions[i]? = some t → Trie.Sides (F.mapped.map (·.2)) i t
  inverted : x.inverted.RepA F.univ F.inverted
  forward : x.forward.RepA F.terms.length F.forward

theorem Index1.build_rep17A {C : Coll} {F : Files} (h : Ready C F) {mem : Nat → W} {x : Index1} (hb : Index1.build F mem = .ok x) (hx : x.Rep17 F) :
    x.Rep17A F := by
  have hT := Index1.build_trie h hb
  obtain ⟨hL, hsh, -, -⟩ := h.trie
  unfold Index1.build at hb
  obtain ⟨ib, i1, hb⟩ := bind_ok hb
  obtain ⟨_, -, hb⟩ := bind_ok hb
  obtain ⟨_, -, hb⟩ := bind_ok hb
  obtain ⟨_, t1, hb⟩ := bind_ok hb
  obtain ⟨_, -, hb⟩ := bind_ok hb
  obtain ⟨_, i2, hb⟩ := bind_ok hb
  obtain ⟨_, f1, hb⟩ := bind_ok hb
  cases hb
  exact ⟨hx, hT, Trie.build_sides hL hsh t1, InvBuilder.build_repA h.invLists i1 i2, FwdIdx.build_repA h.fwdLists f1⟩

theorem Index1.extractA_same {C : Coll} {F : Files} (h : Ready C F) {x : Index1} (hx : x.Rep17A F) {n : Nat} {s : Scratch}
    (hd : ∀ d ∈ s.pool.scores.take n, ∃ c, (d, c) ∈ C) : Stays (x.extract n s) (x.extractA n s) := by
  unfold Index1.extractA Index1.extract
  refine .bind ?_ fun _ _ => .refl _
  refine .trans (extractStringsD_same x.dict (src' := x.source s.pool.scores) (fun _ => .refl _) n s.pool) ?_
  unfold extractStringsD
  refine .bind (stringsLoopD_reads (m := n) ?_ n 0 _ (by omega)) fun _ _ => .refl _
  intro i hi size term he
  unfold Index1.sourceA at he
  unfold Index1.source
  obtain ⟨d, e1, he⟩ := bind_ok he
  obtain ⟨c, hc⟩ := hd d (take_rd hi e1)
  have hl := h.lt_forward hc
  obtain ⟨p, p1, p2⟩ := hx.rep.forward.at' d hl
  rw [FwdIdx.iteratorA_eq hx.forward hl, p1, M.ok_bind] at he
  cases he
  rw [e1, M.ok_bind, p1, M.ok_bind]
  refine ⟨_, rfl, fun u hu => ?_⟩
  have hf := hx.forward.fits d hl _ p1
  dsimp only at hu hf ⊢
  unfold FwdIt.derefA FwdIt.deref
  dsimp only
  rw [CV.getD'_eq (by omega)]

/-- with assertions prefix search answers only what it answers without -/
theorem Index1.prefixTopkA_same (std : StdLib) {C : Coll} {F : Files} (h : Ready C F) {x : Index1} (hx : x.Rep17A F) {q : Str} (hq : IsText q) {k : Nat}
    (hk : 1 ≤ k) (hk' : k ≤ MAX_K) {s : Scratch} (hs : s.WF) : Stays (x.prefixTopk std q k s) (x.prefixTopkA std q k s) := by
  unfold Index1.prefixTopkA Index1.prefixTopk
  refine Stays.bind (analyseD_same x.dict q k true s) ?_
  intro p hpD
  have hp := analyseD_same x.dict q k true s p hpD
  have ha := analyse_lossy h hx.rep.dict hq true hs.dbuf
  rw [hp] at ha
  cases ha with
  | unknown buf hb hm hu => exact .refl _
  | nothing buf hb hu => exact .refl _
  | some buf hb r hr hk2 =>
      have hall := hk2 rfl
      have hn : 16 ≤ F.terms.length := by have := hx.rep.dict.pos; omega
      have hall' : ∀ t ∈ completeTerms q, t ∈ F.terms := fun t ht => Files.kept_sub (hall t ht)
      rw [List.filter_eq_self.mpr (by simpa using hall)]
      dsimp only
      have hsz : F.terms.length < 2 ^ 30 := by have := h.termCount_le; have := h.coll.size; omega
      have hle := hr.le
      have hlt := hr.lt
      obtain ⟨hL, hsh, hne, _⟩ := h.trie
      obtain ⟨r', l1, l2⟩ := hx.rep.trie ((completeTerms q).map (rankOf F.terms)) (r.b + 1) (r.e + 1) (h.pfx_small hall') (by omega) (by omega)
        (by omega)
      have lA := Trie.locatePrefixA_stays hx.trie hx.sides hL hsh hne (h.pfx_small hall') (b := r.b + 1) (e := r.e + 1) (by omega) (by omega) r' l1
      rw [l1, lA, M.ok_bind, M.ok_bind]
      have hlen : (F.mapped.map (·.2)).length = C.length := by rw [List.length_map, h.length_mapped]
      refine Stays.ite (fun _ => .refl _) (fun hv => ?_)
      rcases l2 with ⟨e1, _⟩ | ⟨e1, e2, e3⟩
      · subst e1; exact absurd rfl hv
      · rw [hlen] at e2
        rw [UL.topkA_eq std hx.rep.docs (Nat.le_of_lt e1) (by rw [List.length_map, h.length_mapped]; exact e2)]
        refine Stays.bind (.refl _) ?_
        rintro ⟨scores, n⟩ ht
        obtain ⟨buf', n', t1, t2, t3, t4⟩ := h.topk_docs std hx.rep.docs (P := PrefixKept C (completeTerms q) (lastTerm q)) e1 e2
          (by intro i hi; rw [e3 i (by rw [hlen]; exact hi), h.getElem_snd hi]; exact h.match_kept' hn hall hr (h.mem (List.getElem_mem hi))) hk
          (buf := s.pool.init.scores) (by have := hs.scores; dsimp only [Pool.init]; omega)
        rw [ht] at t1
        cases t1
        exact Index1.extractA_same h hx (fun d hd => by obtain ⟨c, hc, _⟩ := t4.sound d hd; exact ⟨c, hc⟩)

theorem Index1.conjScoresA_stays17 (std : StdLib) {C : Coll} {F : Files} (h : Ready C F) {x : Index1} (hx : x.Rep17A F) {complete : List Str} {last : Str}
    {r : Range} (hr : KeptRange C F last r.b r.e) (k : Nat) (scores : List Nat) :
    Stays (x.conjScoresA std (keptPfx F complete) r k scores) (x.conjScores std (keptPfx F complete) r k scores) := by
  have hlt := hr.lt
  have hle := hr.le
  have hn : 16 ≤ F.terms.length := by have := hx.rep.dict.pos; omega
  unfold Index1.conjScoresA Index1.conjScores
  by_cases hne : keptPfx F complete = []
  · rw [if_pos (by rw [hne]; rfl), if_pos (by rw [hne]; rfl)]
    exact MinDocs.topkA_stays std hx.inverted h.lists_lt hx.rep.minimal (by omega) (by rw [h.files.numLists]; omega) _ _
  · rw [if_neg (by simpa using hne), if_neg (by simpa using hne)]
    refine withDocsA_stays hx.inverted hne h.keptPfx_in (docsOf_sorted F _) (h.mem_docsOf17 hne) _ _ ?_
    intro σ I' I it hb
    exact Index1.conjLoopA_stays hx.forward _ _ _ _ _ _ _ hb (fun d hd => by
      obtain ⟨c, hc, _⟩ := (h.docsOf_iff17 hn hne d).mp hd
      exact h.fwd_pos hc)

/-- with assertions conjunctive search answers only what it answers without -/
theorem Index1.conjTopkA_same (std : StdLib) {C : Coll} {F : Files} (h : Ready C F) {x : Index1} (hx : x.Rep17A F) {q : Str} (hq : IsText q) {k : Nat}
    (hk : 1 ≤ k) (hk' : k ≤ MAX_K) {s : Scratch} (hs : s.WF) : Stays (x.conjTopk std q k s) (x.conjTopkA std q k s) := by
  unfold Index1.conjTopkA Index1.conjTopk
  refine Stays.bind (analyseD_same x.dict q k false s) ?_
  intro p hpD
  have hp := analyseD_same x.dict q k false s p hpD
  have ha := analyse_lossy h hx.rep.dict hq false hs.dbuf
  rw [hp] at ha
  cases ha with
  | unknown buf hb hm hu => exact .refl _
  | nothing buf hb hu => exact .refl _
  | some buf hb r hr hk2 =>
      dsimp only
      obtain ⟨scores', n, t1, t2, t3, t4⟩ := Index1.conjScores_lossy std h hx.rep (complete := completeTerms q) hr hk
        (scores := s.pool.init.scores) (by rw [Pool.init, hs.scores]; exact hk')
      have tA := Index1.conjScoresA_stays17 std h hx (complete := completeTerms q) hr k s.pool.init.scores _ t1
      unfold keptPfx at t1 tA
      rw [t1, tA, M.ok_bind, M.ok_bind]
      exact Index1.extractA_same h hx (fun d hd => by obtain ⟨c, hc, _⟩ := t4.sound d hd; exact ⟨c, hc⟩)

end AC
