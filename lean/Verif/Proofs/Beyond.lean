import Verif.Proofs.Cut
/-!
# Conjunctive queries with `k` zero or greater than the size of the buffer
-/
namespace AC
open Spec

section
variable {C : Coll} {F : Files} (h : Ready C F)
include h

theorem Ready.length_le {P : List Str → Prop} {K b : Nat} {E : List Nat} (ht : IsTopK (Doc C P) K E) (hm : AtMost C P b) : E.length ≤ b := by
  have hn : C.Nodup := List.Pairwise.of_map (·.1) (fun a b h => fun hab => h (by rw [hab])) h.coll.docs
  have h1 : (C.filter (fun r => decide (r.1 ∈ E))).length ≤ b := by
    apply hm _ (hn.sublist List.filter_sublist)
    intro r hr
    obtain ⟨hr, he⟩ := List.mem_filter.mp hr
    obtain ⟨c, hc, hp⟩ := ht.sound r.1 (by simpa using he)
    have : r.2 = c := h.unique (d := r.1) hr hc
    exact ⟨hr, this ▸ hp⟩
  have h2 := nodup_subset_length (A := E) (B := (C.filter (fun r => decide (r.1 ∈ E))).map (·.1)) (ht.sorted.imp (fun h => Nat.ne_of_lt h)) (by
    intro d hd
    obtain ⟨c, hc, _⟩ := ht.sound d hd
    exact List.mem_map.mpr ⟨(d, c), List.mem_filter.mpr ⟨hc, by simpa using hd⟩, rfl⟩)
  rw [List.length_map] at h2
  omega

theorem Ready.lt_length {P : List Str → Prop} {K b : Nat} {E : List Nat} (ht : IsTopK (Doc C P) K E) (hK : b < K) (hm : ¬ AtMost C P b) :
    b < E.length := by
  apply Nat.lt_of_not_le
  intro hle
  apply hm
  intro L hL hLP
  have h1 : (L.map (·.1)).Nodup := by
    rw [List.nodup_iff_pairwise_ne, List.pairwise_map]
    refine List.Pairwise.imp_of_mem ?_ hL
    intro a b ha hb hab e
    apply hab
    have hb' := (hLP b hb).1
    rw [Prod.ext_iff]
    refine ⟨e, h.unique (d := a.1) (hLP a ha).1 ?_⟩
    rw [e]; exact hb'
  have := nodup_subset_length (B := E) h1 (by
    intro d hd
    obtain ⟨r, hr, rfl⟩ := List.mem_map.mp hd
    apply Decidable.byContradiction
    intro hne
    have := (ht.complete r.1 ⟨r.2, hLP r hr⟩ hne).1
    omega)
  rw [List.length_map] at this
  omega

theorem Ready.topk_le_coll {P : List Str → Prop} {K : Nat} {E : List Nat} (ht : IsTopK (Doc C P) K E) : E.length ≤ C.length :=
  h.length_le ht (fun _ hL hLP => nodup_subset_length' hL (fun r hr => (hLP r hr).1))

/-- a search that stores more documents than there is room for -/
theorem Ready.scores_overflow {P : List Str → Prop} {g : Nat → List Nat → M (List Nat × Nat)}
    (hg : ∀ (K : Nat) (scores : List Nat), 1 ≤ K → K ≤ scores.length → Scored C P K scores (g K scores))
    (hcut : ∀ (k K : Nat) (buf ext : List Nat), Cut k K buf.length (g K (buf ++ ext)) (g k buf)) {k : Nat} {buf : List Nat}
    (hk : k = 0 ∨ buf.length < k) (hm : ¬ AtMost C P buf.length) : g k buf = .error .oob := by
  have key : ∀ K, buf.length < K → (k = K ∨ (C.length < K ∧ k = 0)) → g k buf = .error .oob := by
    intro K hK hc
    obtain ⟨sc, n, e1, e2, e3, e4⟩ := hg K (buf ++ List.replicate K 0) (by omega) (by simp)
    have hlen : (sc.take n).length = n := by rw [List.length_take, e2, List.length_append, List.length_replicate]; omega
    have h1 := h.lt_length e4 hK hm
    have h2 := h.topk_le_coll e4
    exact (hcut k K buf _ sc n e1 (by omega)).2 (by omega)
  rcases hk with rfl | hk
  · exact key (C.length + buf.length + 1) (by omega) (Or.inr ⟨by omega, rfl⟩)
  · exact key k hk (Or.inl rfl)

/-- there is room for all the documents -/
theorem Ready.scores_all {P : List Str → Prop} {g : Nat → List Nat → M (List Nat × Nat)}
    (hg : ∀ (K : Nat) (scores : List Nat), 1 ≤ K → K ≤ scores.length → Scored C P K scores (g K scores))
    (hcut : ∀ (k K : Nat) (buf ext : List Nat), Cut k K buf.length (g K (buf ++ ext)) (g k buf)) {k : Nat} {buf : List Nat}
    (hk : k = 0 ∨ buf.length < k) (hm : AtMost C P buf.length) :
    ∃ sc n, g k buf = .ok (sc, n) ∧ sc.length = buf.length ∧ n ≤ buf.length ∧ ∀ j, buf.length ≤ j → IsTopK (Doc C P) j (sc.take n) := by
  obtain ⟨sc, n, e1, e2, e3, e4⟩ := hg (C.length + buf.length + 1) (buf ++ List.replicate (C.length + buf.length + 1) 0) (by omega) (by simp)
  rw [List.length_append, List.length_replicate] at e2
  have hlen : (sc.take n).length = n := by rw [List.length_take, e2]; omega
  have h1 := h.length_le e4 hm
  refine ⟨sc.take buf.length, n, (hcut k _ buf _ sc n e1 (by omega)).1 (by omega), by rw [List.length_take]; omega, by omega, ?_⟩
  intro j hj
  rw [List.take_take, Nat.min_eq_left (by omega)]
  refine ⟨e4.sorted, e4.sound, by omega, ?_⟩
  intro x hx hne
  have := (e4.complete x hx hne).1
  omega

end
end AC

namespace AC
open Spec

/-! ## The loop of type 2, without a limit -/

theorem Filled.limit {P : Nat → Bool} {k k' : Nat} {R scores scores' : List Nat} {n n' : Nat} (h : Filled P k R scores n scores' n')
    (h1 : n + R.length ≤ k) (h2 : n + R.length ≤ k') : Filled P k' R scores n scores' n' := by
  have hl := List.length_filter_le P R
  have e1 : (R.filter P).take (k - n) = R.filter P := List.take_of_length_le (by omega)
  have e2 : (R.filter P).take (k' - n) = R.filter P := List.take_of_length_le (by omega)
  refine ⟨?_, h.length, ?_⟩
  · rw [e2, h.count, e1]
  · rw [e2, h.taken, e1]

section
variable {x : Index2} {mapped : List (Nat × Ids)} (h : x.toBase.Rep mapped) (cOf : Nat → Ids) (r : Range) (k : Nat)
    (hk : k = 0 ∨ MAX_K < k) {σ : Type} {I : DocIter σ}
include h hk

/-- it works when there is room for the last document to be loaded -/
theorem Index2.conjLoop_all :
    ∀ (R : List Nat) (fuel : Nat) (it : σ) (scores : List Nat) (compl : List Ids) (sizes : List Nat) (n : Nat) (cs : List Ids),
    I.Enum it R → (∀ d ∈ R, (d, cOf d) ∈ mapped) → R.length < fuel →
    (R ≠ [] → n + (R.dropLast.filter (fun d => (cOf d).any (fun t => r.contains t))).length < MAX_K) → n ≤ MAX_K →
    scores.length = MAX_K → Shape compl sizes → Rows compl sizes cs → cs.length = n →
    ∃ scores' compl' sizes' n', x.conjLoop I r k fuel it scores compl sizes n = .ok (scores', compl', sizes', n') ∧ n' ≤ MAX_K ∧
      Filled (fun d => (cOf d).any (fun t => r.contains t)) (n + R.length) R scores n scores' n' ∧ Shape compl' sizes' ∧
      Rows compl' sizes' (cs ++ (R.filter (fun d => (cOf d).any (fun t => r.contains t))).map cOf) := by
  intro R
  induction R with
  | nil =>
      intro fuel it scores compl sizes n cs he hR hfuel hroom hn hl hs hr hcs
      obtain ⟨fuel, rfl⟩ : ∃ f, fuel = f + 1 := ⟨fuel - 1, by simp at hfuel; omega⟩
      have he : I.hasNext it = false := he
      exact ⟨scores, compl, sizes, n, by rw [Index2.conjLoop, he]; rfl, hn, Filled.nil, hs, by simpa using hr⟩
  | cons d R ih =>
      intro fuel it scores compl sizes n cs he hR hfuel hroom hn hl hs hr hcs
      obtain ⟨fuel, rfl⟩ : ∃ f, fuel = f + 1 := ⟨fuel - 1, by omega⟩
      simp only [List.length_cons] at hfuel
      obtain ⟨e1, e2, it', e3, e4⟩ := he
      have hd := hR d (by simp)
      have hroom := hroom (by simp)
      have hn15 : n < MAX_K := by omega
      obtain ⟨row, l1, l2, l3⟩ := Base.load_spec h hd hs hn15
      have hnl : n < (compl.set n row).length := by rw [List.length_set, hs.count]; omega
      have hlen : (cOf d).length ≤ row.length := by
        have := congrArg List.length l3
        rw [List.length_take] at this; omega
      rw [Index2.conjLoop, e1, if_pos rfl, e2, l1, M.ok_bind]
      dsimp only
      rw [rd_ok hnl, M.ok_bind, List.getElem_set_self, Index2.anyTerm_spec r row _ 0 (by omega), M.ok_bind, List.drop_zero, l3]
      have hs' := hs.set (i := n) l2
      have hr' := hr.compl_set (i := n) (row := row) (by omega)
      cases hp : (cOf d).any (fun t => r.contains t) with
      | false =>
          rw [if_neg (by simp), e3, M.ok_bind]
          obtain ⟨s', c', z', n', h1, h0, h2, h3, h4⟩ := ih fuel it' scores _ sizes n cs e4 (fun d hd => hR d (by simp [hd]))
            (by omega) (by
              intro hne
              rw [List.dropLast_cons_of_ne_nil hne, List.filter_cons_of_neg (by simp [hp])] at hroom
              exact hroom) hn hl hs' hr' hcs
          refine ⟨s', c', z', n', h1, h0, (h2.limit (k' := n + (d :: R).length) (by omega) (by simp)).skip hp, h3, ?_⟩
          · rw [List.filter_cons_of_neg (by simp [hp])]; exact h4
      | true =>
          rw [if_pos rfl, wr_ok (by omega), M.ok_bind, wr_ok (by rw [hs.slots]; omega), M.ok_bind]
          have hrn := hr'.snoc (row := row) (c := cOf d) hcs
            (by rw [List.getElem?_set_self (by rw [hs.count]; omega)]) l3 (by rw [hs.slots]; omega)
          have hfil : (d :: R).filter (fun d => (cOf d).any (fun t => r.contains t)) =
              d :: R.filter (fun d => (cOf d).any (fun t => r.contains t)) := List.filter_cons_of_pos hp
          rw [if_neg (by omega), e3, M.ok_bind]
          obtain ⟨s', c', z', n', h1, h0, h2, h3, h4⟩ := ih fuel it' (scores.set n d) _ _ (n + 1) (cs ++ [cOf d]) e4
            (fun d hd => hR d (by simp [hd])) (by omega) (by
              intro hne
              rw [List.dropLast_cons_of_ne_nil hne, List.filter_cons_of_pos (by simpa using hp), List.length_cons] at hroom
              omega) (by omega) (by simpa using hl) (hs'.size _ _) hrn (by simpa using hcs)
          refine ⟨s', c', z', n', h1, h0, ?_, h3, ?_⟩
          · rw [show n + (d :: R).length = n + 1 + R.length by simp; omega]
            exact h2.more hp (by omega) (by omega)
          · rw [hfil, List.map_cons]
            simpa using h4

/-- there is no room to load one of the documents -/
theorem Index2.conjLoop_overflow :
    ∀ (R : List Nat) (fuel : Nat) (it : σ) (scores : List Nat) (compl : List Ids) (sizes : List Nat) (n : Nat),
    I.Enum it R → (∀ d ∈ R, (d, cOf d) ∈ mapped) → R.length < fuel → R ≠ [] →
    MAX_K ≤ n + (R.dropLast.filter (fun d => (cOf d).any (fun t => r.contains t))).length → n ≤ MAX_K →
    scores.length = MAX_K → Shape compl sizes → x.conjLoop I r k fuel it scores compl sizes n = .error .oob := by
  intro R
  induction R with
  | nil => intro fuel it scores compl sizes n _ _ _ hne; exact absurd rfl hne
  | cons d R ih =>
      intro fuel it scores compl sizes n he hR hfuel _ hroom hn hl hs
      obtain ⟨fuel, rfl⟩ : ∃ f, fuel = f + 1 := ⟨fuel - 1, by omega⟩
      simp only [List.length_cons] at hfuel
      obtain ⟨e1, e2, it', e3, e4⟩ := he
      have hd := hR d (by simp)
      rw [Index2.conjLoop, e1, if_pos rfl, e2]
      rcases Nat.lt_or_ge n MAX_K with hn15 | hn15
      · have hne : R ≠ [] := by
          rintro rfl
          simp at hroom; omega
        rw [List.dropLast_cons_of_ne_nil hne] at hroom
        obtain ⟨row, l1, l2, l3⟩ := Base.load_spec h hd hs hn15
        have hnl : n < (compl.set n row).length := by rw [List.length_set, hs.count]; omega
        have hlen : (cOf d).length ≤ row.length := by
          have := congrArg List.length l3
          rw [List.length_take] at this; omega
        rw [l1, M.ok_bind]
        dsimp only
        rw [rd_ok hnl, M.ok_bind, List.getElem_set_self, Index2.anyTerm_spec r row _ 0 (by omega), M.ok_bind, List.drop_zero, l3]
        have hs' := hs.set (i := n) l2
        cases hp : (cOf d).any (fun t => r.contains t) with
        | false =>
            rw [if_neg (by simp), e3, M.ok_bind]
            rw [List.filter_cons_of_neg (by simp [hp])] at hroom
            exact ih fuel it' scores _ sizes n e4 (fun d hd => hR d (by simp [hd])) (by omega) hne hroom hn hl hs'
        | true =>
            rw [if_pos rfl, wr_ok (by omega), M.ok_bind, wr_ok (by rw [hs.slots]; omega), M.ok_bind]
            rw [List.filter_cons_of_pos (by simpa using hp), List.length_cons] at hroom
            rw [if_neg (by omega), e3, M.ok_bind]
            exact ih fuel it' (scores.set n d) _ _ (n + 1) e4 (fun d hd => hR d (by simp [hd])) (by omega) hne (by omega) (by omega)
              (by simpa using hl) (hs'.size _ _)
      · have hn' : n = MAX_K := by omega
        obtain ⟨j, hj, e⟩ := List.getElem_of_mem hd
        obtain ⟨w, w1, w2⟩ := h.lexids j hj
        rw [e] at w1
        unfold Base.load
        rw [w1, M.ok_bind]
        unfold rd
        rw [List.getElem?_eq_none (by rw [hs.count]; omega)]
        rfl

end
end AC

namespace AC
open Spec

/-! ## Queries -/

section
variable {C : Coll} {F : Files} (h : Ready C F) {q : Str} (hq : IsText q) {k : Nat} (hk : k = 0 ∨ MAX_K < k) {s : Scratch} (hs : s.WF)
include h hq hk hs

theorem Index1.conj_all (std : StdLib) {x : Index1} (hx : x.Rep F) (hm : AtMost C (ConjFound C (completeTerms q) (lastTerm q)) MAX_K) {j : Nat}
    (hj : MAX_K ≤ j) : Outcome C F.terms (ConjFound C (completeTerms q) (lastTerm q)) j (x.conjTopk std q k s) := by
  have ha := analyse_spec h hx.dict hq false hs.dbuf
  unfold Index1.conjTopk
  generalize analyse x.dict q false s = a at ha
  cases ha with
  | unknown buf hb hm hu => simp at hm
  | nothing buf hb hu => exact outcome_none (wf_init hs hb) (Pool.Holds.init _) hx.built (h.not_conjFound hu)
  | some buf hb r hr hk2 =>
      rw [M.ok_bind]
      dsimp only
      have hl : s.pool.init.scores.length = MAX_K := hs.scores
      obtain ⟨scores', n, t1, t2, t3, t4⟩ := h.scores_all (buf := s.pool.init.scores) (k := k)
        (fun K sc h1 h2 => Index1.conjScores_spec std h hx (complete := completeTerms q) hr h1 h2)
        (fun _ _ _ _ => Index1.conjScores_cut) (by rw [hl]; exact hk) (by rw [hl]; exact hm)
      unfold knownPfx at t1
      rw [t1, M.ok_bind]
      exact Index1.extract_outcome h hx (wf_scores (wf_init hs hb) t2) (holds_scores (Pool.Holds.init _) _) (by dsimp only; omega) (t4 j (by omega))

theorem Index1.conj_overflow (std : StdLib) {x : Index1} (hx : x.Rep F) (hm : ¬ AtMost C (ConjFound C (completeTerms q) (lastTerm q)) MAX_K) :
    x.conjTopk std q k s = .error .oob := by
  have ha := analyse_spec h hx.dict hq false hs.dbuf
  unfold Index1.conjTopk
  generalize analyse x.dict q false s = a at ha
  cases ha with
  | unknown buf hb hm hu => simp at hm
  | nothing buf hb hu =>
      exfalso
      apply hm
      intro L _ hL
      cases L with
      | nil => exact Nat.zero_le _
      | cons r L => exact absurd (hL r (by simp)).2 (h.not_conjFound hu r (hL r (by simp)).1)
  | some buf hb r hr hk2 =>
      rw [M.ok_bind]
      dsimp only
      have hl : s.pool.init.scores.length = MAX_K := hs.scores
      have t1 := h.scores_overflow (buf := s.pool.init.scores) (k := k)
        (fun K sc h1 h2 => Index1.conjScores_spec std h hx (complete := completeTerms q) hr h1 h2)
        (fun _ _ _ _ => Index1.conjScores_cut) (by rw [hl]; exact hk) (by rw [hl]; exact hm)
      unfold knownPfx at t1
      rw [t1]
      rfl

theorem Index3.conj_all (std : StdLib) {x : Index3} (hx : x.Rep F) (hm : AtMost C (ConjFound C (completeTerms q) (lastTerm q)) MAX_K) {j : Nat}
    (hj : MAX_K ≤ j) : Outcome C F.terms (ConjFound C (completeTerms q) (lastTerm q)) j (x.conjTopk std q k s) := by
  have ha := analyse_spec h hx.dict hq false hs.dbuf
  unfold Index3.conjTopk
  generalize analyse x.dict q false s = a at ha
  cases ha with
  | unknown buf hb hm hu => simp at hm
  | nothing buf hb hu => exact outcome_none (wf_init hs hb) (Pool.Holds.init _) hx.built (h.not_conjFound hu)
  | some buf hb r hr hk2 =>
      rw [M.ok_bind]
      dsimp only
      have hl : s.pool.init.scores.length = MAX_K := hs.scores
      obtain ⟨scores', n, t1, t2, t3, t4⟩ := h.scores_all (buf := s.pool.init.scores) (k := k)
        (fun K sc h1 h2 => Index3.conjScores_spec std h hx (complete := completeTerms q) hr h1 h2)
        (fun _ _ _ _ => Index3.conjScores_cut) (by rw [hl]; exact hk) (by rw [hl]; exact hm)
      unfold knownPfx at t1
      rw [t1, M.ok_bind]
      exact Base.extract_outcome h hx.base hx.dict hx.built (wf_scores (wf_init hs hb) t2) (holds_scores (Pool.Holds.init _) _) (by dsimp only; omega)
        (t4 j (by omega))

theorem Index3.conj_overflow (std : StdLib) {x : Index3} (hx : x.Rep F) (hm : ¬ AtMost C (ConjFound C (completeTerms q) (lastTerm q)) MAX_K) :
    x.conjTopk std q k s = .error .oob := by
  have ha := analyse_spec h hx.dict hq false hs.dbuf
  unfold Index3.conjTopk
  generalize analyse x.dict q false s = a at ha
  cases ha with
  | unknown buf hb hm hu => simp at hm
  | nothing buf hb hu =>
      exfalso
      apply hm
      intro L _ hL
      cases L with
      | nil => exact Nat.zero_le _
      | cons r L => exact absurd (hL r (by simp)).2 (h.not_conjFound hu r (hL r (by simp)).1)
  | some buf hb r hr hk2 =>
      rw [M.ok_bind]
      dsimp only
      have hl : s.pool.init.scores.length = MAX_K := hs.scores
      have t1 := h.scores_overflow (buf := s.pool.init.scores) (k := k)
        (fun K sc h1 h2 => Index3.conjScores_spec std h hx (complete := completeTerms q) hr h1 h2)
        (fun _ _ _ _ => Index3.conjScores_cut) (by rw [hl]; exact hk) (by rw [hl]; exact hm)
      unfold knownPfx at t1
      rw [t1]
      rfl

end
end AC

namespace AC
open Spec

/-- some completion with all the complete terms comes after 15 matches -/
def Crowded (C : Coll) (complete : List Str) (last : Str) : Prop :=
  ∃ (L : Coll) (r : Nat × List Str), L.Nodup ∧ L.length = MAX_K ∧ (∀ x ∈ L, x ∈ C ∧ ConjFound C complete last x.2 ∧ x.1 < r.1) ∧
    r ∈ C ∧ ∀ t ∈ complete, IsTerm C t → t ∈ r.2

theorem mem_dropLast_of_lt {R : List Nat} (hs : R.Pairwise (· < ·)) {a b : Nat} (ha : a ∈ R) (hb : b ∈ R) (hab : a < b) : a ∈ R.dropLast := by
  have hne : R ≠ [] := List.ne_nil_of_mem ha
  have e := List.dropLast_concat_getLast hne
  rw [← e] at ha hb hs
  rcases List.mem_append.mp ha with ha | ha
  · exact ha
  · exfalso
    rw [List.pairwise_append] at hs
    have ha := List.mem_singleton.mp ha
    rcases List.mem_append.mp hb with hb | hb
    · have := hs.2.2 b hb a (by rw [ha]; simp); omega
    · have := List.mem_singleton.mp hb; omega

theorem filter_dropLast_length {P : Nat → Bool} (R : List Nat) : (R.filter P).length ≤ (R.dropLast.filter P).length + 1 := by
  by_cases hne : R = []
  · subst hne; simp
  · have e := List.dropLast_concat_getLast hne
    conv => lhs; rw [← e]
    rw [List.filter_append, List.length_append]
    have := List.length_filter_le P [R.getLast hne]
    simp at this ⊢
    omega

section
variable {C : Coll} {F : Files} (h : Ready C F)
include h

/-- the documents considered after 15 matches -/
theorem Ready.crowded_iff {complete : List Str} (hne : knownPfx F complete ≠ []) {last : Str} {b e : Nat} (hr : LastRange C F last b e) :
    Crowded C complete last ↔ docsOf F (knownPfx F complete) ≠ [] ∧
      MAX_K ≤ ((docsOf F (knownPfx F complete)).dropLast.filter (fun d => (F.forward.getD d []).any (fun t => Range.contains ⟨b + 1, e + 1⟩ t))).length := by
  have hs := docsOf_sorted F (knownPfx F complete)
  have hcd := fun d => h.conj_docs hne hr d
  have hdo := fun d => h.docsOf_iff hne d
  generalize docsOf F (knownPfx F complete) = R at hs hcd hdo
  constructor
  · rintro ⟨L, r, h1, h2, h3, h4, h5⟩
    have hrR : r.1 ∈ R := (hdo r.1).mpr ⟨r.2, h4, h5⟩
    refine ⟨List.ne_nil_of_mem hrR, ?_⟩
    have hn : (L.map (·.1)).Nodup := by
      rw [List.nodup_iff_pairwise_ne, List.pairwise_map]
      refine List.Pairwise.imp_of_mem ?_ h1
      intro a b ha hb hab e
      apply hab
      have hb' := (h3 b hb).1
      rw [Prod.ext_iff]
      refine ⟨e, h.unique (d := a.1) (h3 a ha).1 ?_⟩
      rw [e]; exact hb'
    have := nodup_subset_length (B := R.dropLast.filter (fun d => (F.forward.getD d []).any (fun t => Range.contains ⟨b + 1, e + 1⟩ t))) hn (by
      intro d hd
      obtain ⟨x, hx, rfl⟩ := List.mem_map.mp hd
      obtain ⟨x1, x2, x3⟩ := h3 x hx
      obtain ⟨g1, g2⟩ := (hcd x.1).mpr ⟨x.2, x1, x2⟩
      exact List.mem_filter.mpr ⟨mem_dropLast_of_lt hs g1 hrR x3, g2⟩)
    rw [List.length_map] at this
    omega
  · rintro ⟨h1, h2⟩
    have hlast : R.getLast h1 ∈ R := List.getLast_mem h1
    obtain ⟨c, hc, hall⟩ := (hdo _).mp hlast
    have hcat := List.dropLast_concat_getLast h1
    have hsub : ∀ d ∈ (R.dropLast.filter (fun d => (F.forward.getD d []).any (fun t => Range.contains ⟨b + 1, e + 1⟩ t))).take MAX_K,
        d < R.getLast h1 ∧ Doc C (ConjFound C complete last) d := by
      intro d hd
      obtain ⟨d1, d2⟩ := List.mem_filter.mp (List.mem_of_mem_take hd)
      refine ⟨?_, (hcd d).mp ⟨List.dropLast_subset _ d1, d2⟩⟩
      rw [← hcat, List.pairwise_append] at hs
      exact hs.2.2 d d1 _ (by simp)
    refine ⟨((R.dropLast.filter (fun d => (F.forward.getD d []).any (fun t => Range.contains ⟨b + 1, e + 1⟩ t))).take MAX_K).map (AC.rowOf F), (R.getLast h1, c), ?_,
      by rw [List.length_map, List.length_take]; omega, ?_, hc, hall⟩
    · have hp : (R.dropLast.filter (fun d => (F.forward.getD d []).any (fun t => Range.contains ⟨b + 1, e + 1⟩ t))).Pairwise (· < ·) :=
        hs.sublist (List.filter_sublist.trans (List.dropLast_sublist _))
      rw [List.nodup_iff_pairwise_ne, List.pairwise_map]
      refine (hp.sublist (List.take_sublist _ _)).imp ?_
      intro a b hab hab'
      have := congrArg Prod.fst hab'
      have : a = b := this
      omega
    · intro x hx
      obtain ⟨d, hd, rfl⟩ := List.mem_map.mp hx
      obtain ⟨h3, c', hc', h4⟩ := hsub d hd
      rw [h.rowOf hc']
      exact ⟨hc', h4, h3⟩

theorem Ready.crowded_of_many {complete : List Str} (hne : knownPfx F complete ≠ []) {last : Str} {b e : Nat} (hr : LastRange C F last b e)
    (hm : ¬ AtMost C (ConjFound C complete last) MAX_K) : Crowded C complete last := by
  rw [h.crowded_iff hne hr]
  have h1 := h.lt_length (topk_take ((docsOf_sorted F (knownPfx F complete)).sublist List.filter_sublist)
    (fun d => by rw [List.mem_filter]; exact h.conj_docs hne hr d) (MAX_K + 1)) (Nat.lt_succ_self _) hm
  rw [List.length_take] at h1
  have h2 := filter_dropLast_length (P := fun d => (F.forward.getD d []).any (fun t => Range.contains ⟨b + 1, e + 1⟩ t)) (docsOf F (knownPfx F complete))
  refine ⟨?_, by omega⟩
  intro h0
  rw [h0] at h1
  simp at h1

theorem Ready.known_iff {complete : List Str} : knownPfx F complete ≠ [] ↔ ∃ t ∈ complete, IsTerm C t := by
  constructor
  · intro hne
    obtain ⟨t, ht⟩ := List.exists_mem_of_ne_nil _ hne
    obtain ⟨s, hs, rfl⟩ := List.mem_map.mp ht
    obtain ⟨h1, h2⟩ := List.mem_filter.mp hs
    exact ⟨s, h1, (h.isTerm s).mpr (by simpa using h2)⟩
  · rintro ⟨t, ht, hT⟩
    exact List.ne_nil_of_mem (List.mem_map.mpr ⟨t, List.mem_filter.mpr ⟨ht, by simpa using (h.isTerm t).mp hT⟩, rfl⟩)

section
variable {q : Str} (hq : IsText q) {k : Nat} (hk : k = 0 ∨ MAX_K < k) {s : Scratch} (hs : s.WF)
include hq hk hs

theorem Index2.conj_overflow (std : StdLib) {x : Index2} (hx : x.Rep F)
    (hm : ¬ AtMost C (ConjFound C (completeTerms q) (lastTerm q)) MAX_K ∨
      (∃ t ∈ completeTerms q, IsTerm C t) ∧ Crowded C (completeTerms q) (lastTerm q)) :
    x.conjTopk std q k s = .error .oob := by
  have ha := analyse_spec h hx.dict hq false hs.dbuf
  unfold Index2.conjTopk
  generalize analyse x.dict q false s = a at ha
  cases ha with
  | unknown buf hb hm hu => simp at hm
  | nothing buf hb hu =>
      exfalso
      have hno := h.not_conjFound (complete := completeTerms q) hu
      rcases hm with hm | ⟨_, L, r, _, h2, h3, _⟩
      · apply hm
        intro L _ hL
        cases L with
        | nil => exact Nat.zero_le _
        | cons r L => exact absurd (hL r (by simp)).2 (hno r (hL r (by simp)).1)
      · cases L with
        | nil => exact absurd h2 (by decide)
        | cons r L => exact absurd (h3 r (by simp)).2.1 (hno r (h3 r (by simp)).1)
  | some buf hb r hr hk2 =>
      rw [M.ok_bind]
      dsimp only
      have hl : s.pool.init.scores.length = MAX_K := hs.scores
      have hlt := hr.lt
      by_cases hne : knownPfx F (completeTerms q) = []
      · rw [if_pos (by unfold knownPfx at hne; rw [hne]; rfl)]
        have hm : ¬ AtMost C (ConjFound C (completeTerms q) (lastTerm q)) MAX_K := by
          rcases hm with hm | ⟨hm, _⟩
          · exact hm
          · exact absurd hne (h.known_iff.mpr hm)
        have t1 := h.scores_overflow (buf := s.pool.init.scores) (k := k)
          (g := fun K sc => MinDocs.topk std x.inverted x.minimal r.b (r.e + 1) K sc)
          (P := ConjFound C (completeTerms q) (lastTerm q))
          (fun K sc h1 h2 => by
            obtain ⟨buf', n, t1, t2, t3, t4⟩ := MinDocs.topk_spec std hx.inverted hx.minimal (a := r.b) (b := r.e + 1) (by have := hr.le; omega)
              (by rw [h.files.numLists]; omega) h1 (buf := sc) h2
            exact ⟨buf', n, t1, t2, t3, IsTopK_congr (h.union_docs hne hr) t4⟩)
          (fun _ _ _ _ => MinDocs.topk_cut) (by rw [hl]; exact hk) (by rw [hl]; exact hm)
        rw [t1]
        rfl
      · rw [if_neg (by unfold knownPfx at hne; simpa using hne)]
        have hcr : Crowded C (completeTerms q) (lastTerm q) := by
          rcases hm with hm | ⟨_, hm⟩
          · exact h.crowded_of_many hne hr hm
          · exact hm
        obtain ⟨c1, c2⟩ := (h.crowded_iff hne hr).mp hcr
        have key := withDocs_spec (std := std) hx.inverted hne h.knownPfx_in (docsOf_sorted F _) (h.mem_docsOf hne)
          (fun I it => x.conjLoop I ⟨r.b + 1, r.e + 1⟩ k (x.inverted.numDocs + 1) it s.pool.init.scores s.compl s.sizes 0)
          (fun o => o = .error .oob)
          (by
            intro σ I it he
            exact Index2.conjLoop_overflow hx.base (fun d => F.forward.getD d []) ⟨r.b + 1, r.e + 1⟩ k hk
              (docsOf F (knownPfx F (completeTerms q))) (x.inverted.numDocs + 1) it s.pool.init.scores s.compl s.sizes 0 he
              (by
                intro d hd
                obtain ⟨c, hc, _⟩ := (h.docsOf_iff hne d).mp hd
                exact h.mapped_mem hc)
              (by rw [hx.inverted.docs]; have := docsOf_length F (knownPfx F (completeTerms q)); omega) c1 (by rw [Nat.zero_add]; exact c2) (Nat.zero_le _) hs.scores hs.shape)
        unfold knownPfx at key
        rw [key]
        rfl

theorem Index2.conj_all (std : StdLib) {x : Index2} (hx : x.Rep F) (hm : AtMost C (ConjFound C (completeTerms q) (lastTerm q)) MAX_K)
    (hm2 : (∃ t ∈ completeTerms q, IsTerm C t) → ¬ Crowded C (completeTerms q) (lastTerm q)) {j : Nat} (hj : MAX_K ≤ j) :
    Outcome C F.terms (ConjFound C (completeTerms q) (lastTerm q)) j (x.conjTopk std q k s) := by
  have ha := analyse_spec h hx.dict hq false hs.dbuf
  unfold Index2.conjTopk
  generalize analyse x.dict q false s = a at ha
  cases ha with
  | unknown buf hb hm hu => simp at hm
  | nothing buf hb hu => exact outcome_none (wf_init hs hb) (Pool.Holds.init _) hx.built (h.not_conjFound hu)
  | some buf hb r hr hk2 =>
      rw [M.ok_bind]
      dsimp only
      have hl : s.pool.init.scores.length = MAX_K := hs.scores
      have hlt := hr.lt
      by_cases hne : knownPfx F (completeTerms q) = []
      · rw [if_pos (by unfold knownPfx at hne; rw [hne]; rfl)]
        obtain ⟨buf', n, t1, t2, t3, t4⟩ := h.scores_all (buf := s.pool.init.scores) (k := k)
          (g := fun K sc => MinDocs.topk std x.inverted x.minimal r.b (r.e + 1) K sc)
          (P := ConjFound C (completeTerms q) (lastTerm q))
          (fun K sc h1 h2 => by
            obtain ⟨buf', n, t1, t2, t3, t4⟩ := MinDocs.topk_spec std hx.inverted hx.minimal (a := r.b) (b := r.e + 1) (by have := hr.le; omega)
              (by rw [h.files.numLists]; omega) h1 (buf := sc) h2
            exact ⟨buf', n, t1, t2, t3, IsTopK_congr (h.union_docs hne hr) t4⟩)
          (fun _ _ _ _ => MinDocs.topk_cut) (by rw [hl]; exact hk) (by rw [hl]; exact hm)
        rw [t1, M.ok_bind]
        exact Base.extract_outcome h hx.base hx.dict hx.built (wf_scores (wf_init hs hb) t2) (holds_scores (Pool.Holds.init _) _)
          (by dsimp only; omega) (t4 j (by omega))
      · rw [if_neg (by unfold knownPfx at hne; simpa using hne)]
        have hroom : docsOf F (knownPfx F (completeTerms q)) ≠ [] → 0 + ((docsOf F (knownPfx F (completeTerms q))).dropLast.filter
            (fun d => (F.forward.getD d []).any (fun t => Range.contains ⟨r.b + 1, r.e + 1⟩ t))).length < MAX_K := by
          intro h0
          have := (not_congr (h.crowded_iff hne hr)).mp (hm2 (h.known_iff.mp hne))
          apply Nat.lt_of_not_le
          intro hle
          exact this ⟨h0, by omega⟩
        have key := withDocs_spec (std := std) hx.inverted hne h.knownPfx_in (docsOf_sorted F _) (h.mem_docsOf hne)
          (fun I it => x.conjLoop I ⟨r.b + 1, r.e + 1⟩ k (x.inverted.numDocs + 1) it s.pool.init.scores s.compl s.sizes 0)
          (fun o => ∃ scores' compl' sizes' n', o = .ok (scores', compl', sizes', n') ∧ scores'.length = s.pool.scores.length ∧ n' ≤ MAX_K ∧
            IsTopK (Doc C (ConjFound C (completeTerms q) (lastTerm q))) j (scores'.take n') ∧ Shape compl' sizes' ∧
            Rows compl' sizes' ((scores'.take n').map (fun d => F.forward.getD d [])))
          (by
            intro σ I it he
            obtain ⟨scores', compl', sizes', n', t1, t0, t2, t3, t4⟩ := Index2.conjLoop_all hx.base (fun d => F.forward.getD d []) ⟨r.b + 1, r.e + 1⟩ k hk
              (docsOf F (knownPfx F (completeTerms q))) (x.inverted.numDocs + 1) it s.pool.init.scores s.compl s.sizes 0 [] he
              (by
                intro d hd
                obtain ⟨c, hc, _⟩ := (h.docsOf_iff hne d).mp hd
                exact h.mapped_mem hc)
              (by rw [hx.inverted.docs]; have := docsOf_length F (knownPfx F (completeTerms q)); omega) hroom (Nat.zero_le _) hs.scores hs.shape Rows.nil rfl
            have t7 := t2.taken
            have hfl := List.length_filter_le (fun d => (F.forward.getD d []).any (fun t => Range.contains ⟨r.b + 1, r.e + 1⟩ t))
              (docsOf F (knownPfx F (completeTerms q)))
            have hn' := t2.count
            simp only [Nat.zero_add, Nat.sub_zero] at t7 hn'
            rw [List.take_of_length_le hfl] at t7 hn'
            rw [List.take_zero, List.nil_append] at t7
            rw [List.nil_append, ← t7] at t4
            refine ⟨scores', compl', sizes', n', t1, t2.length, t0, ?_, t3, t4⟩
            rw [t7]
            have := topk_take (P := Doc C (ConjFound C (completeTerms q) (lastTerm q)))
              ((docsOf_sorted F (knownPfx F (completeTerms q))).sublist
                (List.filter_sublist (p := fun d => (F.forward.getD d []).any (fun t => Range.contains ⟨r.b + 1, r.e + 1⟩ t))))
              (fun d => by rw [List.mem_filter]; exact h.conj_docs hne hr d) j
            rwa [List.take_of_length_le (by omega)] at this)
        obtain ⟨scores', compl', sizes', n', t1, t2, t3, t4, t5, t6⟩ := key
        unfold knownPfx at t1
        rw [t1, M.ok_bind]
        dsimp only
        have h15 := hs.scores
        have hw : Scratch.WF { s with pool := { s.pool.init with scores := scores' }, dbuf := buf, compl := compl', sizes := sizes' } :=
          ⟨t2.trans hs.scores, hs.data, hb.trans hs.dbuf, hs.cbuf, t5⟩
        refine h.outcome t4 hw hx.built ?_
        have := Base.strings_spec (x := x.toBase) hx.dict (s := { s with pool := { s.pool.init with scores := scores' }, dbuf := buf, compl := compl', sizes := sizes' })
          (holds_scores (Pool.Holds.init _) _) hs.data t6 t5 (n := n') (docs := scores'.take n') (by simp; omega) rfl (by dsimp only; omega)
          (by
            intro c hc
            obtain ⟨d, hd, rfl⟩ := List.mem_map.mp hc
            obtain ⟨c, hc, _⟩ := t4.sound d hd
            exact h.idsIn hc)
        exact this

end
end
/-! ## Prefix search without a limit -/

/-- the top-k query with `k = 0` returns everything in the range -/
theorem UL.topk_zero (std : StdLib) {u : UL} {v : List Nat} (u2 : u.Rep v) {a b : Nat} {buf : List Nat} (hab : a ≤ b) (hb : b ≤ v.length)
    (hl : b - a ≤ buf.length) :
    ∃ buf', UL.topk std u a b 0 false buf = .ok (buf', b - a) ∧ buf'.length = buf.length ∧
      ∀ j, b - a ≤ j → Spec.IsSortedPrefix ((v.drop a).take (b - a)) j (buf'.take (b - a)) := by
  by_cases h0 : a = b
  · subst h0
    obtain ⟨buf', t1, t2, t3⟩ := UL.topk_spec std u2 (k := 0) hab hb (Or.inr rfl) (buf := buf) (by omega)
    rw [Nat.sub_self, Nat.zero_min] at t1 t3
    rw [Nat.sub_self]
    refine ⟨buf', t1, t2, ?_⟩
    intro j _
    exact ⟨[], by simp, by simp, by simp⟩
  · unfold UL.topk
    simp only
    rw [if_neg (by omega)]
    obtain ⟨pos, p1, p2, p3, p4⟩ := UL.init_inv std u2 (show a < b by omega) hb
    rw [p1, M.ok_bind, p2, M.ok_bind]
    obtain ⟨buf', P', Q', r1, r2, r3, r4, r5, r6, r7, r8⟩ := UL.topkLoop_spec std u2 _ (b - a + 1) (b - a + 1) _ (buf ++ [0]) [] p3 (by simp)
      (by simp; omega) (by simp) (by simp) (by omega)
    have hP : P'.length ≤ b - a := by
      have := r3.length_eq
      simp at this
      omega
    have hQ := r8 (by omega)
    subst hQ
    rw [List.append_nil] at r3
    have hPl : P'.length = b - a := by
      have := r3.length_eq
      simpa using this
    rw [List.length_append, List.length_singleton] at r2
    have hc := (UL.topkLoop_cut (k := 0) (b - a + 1) _ buf 0 rfl (Nat.zero_le _) buf' P'.length r1 (Or.inr ⟨by omega, Or.inl rfl⟩)).1 (by omega)
    refine ⟨buf'.take buf.length, by rw [hc, hPl], by rw [List.length_take]; omega, ?_⟩
    intro j hj
    refine ⟨P'.map (fun x => v.getD x 0), ?_, r5, ?_⟩
    · rw [← UL.range_slice v hb]
      exact r3.map _
    · rw [List.take_take, Nat.min_eq_left hl, ← hPl, r4, List.take_of_length_le (by simp; omega)]

/-- a prefix search without a limit -/
theorem PrefixRun.all {std : StdLib} {C : Coll} {F : Files} (h : Ready C F) {P : List Str → Prop} {u : UL} (hu : u.Rep (F.mapped.map (·.1)))
    {d : FC} (hd : FcDict.build F.terms = .ok d) {extract : Nat → Scratch → M Scratch} {j : Nat} {o : M Scratch} (hr : PrefixRun C P u extract std 0 o)
    (hj : MAX_K ≤ j) (hm : AtMost C P MAX_K)
    (hext : ∀ s n, s.WF → s.pool.Holds [] → n ≤ s.pool.scores.length → IsTopK (Doc C P) j (s.pool.scores.take n) →
      Outcome C F.terms P j (extract n s)) : Outcome C F.terms P j o := by
  obtain ⟨s, h1, h2, ⟨rfl, h4⟩ | ⟨b, e, e1, e2, e3, rfl⟩⟩ := hr
  · exact outcome_none h1 h2 hd h4
  · have hl := (range_length h.coll.docs e2 e3 MAX_K).mp hm
    obtain ⟨buf', t1, t2, t3⟩ := UL.topk_zero std hu (Nat.le_of_lt e1) (by rw [List.length_map, h.length_mapped]; exact e2)
      (buf := s.pool.scores) (by rw [h1.scores]; exact hl)
    rw [t1, M.ok_bind]
    refine hext _ _ (wf_scores h1 t2) (holds_scores h2 _) (by have := h1.scores; dsimp only; omega)
      (IsTopK_congr (h.slice_docs e3) (sortedPrefix_topk ?_ (t3 j (by omega))))
    have hn : (F.mapped.map (·.1)).Nodup := by rw [h.fst_mapped]; exact h.coll.docs
    exact hn.sublist ((List.take_sublist _ _).trans (List.drop_sublist _ _))

end AC
