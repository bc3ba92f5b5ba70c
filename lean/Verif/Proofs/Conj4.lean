import Verif.Proofs.Blk4Queue
import Verif.Proofs.ConjQuery
import Verif.Props.BlockedIndex
/-!
# Conjunctive queries with index type 4
-/
namespace AC
open Spec

theorem hasIn_inRange {lists : List (List Nat)} {lo hi : Nat} {r : Range} {d : Nat} :
    hasIn lists lo hi r d = true ↔ InRange lists lo hi r.b r.e d := hasIn_iff

namespace Index4

variable {ii : BlkIdx} {u m : Nat} {lists docss : List (List Nat)}

theorem count_pending {r : Range} {d : Nat} : ∀ {V : List VB}, (∀ v ∈ V, IsDocs lists v.lo v.hi v.docs) →
    (pending lists r (V.map (fun v => (v, 0)))).count d = (V.map (fun v : VB => (v.lo, v.hi))).countP (fun x => hasIn lists x.1 x.2 r d) := by
  intro V
  induction V with
  | nil => intro _; rfl
  | cons v V ih =>
      intro hV
      have hD := hV v (List.mem_cons_self ..)
      have h1 := ih (fun v hv => hV v (List.mem_cons_of_mem _ hv))
      unfold pending at h1 ⊢
      rw [List.map_cons, List.flatMap_cons, List.count_append, h1, List.map_cons, List.countP_cons, Nat.add_comm]
      congr 1
      rw [List.drop_zero, List.Nodup.count (List.Pairwise.filter _ (hD.sorted.imp Nat.ne_of_lt))]
      have hiff : d ∈ v.docs.filter (hasIn lists v.lo v.hi r) ↔ hasIn lists v.lo v.hi r d = true := by
        rw [List.mem_filter]
        constructor
        · exact fun h => h.2
        · intro hh
          obtain ⟨t, t1, t2, _, _, t5⟩ := hasIn_iff.mp hh
          exact ⟨(hD.mem d).mpr ⟨t, t1, t2, t5⟩, hh⟩
      by_cases hc : hasIn lists v.lo v.hi r d = true
      · rw [if_pos (hiff.mpr hc), if_pos hc]
      · rw [if_neg (fun h => hc (hiff.mp h)), if_neg hc]

theorem le_sum_const {xs : List (VB × Nat)} (hu : ∀ x ∈ xs, x.1.docs.length ≤ u) : steps xs ≤ xs.length * u := by
  unfold steps
  induction xs with
  | nil => simp
  | cons x xs ih =>
      have h1 := ih (fun y hy => hu y (List.mem_cons_of_mem _ hy))
      have h2 := hu x (List.mem_cons_self ..)
      rw [List.map_cons, List.sum_cons, List.length_cons, Nat.succ_mul]
      omega

/-- without complete terms: the documents in increasing order, once for every visited block in which they have a term of the range -/
theorem scores_union (h : ii.Rep u m lists docss) (hu : u < 2 ^ 32) (std : StdLib) {r : Range} (h1 : 1 ≤ r.b) (h2 : r.b ≤ r.e)
    (h3 : r.e ≤ lists.length) {k : Nat} (hk : 1 ≤ k) {scores : List Nat} (hk' : k ≤ scores.length) :
    ∃ (scores' : List Nat) (n : Nat) (S : List Nat), conjScores std ii [] r k scores = .ok (scores', n) ∧ scores'.length = scores.length ∧ n ≤ k ∧
      scores'.take n = S.take k ∧ S.Pairwise (· ≤ ·) ∧
      ∀ d, S.count d = (visitedBlocks ii.blocks r.b r.e).countP (fun x => hasIn lists x.1 x.2 r d) := by
  obtain ⟨q, xs, V, q1, q2, q3, q4, q5, q6⟩ := blocks_spec h std r h1 h2 h3
  have hlen := All2.length q2
  have hst : steps xs < q.length * (ii.numDocs + 1) + 1 := by
    have := le_sum_const (u := u) (xs := xs) (by
      intro x hx
      obtain ⟨v, hv, rfl⟩ := List.mem_map.mp (q4.mem_iff.mp hx)
      exact (q6 v hv).2)
    rw [h.docs, hlen, Nat.mul_succ]
    omega
  obtain ⟨scores', n, S, s1, s2, s3, s4, s5, s6⟩ := unionLoop_spec std (by omega) r k _ q xs scores 0 q2 q3 (by omega) hk' hst
  rw [List.take_zero, List.nil_append, Nat.sub_zero] at s6
  rw [Nat.sub_zero] at s5
  refine ⟨scores', n, S, ?_, s2, by rw [s5, List.length_take]; omega, s6, s4, ?_⟩
  · unfold conjScores
    rw [q1]
    exact s1
  · intro d
    rw [s3.count_eq, (pending_perm q4).count_eq, count_pending (fun v hv => (q6 v hv).1), q5]

/-- With complete terms: of the documents that have all of them (except perhaps the first one of a block), those for which the check of one
of the blocks succeeds. The check of one of the blocks only is made for each document. -/
theorem scores_inter (h : ii.Rep u m lists docss) (hu : u + 1 < 2 ^ 32) (std : StdLib) {pfx : List Nat} (hne : pfx ≠ [])
    (hpfx : ∀ t ∈ pfx, 1 ≤ t ∧ t ≤ lists.length) {r : Range} (h1 : 1 ≤ r.b) (h2 : r.b ≤ r.e)
    (h3 : r.e ≤ lists.length) {k : Nat} (hk : 1 ≤ k) {scores : List Nat} (hk' : k ≤ scores.length) :
    ∃ (scores' : List Nat) (n : Nat) (R : List Nat), conjScores std ii pfx r k scores = .ok (scores', n) ∧ scores'.length = scores.length ∧ n ≤ k ∧
      scores'.take n = R.take k ∧ R.Pairwise (· < ·) ∧
      (∀ d ∈ R, (∀ t ∈ pfx, Posted lists t d) ∧ ¬ FirstOfOne lists ii.blocks pfx d ∧
        ∃ x ∈ visitedBlocks ii.blocks r.b r.e, InRange lists x.1 x.2 r.b r.e d) ∧
      (∀ d, (∀ t ∈ pfx, Posted lists t d) → ¬ FirstOfOne lists ii.blocks pfx d →
        (∃ x ∈ visitedBlocks ii.blocks r.b r.e, InRange lists x.1 x.2 r.b r.e d) →
        (∀ x ∈ visitedBlocks ii.blocks r.b r.e, (∃ t, x.1 < t ∧ t ≤ x.2 ∧ Posted lists t d) → InRange lists x.1 x.2 r.b r.e d) → d ∈ R) := by
  obtain ⟨q, xs, V, q1, q2, q3, q4, q5, q6⟩ := blocks_spec h std r h1 h2 h3
  obtain ⟨d1, d2⟩ := deduplicate_spec std pfx
  have hdne : deduplicate std pfx ≠ [] := by
    obtain ⟨t, ht⟩ := List.exists_mem_of_ne_nil _ hne
    exact List.ne_nil_of_mem ((d2 t).mpr ht)
  have hdv : ∀ t ∈ deduplicate std pfx, 1 ≤ t ∧ t ≤ lists.length := fun t ht => hpfx t ((d2 t).mp ht)
  have hRs : (Props.enumerated u lists ii.blocks (deduplicate std pfx)).Pairwise (· < ·) :=
    List.Pairwise.filter _ (List.Pairwise.filter _ List.pairwise_lt_range)
  have hfirst : ∀ d, FirstOfOne lists ii.blocks (deduplicate std pfx) d ↔ FirstOfOne lists ii.blocks pfx d := by
    intro d
    unfold FirstOfOne
    simp only [d2]
  have hmemR : ∀ d, d ∈ Props.enumerated u lists ii.blocks (deduplicate std pfx) ↔ (∀ t ∈ pfx, Posted lists t d) ∧ ¬ FirstOfOne lists ii.blocks pfx d := by
    intro d
    rw [Props.mem_enumerated, Props.mem_inAllLists h.valid hdne (fun t ht => (hdv t ht).1), hfirst]
    simp only [d2]
  generalize Props.enumerated u lists ii.blocks (deduplicate std pfx) = R at hRs hmemR
  obtain ⟨it, bs, g1, g2⟩ := BInter.mk'_spec h hu std _ hdne d1 hdv R hRs (by
    intro d
    rw [← Props.firstOfOne_iff h, hmemR, hfirst]
    simp only [d2])
  have hcov : ∀ a, Covers ii u lists V q a := by
    intro a
    refine ⟨q3, xs, q2, ?_, ?_⟩
    · intro x hx
      obtain ⟨v, hv, rfl⟩ := List.mem_map.mp (q4.mem_iff.mp hx)
      exact hv
    · intro v hv d hd _
      exact ⟨(v, 0), q4.mem_iff.mpr (List.mem_map.mpr ⟨v, hv, rfl⟩), rfl, by rw [List.drop_zero]; exact hd⟩
  have hlen : R.length < ii.numDocs + 1 := by
    have := nodup_subset_length' (A := R) (B := List.range u) (hRs.imp Nat.ne_of_lt) (fun a ha => List.mem_range.mpr (g2.bound a ha))
    simp only [List.length_range] at this
    rw [h.docs]; omega
  obtain ⟨scores', n, S, s1, s2, s3⟩ := conjLoop_spec std (by omega) (fun v hv => (q6 v hv).1) r k R (ii.numDocs + 1) it bs q scores 0 g2
    (fun d _ => hcov d) hlen (by omega) hk'
  have ht := s3.taken
  have hc := s3.count
  rw [List.take_zero, List.nil_append, Nat.sub_zero] at ht
  rw [Nat.sub_zero, List.length_take] at hc
  have hvis : ∀ P : Nat × Nat → Prop, (∃ v ∈ V, P (v.lo, v.hi)) ↔ ∃ x ∈ visitedBlocks ii.blocks r.b r.e, P x := by
    intro P
    rw [← q5]
    constructor
    · rintro ⟨v, hv, hp⟩; exact ⟨_, List.mem_map.mpr ⟨v, hv, rfl⟩, hp⟩
    · rintro ⟨x, hx, hp⟩
      obtain ⟨v, hv, rfl⟩ := List.mem_map.mp hx
      exact ⟨v, hv, hp⟩
  refine ⟨scores', n, R.filter S, ?_, s3.length, by omega, ht, hRs.filter _, ?_, ?_⟩
  · unfold conjScores
    rw [q1]
    simp only [M.ok_bind]
    rw [if_neg (by have := List.length_pos_iff.mpr hne; omega), g1]
    exact s1
  · intro d hd
    obtain ⟨hdR, hS⟩ := List.mem_filter.mp hd
    obtain ⟨a1, a2⟩ := (hmemR d).mp hdR
    refine ⟨a1, a2, ?_⟩
    rw [← hvis (fun x => InRange lists x.1 x.2 r.b r.e d)]
    obtain ⟨v, hv, hin⟩ := (s2 d hdR).1 hS
    exact ⟨v, hv, hasIn_inRange.mp hin⟩
  · intro d a1 a2 a3 a4
    have hdR := (hmemR d).mpr ⟨a1, a2⟩
    refine List.mem_filter.mpr ⟨hdR, ?_⟩
    cases hS : S d with
    | true => rfl
    | false =>
        rw [← hvis (fun x => InRange lists x.1 x.2 r.b r.e d)] at a3
        obtain ⟨v, hv, t, t1, t2, t3, t4, t5⟩ := a3
        rcases (s2 d hdR).2 hS with hno | ⟨v', hv', hd', hin⟩
        · exact absurd (((q6 v hv).1.mem d).mpr ⟨t, t1, t2, t5⟩) (hno v hv)
        · exfalso
          have := a4 (v'.lo, v'.hi) (by rw [← q5]; exact List.mem_map.mpr ⟨v', hv', rfl⟩) (((q6 v' hv').1.mem d).mp hd')
          rw [← hasIn_inRange (r := r)] at this
          rw [hin] at this
          cases this

end Index4

/-- what an index of type 4 represents -/
structure Index4.Rep (x : Index4) (m : Nat) (F : Files) (docss : List (List Nat)) : Prop where
  base : x.toBase.Rep F.mapped
  dict : FC.Rep Elem.byte MAX_CHARS x.dict F.terms
  built : FcDict.build F.terms = .ok x.dict
  inverted : x.inverted.Rep F.univ m F.inverted docss

end AC
