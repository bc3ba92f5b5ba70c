import Verif.Proofs.Type4Blocks
import Verif.Proofs.Suits
import Verif.Proofs.Alike
import Verif.Proofs.Visit
/-!
# Index type 4
-/
namespace AC
open Spec

theorem Ready.blkLists {C : Coll} {F : Files} (h : Ready C F) : BlkLists F.univ F.inverted := by
  refine ⟨h.invLists, ?_⟩
  have := h.postings_le
  have := h.coll.size
  omega

theorem Index4.build_spec {C : Coll} {F : Files} (h : Ready C F) (h17 : F.terms.length % 17 ≠ 0) (hc17 : F.mapped.length % 17 ≠ 0)
    (h0 : ∃ r ∈ C, r.1 ≠ 0) (std : StdLib) (m : Nat) (mem : Nat → W) : ∃ x docss, Index4.build std m F mem = .ok x ∧ x.Rep m F docss := by
  obtain ⟨ib, b1, b2, b3⟩ := BlkBuilder.build_spec h.blkLists std m
  obtain ⟨ii, docss, b4, b5⟩ := b3 (fun i => mem (7 + i))
  obtain ⟨x, x1, x2, x3, x4⟩ := Base.build_spec h h17 hc17 h0 mem
  refine ⟨⟨x, ii⟩, docss, ?_, ⟨x2, x3, x4, b5⟩⟩
  unfold Index4.build
  rw [b1, M.ok_bind, x1, M.ok_bind, b4, M.ok_bind]

theorem Index4.exists {C : Coll} {F : Files} (h : Ready C F) (hw : Suits3 C) (std : StdLib) (m : Nat) (mem : Nat → W) :
    ∃ x docss, Index4.build std m F mem = .ok x ∧ x.Rep m F docss := by
  obtain ⟨n, hn, h17⟩ := hw.terms
  rw [h.numTerms_eq hn] at h17
  exact Index4.build_spec h h17 (by rw [h.length_mapped]; exact hw.count) hw.doc0 std m mem

/-- the completion with the document id `d` -/
def rowOf (F : Files) (d : Nat) : Nat × List Str := (d, (F.forward.getD d []).map (fun t => F.terms.getD (t - 1) []))

section
variable {C : Coll} {F : Files} (h : Ready C F)
include h

theorem Ready.rowOf {d : Nat} {c : List Str} (hc : (d, c) ∈ C) : AC.rowOf F d = (d, c) := by
  unfold AC.rowOf; rw [h.terms_of hc]

theorem Ready.count_rows {S : List Nat} {r : Nat × List Str} (hr : r ∈ C) : (S.map (AC.rowOf F)).count r = S.count r.1 := by
  rw [List.count_eq_countP, List.countP_map, List.count_eq_countP]
  apply List.countP_congr
  intro d _
  simp only [Function.comp, beq_iff_eq]
  constructor
  · intro he; rw [← he]; rfl
  · intro he; subst he; exact h.rowOf (c := r.2) hr

theorem Ready.known_none {complete : List Str} : knownPfx F complete = [] ↔ ∀ t ∈ complete, ¬ IsTerm C t := by
  unfold knownPfx
  rw [List.map_eq_nil_iff, List.filter_eq_nil_iff]
  simp only [decide_eq_true_eq, h.isTerm]

theorem Ready.posted_known {complete : List Str} {d : Nat} {c : List Str} (hc : (d, c) ∈ C) :
    (∀ t ∈ knownPfx F complete, Posted F.inverted t d) ↔ ∀ t ∈ complete, IsTerm C t → t ∈ c := by
  constructor
  · intro hh t ht hk
    have hk' := (h.isTerm t).mp hk
    obtain ⟨y, hy, he, c', hc', hyc⟩ := h.posted_iff.mp (hh _ (List.mem_map.mpr ⟨t, List.mem_filter.mpr ⟨ht, by simpa using hk'⟩, rfl⟩))
    rw [rankOf_inj hy hk' he] at hyc
    rwa [h.unique hc hc']
  · intro hh t ht
    obtain ⟨s, hs, rfl⟩ := List.mem_map.mp ht
    obtain ⟨h1, h2⟩ := List.mem_filter.mp hs
    have h2 : s ∈ F.terms := by simpa using h2
    exact h.posted_iff.mpr ⟨s, h2, rfl, c, hc, hh s h1 ((h.isTerm s).mpr h2)⟩

theorem Ready.skipped_iff {complete : List Str} {bounds : List Nat} {r : Nat × List Str} (hr : r ∈ C) :
    FirstOfOne F.inverted bounds (knownPfx F complete) r.1 ↔ Skipped C (blocksOf F.terms bounds) complete r := by
  have hk : ∀ x : Nat × Nat, (∀ t ∈ knownPfx F complete, x.1 < t ∧ t ≤ x.2) ↔ ∀ t ∈ complete, IsTerm C t → t ∈ slice F.terms x := by
    intro x
    constructor
    · intro hh t ht hT
      have hT' := (h.isTerm t).mp hT
      exact (mem_slice h.files.terms).mpr ⟨hT', hh _ (List.mem_map.mpr ⟨t, List.mem_filter.mpr ⟨ht, by simpa using hT'⟩, rfl⟩)⟩
    · intro hh t ht
      obtain ⟨s, hs, rfl⟩ := List.mem_map.mp ht
      obtain ⟨h1, h2⟩ := List.mem_filter.mp hs
      have h2 : s ∈ F.terms := by simpa using h2
      exact ((mem_slice h.files.terms).mp (hh s h1 ((h.isTerm s).mpr h2))).2
  constructor
  · rintro ⟨j, lo, hi, e1, e2, e3, e4, e5⟩
    refine ⟨slice F.terms (lo, hi), List.mem_map.mpr ⟨(lo, hi), List.mem_iff_getElem?.mpr ⟨j, List.getElem?_zip_eq_some.mpr ⟨e1, e2⟩⟩, rfl⟩,
      (hk (lo, hi)).mp e3, ?_, ?_⟩
    · obtain ⟨c, hc, hx⟩ := h.has_iff (x := (lo, hi)).mp e4
      rw [h.unique (d := r.1) (c := r.2) hr hc]
      exact hx
    · intro r' hr' hx
      obtain ⟨t, t1, t2, t3⟩ := h.has_iff (x := (lo, hi)).mpr ⟨r'.2, hr', hx⟩
      exact e5 t r'.1 t1 t2 t3
  · rintro ⟨b, hb, e3, e4, e5⟩
    obtain ⟨⟨lo, hi⟩, hx, rfl⟩ := List.mem_map.mp hb
    obtain ⟨j, g1, g2⟩ := mem_zip_self hx
    refine ⟨j, lo, hi, g1, g2, (hk (lo, hi)).mpr e3, h.has_iff (x := (lo, hi)).mpr ⟨r.2, hr, e4⟩, ?_⟩
    intro t e t1 t2 t3
    obtain ⟨c, hc, hy⟩ := h.has_iff (x := (lo, hi)).mp ⟨t, t1, t2, t3⟩
    exact e5 (e, c) hc hy

theorem Ready.mem_visited {m : Nat} {bounds : List Nat} (hcut : IsCut F.inverted m bounds) {last : Str} {b e : Nat} (hr : LastRange C F last b e)
    {x : Nat × Nat} : x ∈ visitedBlocks bounds (b + 1) (e + 1) ↔ x ∈ (0 :: bounds).zip bounds ∧ Looked C last (slice F.terms x) := by
  unfold visitedBlocks
  rw [List.mem_filter]
  constructor
  · rintro ⟨h1, h2⟩
    obtain ⟨p1, p2⟩ := hcut.pair h1
    rw [h.files.numLists] at p2
    exact ⟨h1, (h.visited_iff hr p1 p2).mp (by simpa using h2)⟩
  · rintro ⟨h1, h2⟩
    obtain ⟨p1, p2⟩ := hcut.pair h1
    rw [h.files.numLists] at p2
    exact ⟨h1, by simpa using (h.visited_iff hr p1 p2).mpr h2⟩

theorem Ready.exists_visited {m : Nat} {bounds : List Nat} (hcut : IsCut F.inverted m bounds) {last : Str} {b e : Nat} (hr : LastRange C F last b e)
    {r : Nat × List Str} (hrC : r ∈ C) : (∃ x ∈ visitedBlocks bounds (b + 1) (e + 1), InRange F.inverted x.1 x.2 (b + 1) (e + 1) r.1) ↔
      ∃ B ∈ blocksOf F.terms bounds, Looked C last B ∧ FoundIn C last B r.2 := by
  constructor
  · rintro ⟨x, hx, hin⟩
    obtain ⟨h1, h2⟩ := (h.mem_visited hcut hr).mp hx
    obtain ⟨c, hc, hf⟩ := (h.inRange_iff hr).mp hin
    rw [← h.unique (d := r.1) (c := r.2) hrC hc] at hf
    exact ⟨_, List.mem_map.mpr ⟨x, h1, rfl⟩, h2, hf⟩
  · rintro ⟨B, hB, hv, hf⟩
    obtain ⟨x, hx, rfl⟩ := List.mem_map.mp hB
    exact ⟨x, (h.mem_visited hcut hr).mpr ⟨hx, hv⟩, (h.inRange_iff hr).mpr ⟨r.2, hrC, hf⟩⟩

theorem Ready.copies_eq {m : Nat} {bounds : List Nat} (hcut : IsCut F.inverted m bounds) {last : Str} {b e : Nat} (hr : LastRange C F last b e)
    {r : Nat × List Str} (hrC : r ∈ C) : (visitedBlocks bounds (b + 1) (e + 1)).countP (fun x => hasIn F.inverted x.1 x.2 ⟨b + 1, e + 1⟩ r.1) =
      copies C (blocksOf F.terms bounds) last r.2 := by
  classical
  unfold copies visitedBlocks blocksOf
  rw [← List.countP_eq_length_filter, List.countP_map, List.countP_filter]
  apply List.countP_congr
  intro x hx
  obtain ⟨p1, p2⟩ := hcut.pair hx
  rw [h.files.numLists] at p2
  have h1 := h.visited_iff hr p1 p2
  have h2 := h.inRange_iff hr (x := x) (d := r.1)
  rw [← hasIn_inRange (r := ⟨b + 1, e + 1⟩)] at h2
  simp only [Function.comp, Bool.and_eq_true, decide_eq_true_eq]
  rw [h2, h1]
  constructor
  · rintro ⟨⟨c, hc, hf⟩, hv⟩
    rw [← h.unique (d := r.1) (c := r.2) hrC hc] at hf
    exact ⟨hv, hf⟩
  · rintro ⟨hv, hf⟩
    exact ⟨⟨r.2, hrC, hf⟩, hv⟩

theorem Ready.result_none {complete : List Str} {last : Str} {B : List (List Str)} (hu : ∀ x, IsTerm C x → ¬ Reaches C last x) :
    Result4 C B complete last [] := by
  have hv : ∀ b, ¬ Looked C last b := by
    rintro b ⟨x, _, hx, hre, _⟩
    exact hu x hx hre
  refine ⟨by simp, fun _ => ⟨List.Pairwise.nil, ?_⟩, fun _ => ⟨List.Pairwise.nil, by simp, ?_⟩⟩
  · intro r _
    classical
    unfold copies
    rw [List.filter_eq_nil_iff.mpr (by intro b _; simp [hv b])]
    rfl
  · rintro r _ _ _ ⟨b, _, hb, _⟩
    exact absurd hb (hv b)

end

/-! ## The result does not depend on the former contents of the array -/

/-- the same first elements, as many as the second components say -/
def SameFirst (x y : List Nat × Nat) : Prop := x.1.length = y.1.length ∧ x.2 = y.2 ∧ x.1.take x.2 = y.1.take x.2

theorem Index4.record_alike (found : Bool) (doc : Nat) {o1 o2 : List Nat} {n : Nat} (h : SameFirst (o1, n) (o2, n)) :
    Alike SameFirst (Index4.record found doc o1 n) (Index4.record found doc o2 n) := by
  obtain ⟨h1, _, h2⟩ := h
  dsimp only at h1 h2
  unfold Index4.record
  split
  · by_cases hn : n < o1.length
    · rw [wr_ok hn, wr_ok (by omega : n < o2.length)]
      refine Alike.ok ⟨by simp [h1], rfl, ?_⟩
      dsimp only
      rw [List.take_add_one, List.take_add_one, List.getElem?_set_self hn, List.getElem?_set_self (by omega), List.take_set_of_le (Nat.le_refl _),
        List.take_set_of_le (Nat.le_refl _), h2]
    · unfold wr
      rw [if_neg hn, if_neg (by omega)]
      exact Or.inl ⟨_, rfl, rfl⟩
  · exact Alike.ok ⟨h1, rfl, h2⟩

theorem Index4.unionLoop_alike (std : StdLib) (ii : BlkIdx) (r : Range) (k : Nat) : ∀ (fuel : Nat) (q : List Blk) (o1 o2 : List Nat) (n : Nat),
    SameFirst (o1, n) (o2, n) → Alike SameFirst (Index4.unionLoop std ii r k fuel q o1 n) (Index4.unionLoop std ii r k fuel q o2 n)
  | 0, _, _, _, _, _ => Or.inl ⟨_, rfl, rfl⟩
  | fuel + 1, [], o1, o2, n, h => Alike.ok h
  | fuel + 1, z :: zs, o1, o2, n, h => by
      unfold Index4.unionLoop
      dsimp only
      refine Alike.bind (Alike.same _) ?_
      rintro ⟨found, z⟩ _ rfl
      refine Alike.bind (Index4.record_alike found _ h) ?_
      rintro ⟨x1, n1⟩ ⟨x2, n2⟩ hx
      obtain rfl : n1 = n2 := hx.2.1
      dsimp only
      split
      · exact Alike.ok hx
      · refine Alike.bind (Alike.same _) ?_
        rintro d _ rfl
        refine Alike.bind (Alike.same _) ?_
        rintro q _ rfl
        exact Index4.unionLoop_alike std ii r k fuel q x1 x2 n1 hx

theorem Index4.conjLoop_alike (std : StdLib) (ii : BlkIdx) (r : Range) (k : Nat) : ∀ (fuel : Nat) (it : BInter) (q : List Blk) (o1 o2 : List Nat) (n : Nat),
    SameFirst (o1, n) (o2, n) → Alike SameFirst (Index4.conjLoop std ii r k fuel it q o1 n) (Index4.conjLoop std ii r k fuel it q o2 n)
  | 0, _, _, _, _, _, _ => Or.inl ⟨_, rfl, rfl⟩
  | fuel + 1, it, q, o1, o2, n, h => by
      unfold Index4.conjLoop
      split
      · refine Alike.bind (Alike.same _) ?_
        rintro ⟨checked, found, q⟩ _ rfl
        refine Alike.bind (Index4.record_alike found _ h) ?_
        rintro ⟨x1, n1⟩ ⟨x2, n2⟩ hx
        obtain rfl : n1 = n2 := hx.2.1
        dsimp only
        split
        · exact Alike.ok hx
        · refine Alike.bind (Alike.same _) ?_
          rintro it _ rfl
          exact Index4.conjLoop_alike std ii r k fuel it q x1 x2 n1 hx
      · exact Alike.ok h

theorem Index4.conjScores_alike (std : StdLib) (ii : BlkIdx) (pfx : Ids) (r : Range) (k : Nat) {o1 o2 : List Nat} (h : o1.length = o2.length) :
    Alike SameFirst (Index4.conjScores std ii pfx r k o1) (Index4.conjScores std ii pfx r k o2) := by
  have h0 : SameFirst (o1, 0) (o2, 0) := ⟨h, rfl, rfl⟩
  unfold Index4.conjScores
  refine Alike.bind (Alike.same _) ?_
  rintro q _ rfl
  split
  · exact Index4.unionLoop_alike std ii r k _ q o1 o2 0 h0
  · refine Alike.bind (Alike.same _) ?_
    rintro it _ rfl
    exact Index4.conjLoop_alike std ii r k _ it q o1 o2 0 h0

theorem Index4.conjScores_same {std : StdLib} {ii : BlkIdx} {pfx : Ids} {r : Range} {k : Nat} {o1 o2 x1 : List Nat} {n : Nat} (h : o1.length = o2.length)
    (h1 : Index4.conjScores std ii pfx r k o1 = .ok (x1, n)) :
    ∃ x2, Index4.conjScores std ii pfx r k o2 = .ok (x2, n) ∧ x2.length = x1.length ∧ x2.take n = x1.take n := by
  rcases Index4.conjScores_alike std ii pfx r k h with ⟨e, e1, _⟩ | ⟨x, y, e1, e2, e3⟩
  · rw [h1] at e1; cases e1
  · rw [h1] at e1
    cases e1
    obtain ⟨y1, y2⟩ := y
    obtain ⟨f1, f2, f3⟩ := e3
    dsimp only at f1 f2 f3
    subst f2
    exact ⟨y1, e2, f1.symm, f3.symm⟩

/-! ## A smaller `k` only ends the search earlier -/

theorem Index4.record_keeps {found : Bool} {doc : Nat} {o x : List Nat} {n m : Nat} (h : Index4.record found doc o n = .ok (x, m)) :
    n ≤ m ∧ m ≤ n + 1 ∧ x.length = o.length ∧ x.take n = o.take n := by
  unfold Index4.record at h
  split at h
  · by_cases hn : n < o.length
    · rw [wr_ok hn, M.ok_bind] at h
      cases h
      exact ⟨by omega, by omega, List.length_set .., List.take_set_of_le (Nat.le_refl _)⟩
    · unfold wr at h
      rw [if_neg hn] at h
      cases h
  · cases h
    exact ⟨Nat.le_refl _, by omega, rfl, rfl⟩

/-- what a run from `n` results leaves of the array -/
def Keeps (o : List Nat) (n : Nat) (x : List Nat × Nat) : Prop := n ≤ x.2 ∧ x.1.length = o.length ∧ x.1.take n = o.take n

theorem Keeps.trans {o : List Nat} {n : Nat} {x y : List Nat × Nat} (h : Keeps o n x) (h' : Keeps x.1 x.2 y) : Keeps o n y := by
  obtain ⟨a, b, c⟩ := h
  obtain ⟨a', b', c'⟩ := h'
  refine ⟨Nat.le_trans a a', b'.trans b, ?_⟩
  have := congrArg (List.take n) c'
  rw [List.take_take, List.take_take, Nat.min_eq_left a] at this
  rw [this, c]

theorem Index4.unionLoop_keeps (std : StdLib) (ii : BlkIdx) (r : Range) (k : Nat) : ∀ (fuel : Nat) (q : List Blk) (o : List Nat) (n : Nat) (x : List Nat × Nat),
    Index4.unionLoop std ii r k fuel q o n = .ok x → Keeps o n x
  | 0, _, _, _, _, h => by cases h
  | fuel + 1, [], o, n, x, h => by cases h; exact ⟨Nat.le_refl _, rfl, rfl⟩
  | fuel + 1, z :: zs, o, n, x, h => by
      unfold Index4.unionLoop at h
      dsimp only at h
      obtain ⟨⟨found, z⟩, _, h⟩ := bind_ok h
      obtain ⟨⟨x1, n1⟩, e, h⟩ := bind_ok h
      obtain ⟨k1, _, k2, k3⟩ := Index4.record_keeps e
      have hk : Keeps o n (x1, n1) := ⟨k1, k2, k3⟩
      dsimp only at h
      split at h
      · cases h; exact hk
      · obtain ⟨d, _, h⟩ := bind_ok h
        obtain ⟨q, _, h⟩ := bind_ok h
        exact hk.trans (Index4.unionLoop_keeps std ii r k fuel q x1 n1 x h)

theorem Index4.conjLoop_keeps (std : StdLib) (ii : BlkIdx) (r : Range) (k : Nat) : ∀ (fuel : Nat) (it : BInter) (q : List Blk) (o : List Nat) (n : Nat)
    (x : List Nat × Nat), Index4.conjLoop std ii r k fuel it q o n = .ok x → Keeps o n x
  | 0, _, _, _, _, _, h => by cases h
  | fuel + 1, it, q, o, n, x, h => by
      unfold Index4.conjLoop at h
      split at h
      · obtain ⟨⟨checked, found, q⟩, _, h⟩ := bind_ok h
        obtain ⟨⟨x1, n1⟩, e, h⟩ := bind_ok h
        obtain ⟨k1, _, k2, k3⟩ := Index4.record_keeps e
        have hk : Keeps o n (x1, n1) := ⟨k1, k2, k3⟩
        dsimp only at h
        split at h
        · cases h; exact hk
        · obtain ⟨it, _, h⟩ := bind_ok h
          exact hk.trans (Index4.conjLoop_keeps std ii r k fuel it q x1 n1 x h)
      · cases h; exact ⟨Nat.le_refl _, rfl, rfl⟩

/-- `y` are the first `k` results of `x` -/
def Fewer (k : Nat) (x y : List Nat × Nat) : Prop := y.1.length = x.1.length ∧ y.2 = min x.2 k ∧ y.1.take y.2 = x.1.take y.2

theorem Fewer.of_keeps {k : Nat} {x y : List Nat × Nat} (h : Keeps y.1 y.2 x) (hk : y.2 = k) : Fewer k x y := by
  obtain ⟨a, b, c⟩ := h
  exact ⟨b.symm, by omega, c.symm⟩

theorem Index4.unionLoop_fewer (std : StdLib) (ii : BlkIdx) (r : Range) {k K : Nat} (hkK : k ≤ K) : ∀ (fuel : Nat) (q : List Blk) (o : List Nat) (n : Nat)
    (x : List Nat × Nat), n < k → Index4.unionLoop std ii r K fuel q o n = .ok x →
    ∃ y, Index4.unionLoop std ii r k fuel q o n = .ok y ∧ Fewer k x y
  | 0, _, _, _, _, _, h => by cases h
  | fuel + 1, [], o, n, x, hn, h => by
      cases h
      exact ⟨_, rfl, rfl, (Nat.min_eq_left (Nat.le_of_lt hn)).symm, rfl⟩
  | fuel + 1, z :: zs, o, n, x, hn, h => by
      unfold Index4.unionLoop at h ⊢
      dsimp only at h ⊢
      obtain ⟨⟨found, z⟩, e0, h⟩ := bind_ok h
      obtain ⟨⟨x1, n1⟩, e, h⟩ := bind_ok h
      obtain ⟨k1, k0, _⟩ := Index4.record_keeps e
      rw [e0, M.ok_bind]
      dsimp only
      rw [e, M.ok_bind]
      dsimp only at h ⊢
      by_cases hs : n1 = k
      · rw [if_pos hs]
        refine ⟨_, rfl, Fewer.of_keeps ?_ hs⟩
        split at h
        · cases h; exact ⟨Nat.le_refl _, rfl, rfl⟩
        · obtain ⟨d, _, h⟩ := bind_ok h
          obtain ⟨q, _, h⟩ := bind_ok h
          exact Index4.unionLoop_keeps std ii r K fuel q x1 n1 x h
      · rw [if_neg hs]
        rw [if_neg (by omega)] at h
        obtain ⟨d, e1, h⟩ := bind_ok h
        obtain ⟨q, e2, h⟩ := bind_ok h
        rw [e1, M.ok_bind, e2, M.ok_bind]
        exact Index4.unionLoop_fewer std ii r hkK fuel q x1 n1 x (by omega) h

theorem Index4.advance_checked (std : StdLib) (ii : BlkIdx) (r : Range) (doc : Nat) : ∀ (fuel : Nat) (q : List Blk) (checked : Bool) (q' : List Blk),
    Index4.advance std ii r doc fuel q = .ok (checked, true, q') → checked = true
  | 0, _, _, _, h => by cases h
  | fuel + 1, [], _, _, h => by cases h
  | fuel + 1, z :: zs, checked, q', h => by
      unfold Index4.advance at h
      dsimp only at h
      split at h
      · cases h
      · split at h
        · obtain ⟨d, _, h⟩ := bind_ok h
          obtain ⟨q, _, h⟩ := bind_ok h
          exact Index4.advance_checked std ii r doc fuel q checked q' h
        · obtain ⟨⟨f, z⟩, _, h⟩ := bind_ok h
          cases h
          rfl

theorem Index4.conjLoop_fewer (std : StdLib) (ii : BlkIdx) (r : Range) {k K : Nat} (hkK : k ≤ K) : ∀ (fuel : Nat) (it : BInter) (q : List Blk) (o : List Nat)
    (n : Nat) (x : List Nat × Nat), n < k → Index4.conjLoop std ii r K fuel it q o n = .ok x →
    ∃ y, Index4.conjLoop std ii r k fuel it q o n = .ok y ∧ Fewer k x y
  | 0, _, _, _, _, _, _, h => by cases h
  | fuel + 1, it, q, o, n, x, hn, h => by
      unfold Index4.conjLoop at h ⊢
      split at h
      · rename_i hc
        rw [if_pos hc]
        obtain ⟨⟨checked, found, q⟩, e0, h⟩ := bind_ok h
        obtain ⟨⟨x1, n1⟩, e, h⟩ := bind_ok h
        obtain ⟨k1, k0, _⟩ := Index4.record_keeps e
        rw [e0, M.ok_bind]
        dsimp only
        rw [e, M.ok_bind]
        dsimp only at h ⊢
        by_cases hs : checked = true ∧ n1 = k
        · rw [if_pos hs]
          refine ⟨_, rfl, Fewer.of_keeps ?_ hs.2⟩
          split at h
          · cases h; exact ⟨Nat.le_refl _, rfl, rfl⟩
          · obtain ⟨it, _, h⟩ := bind_ok h
            exact Index4.conjLoop_keeps std ii r K fuel it q x1 n1 x h
        · rw [if_neg hs]
          have hlt : n1 < k := by
            apply Classical.byContradiction
            intro hge
            have hf : found = true := by
              cases found with
              | true => rfl
              | false => unfold Index4.record at e; rw [if_neg (by decide)] at e; cases e; omega
            rw [hf] at e0
            exact hs ⟨Index4.advance_checked std ii r _ _ _ _ _ e0, by omega⟩
          rw [if_neg (by omega)] at h
          obtain ⟨it, e1, h⟩ := bind_ok h
          rw [e1, M.ok_bind]
          exact Index4.conjLoop_fewer std ii r hkK fuel it q x1 n1 x hlt h
      · rename_i hc
        rw [if_neg hc]
        cases h
        exact ⟨_, rfl, rfl, (Nat.min_eq_left (Nat.le_of_lt hn)).symm, rfl⟩

theorem Index4.conjScores_fewer {std : StdLib} {ii : BlkIdx} {pfx : Ids} {r : Range} {k K : Nat} (hk : 1 ≤ k) (hkK : k ≤ K) {o : List Nat} {x : List Nat × Nat}
    (h : Index4.conjScores std ii pfx r K o = .ok x) : ∃ y, Index4.conjScores std ii pfx r k o = .ok y ∧ Fewer k x y := by
  unfold Index4.conjScores at h ⊢
  obtain ⟨q, e, h⟩ := bind_ok h
  rw [e, M.ok_bind]
  split at h
  · rename_i hc
    rw [if_pos hc]
    exact Index4.unionLoop_fewer std ii r hkK _ q o 0 x (by omega) h
  · rename_i hc
    rw [if_neg hc]
    obtain ⟨it, e1, h⟩ := bind_ok h
    rw [e1, M.ok_bind]
    exact Index4.conjLoop_fewer std ii r hkK _ it q o 0 x (by omega) h

theorem deduplicate_congr (std std' : StdLib) {c c' : Ids} (h : ∀ t, t ∈ c ↔ t ∈ c') : deduplicate std c = deduplicate std' c' := by
  obtain ⟨a1, a2⟩ := deduplicate_spec std c
  obtain ⟨b1, b2⟩ := deduplicate_spec std' c'
  refine List.Perm.eq_of_pairwise (le := (· < ·)) (fun a b _ _ h1 h2 => absurd h2 (Nat.lt_asymm h1)) a1 b1 ?_
  rw [List.perm_ext_iff_of_nodup (a1.imp Nat.ne_of_lt) (b1.imp Nat.ne_of_lt)]
  intro t
  rw [a2, b2, h]

/-- only which ids the complete terms have matters -/
theorem Index4.conjScores_congr (std : StdLib) (ii : BlkIdx) {pfx pfx' : Ids} (h : ∀ t, t ∈ pfx ↔ t ∈ pfx') (r : Range) (k : Nat) (o : List Nat) :
    Index4.conjScores std ii pfx r k o = Index4.conjScores std ii pfx' r k o := by
  have hl : pfx.length = 0 ↔ pfx'.length = 0 := by
    rw [List.length_eq_zero_iff, List.length_eq_zero_iff, List.eq_nil_iff_forall_not_mem, List.eq_nil_iff_forall_not_mem]
    simp only [h]
  unfold Index4.conjScores
  rw [deduplicate_congr std std h]
  simp only [hl]

theorem LastRange.unique {C : Coll} {F : Files} {last : Str} {b e b' e' : Nat} (h : LastRange C F last b e) (h' : LastRange C F last b' e') : b = b' ∧ e = e' := by
  have h1 := h.le
  have h2 := h.lt
  have h3 := h'.le
  have h4 := h'.lt
  have a1 := (h'.iff b (by omega)).mpr ((h.iff b (by omega)).mp ⟨Nat.le_refl _, h1⟩)
  have a2 := (h'.iff e h2).mpr ((h.iff e h2).mp ⟨h1, Nat.le_refl _⟩)
  have a3 := (h.iff b' (by omega)).mpr ((h'.iff b' (by omega)).mp ⟨Nat.le_refl _, h3⟩)
  have a4 := (h.iff e' h4).mpr ((h'.iff e' h4).mp ⟨h3, Nat.le_refl _⟩)
  omega

section
variable {C : Coll} {F : Files} (h : Ready C F)
include h

/-- the documents that the search of type 4 stores -/
theorem Index4.scores_run (std : StdLib) {m : Nat} {x : BlkIdx} {docss : List (List Nat)} (hx : x.Rep F.univ m F.inverted docss) (hids : ∀ r ∈ C, r.1 < 2 ^ 32 - 2)
    {complete : List Str} {last : Str} {b e : Nat} (hr : LastRange C F last b e) {K : Nat} (hk : 1 ≤ K) {o : List Nat} (hkl : K ≤ o.length) :
    ∃ S : List Nat, Result4 C (blocksOf F.terms x.blocks) complete last (S.map (rowOf F)) ∧ (∀ d ∈ S, ∃ c, (d, c) ∈ C) ∧
      ∃ scores' n, conjScores std x (knownPfx F complete) ⟨b + 1, e + 1⟩ K o = .ok (scores', n) ∧
        scores'.length = o.length ∧ n ≤ K ∧ scores'.take n = S.take K := by
  have hcut := hx.cut
  have hu : F.univ + 1 < 2 ^ 32 := by
    obtain ⟨r, hr, he⟩ := h.files.univ
    have := hids r hr
    omega
  have hlt := hr.lt
  have hle := hr.le
  by_cases hkn : knownPfx F complete = []
  · obtain ⟨scores', n, S, t1, t2, t3, t4, t5, t6⟩ := Index4.scores_union hx (by omega) std (r := ⟨b + 1, e + 1⟩) (by simp) (by simpa using hle)
      (by rw [h.files.numLists]; simp only; omega) hk hkl
    have hin : ∀ d ∈ S, ∃ c, (d, c) ∈ C := by
      intro d hd
      have := List.count_pos_iff.mpr hd
      rw [t6, List.countP_pos_iff] at this
      obtain ⟨y, _, hy⟩ := this
      obtain ⟨t, _, _, _, _, ht⟩ := hasIn_iff.mp hy
      obtain ⟨_, _, _, c, hc, _⟩ := h.posted_iff.mp ht
      exact ⟨c, hc⟩
    refine ⟨S, ⟨?_, fun _ => ⟨?_, ?_⟩, ?_⟩, hin, scores', n, by rw [hkn]; exact t1, t2, t3, t4⟩
    · intro y hy
      obtain ⟨d, hd, rfl⟩ := List.mem_map.mp hy
      obtain ⟨c, hc⟩ := hin d hd
      rw [h.rowOf hc]; exact hc
    · rw [List.pairwise_map]; exact t5
    · intro y hy
      rw [h.count_rows hy, t6, h.copies_eq hcut hr hy]
    · rintro ⟨t, ht, hT⟩
      exact absurd hT (h.known_none.mp hkn t ht)
  · obtain ⟨scores', n, R, t1, t2, t3, t4, t5, t6, t7⟩ := Index4.scores_inter hx hu std hkn
      (fun t ht => h.knownPfx_in t ht) (r := ⟨b + 1, e + 1⟩) (by simp) (by simpa using hle)
      (by rw [h.files.numLists]; simp only; omega) hk hkl
    have hin : ∀ d ∈ R, ∃ c, (d, c) ∈ C := by
      intro d hd
      obtain ⟨_, _, y, _, t, _, _, _, _, ht⟩ := t6 d hd
      obtain ⟨_, _, _, c, hc, _⟩ := h.posted_iff.mp ht
      exact ⟨c, hc⟩
    refine ⟨R, ⟨?_, ?_, fun _ => ⟨?_, ?_, ?_⟩⟩, hin, scores', n, t1, t2, t3, t4⟩
    · intro y hy
      obtain ⟨d, hd, rfl⟩ := List.mem_map.mp hy
      obtain ⟨c, hc⟩ := hin d hd
      rw [h.rowOf hc]; exact hc
    · intro hno
      exact absurd (h.known_none.mpr hno) hkn
    · rw [List.pairwise_map]; exact t5
    · intro y hy
      obtain ⟨d, hd, rfl⟩ := List.mem_map.mp hy
      obtain ⟨c, hc⟩ := hin d hd
      rw [h.rowOf hc]
      obtain ⟨a1, a2, a3⟩ := t6 d hd
      exact ⟨(h.posted_known hc).mp a1, fun hsk => a2 ((h.skipped_iff (r := (d, c)) hc).mpr hsk), (h.exists_visited hcut hr (r := (d, c)) hc).mp a3⟩
    · intro y hy a1 a2 a3 a4
      refine List.mem_map.mpr ⟨y.1, ?_, h.rowOf (c := y.2) hy⟩
      refine t7 y.1 ((h.posted_known (c := y.2) hy).mpr a1) (fun hf => a2 ((h.skipped_iff hy).mp hf)) ((h.exists_visited hcut hr hy).mpr a3) ?_
      intro z hz hp
      obtain ⟨z1, z2⟩ := (h.mem_visited hcut hr).mp hz
      obtain ⟨c, hc, hx'⟩ := h.has_iff.mp hp
      rw [← h.unique (d := y.1) (c := y.2) hy hc] at hx'
      exact (h.inRange_iff hr).mpr ⟨y.2, hy, a4 _ (List.mem_map.mpr ⟨z, z1, rfl⟩) z2 hx'⟩

theorem Index4.scores_spec (std : StdLib) {m : Nat} {x : BlkIdx} {docss : List (List Nat)} (hx : x.Rep F.univ m F.inverted docss) (hids : ∀ r ∈ C, r.1 < 2 ^ 32 - 2)
    {complete : List Str} {last : Str} {b e : Nat} (hr : LastRange C F last b e) :
    ∃ S : List Nat, Result4 C (blocksOf F.terms x.blocks) complete last (S.map (rowOf F)) ∧ (∀ d ∈ S, ∃ c, (d, c) ∈ C) ∧
      ∀ k, 1 ≤ k → k ≤ MAX_K → ∃ n, n ≤ k ∧ ∀ scores : List Nat, scores.length = MAX_K → ∃ scores', conjScores std x (knownPfx F complete) ⟨b + 1, e + 1⟩ k scores = .ok (scores', n) ∧
        scores'.length = scores.length ∧ scores'.take n = S.take k := by
  have hk : 1 ≤ MAX_K := by decide
  have hkl : MAX_K ≤ (List.replicate MAX_K 0).length := by rw [List.length_replicate]; exact Nat.le_refl _
  have hall : ∀ (S : List Nat) (scores1 : List Nat) (n : Nat), conjScores std x (knownPfx F complete) ⟨b + 1, e + 1⟩ MAX_K (List.replicate MAX_K 0) = .ok (scores1, n) →
      scores1.length = (List.replicate MAX_K 0).length → n ≤ MAX_K → scores1.take n = S.take MAX_K →
      ∀ k, 1 ≤ k → k ≤ MAX_K → ∃ n, n ≤ k ∧ ∀ scores : List Nat, scores.length = MAX_K →
        ∃ scores', conjScores std x (knownPfx F complete) ⟨b + 1, e + 1⟩ k scores = .ok (scores', n) ∧
        scores'.length = scores.length ∧ scores'.take n = S.take k := by
    intro S scores1 n e1 e2 e4 e3 k hk hk'
    obtain ⟨⟨y, n'⟩, g1, g2, g3, g4⟩ := Index4.conjScores_fewer hk hk' e1
    dsimp only at g2 g3 g4
    refine ⟨n', by omega, ?_⟩
    intro scores hs
    obtain ⟨x2, f1, f2, f3⟩ := Index4.conjScores_same (o2 := scores) (by rw [List.length_replicate, hs]) g1
    refine ⟨x2, f1, by rw [f2, g2, e2, List.length_replicate, hs], ?_⟩
    have hn : n ≤ scores1.length := by rw [e2, List.length_replicate]; exact e4
    have h1 : S.take k = (scores1.take n).take k := by rw [e3, List.take_take, Nat.min_eq_left hk']
    rw [f3, g4, h1, List.take_take, g3, Nat.min_comm]
  obtain ⟨S, s1, s2, scores', n, t1, t2, t3, t4⟩ := Index4.scores_run h std hx hids (complete := complete) hr hk hkl
  exact ⟨S, s1, s2, hall S scores' n t1 t2 t3 t4⟩

/-- what conjunctive search with type 4 returns, whatever the state, the number of results and the order of the complete terms; also with another
index that stores the same documents -/
theorem Index4.conj_like (std : StdLib) {m : Nat} {x : Index4} {docss : List (List Nat)} (hx : x.Rep m F docss) (hids : ∀ r ∈ C, r.1 < 2 ^ 32 - 2)
    {q : Str} (hq : IsText q) :
    ∃ S, Result4 C (blocksOf F.terms x.inverted.blocks) (completeTerms q) (lastTerm q) S ∧
      ∀ q', IsText q' → lastTerm q' = lastTerm q → (∀ t, t ∈ completeTerms q' ↔ t ∈ completeTerms q) →
        ∀ (y : Index4) (docss' : List (List Nat)), y.Rep m F docss' → (∀ b e k o, LastRange C F (lastTerm q) b e → conjScores std y.inverted (knownPfx F (completeTerms q)) ⟨b + 1, e + 1⟩ k o =
            conjScores std x.inverted (knownPfx F (completeTerms q)) ⟨b + 1, e + 1⟩ k o) →
          ∀ k, 1 ≤ k → k ≤ MAX_K → ∀ s : Scratch, s.WF → Shows F.terms (S.take k) (y.conjTopk std q' k s) := by
  have key : ∃ S : List Nat, Result4 C (blocksOf F.terms x.inverted.blocks) (completeTerms q) (lastTerm q) (S.map (rowOf F)) ∧ (∀ d ∈ S, ∃ c, (d, c) ∈ C) ∧
      ((∀ x, IsTerm C x → ¬ Reaches C (lastTerm q) x) → S = []) ∧ ∀ b e, LastRange C F (lastTerm q) b e →
      ∀ k, 1 ≤ k → k ≤ MAX_K → ∃ n, n ≤ k ∧ ∀ scores : List Nat, scores.length = MAX_K → ∃ scores', conjScores std x.inverted (knownPfx F (completeTerms q)) ⟨b + 1, e + 1⟩ k scores = .ok (scores', n) ∧
        scores'.length = scores.length ∧ scores'.take n = S.take k := by
    by_cases hex : ∃ b e, LastRange C F (lastTerm q) b e
    · obtain ⟨b, e, hr⟩ := hex
      obtain ⟨S, s1, s2, s3⟩ := Index4.scores_spec h std hx.inverted hids (complete := completeTerms q) hr
      refine ⟨S, s1, s2, ?_, ?_⟩
      · intro hu
        have hlt := hr.lt
        have hle := hr.le
        exact absurd ((hr.iff b (by omega)).mp ⟨Nat.le_refl _, hle⟩) (hu _ ((h.isTerm _).mpr (List.getElem_mem _)))
      · intro b' e' hr'
        obtain ⟨rfl, rfl⟩ := hr.unique hr'
        exact s3
    · have hu : ∀ x, IsTerm C x → ¬ Reaches C (lastTerm q) x := by
        have ha := analyse_spec h hx.dict hq false Scratch.fresh_wf.dbuf
        generalize analyse x.dict q false Scratch.fresh = a at ha
        cases ha with
        | unknown buf hb hm hu => simp at hm
        | nothing buf hb hu => exact hu
        | some buf hb r hr hk2 => exact absurd ⟨_, _, hr⟩ hex
      exact ⟨[], h.result_none hu, by simp, fun _ => rfl, fun b e hr => absurd ⟨b, e, hr⟩ hex⟩
  obtain ⟨S, s1, s2, s3, s4⟩ := key
  refine ⟨_, s1, ?_⟩
  intro q' hq' hlast hcompl y docss' hy hsame k hk hk' s hs
  have ha := analyse_spec h hy.dict hq' false hs.dbuf
  unfold Index4.conjTopk
  generalize analyse y.dict q' false s = a at ha
  cases ha with
  | unknown buf hb hm hu => simp at hm
  | nothing buf hb hu =>
      have hu0 := hu
      rw [hlast] at hu0
      obtain ⟨E, b, hE⟩ := outcome_none (k := k) (wf_init hs hb) (Pool.Holds.init s.pool) hy.built (h.not_conjFound (complete := completeTerms q') hu)
      have : E = [] := by
        rw [List.eq_nil_iff_forall_not_mem]
        intro r hr
        exact h.not_conjFound hu r (b.sound r hr).1 (b.sound r hr).2
      rw [this] at hE
      rw [s3 hu0, List.map_nil, List.take_nil]
      exact hE
  | some buf hb r hr hk2 =>
      rw [M.ok_bind]
      dsimp only
      obtain ⟨n, hn, hsc⟩ := s4 _ _ (hlast ▸ hr) k hk hk'
      obtain ⟨scores', e0, e1, e3⟩ := hsc s.pool.init.scores hs.scores
      have hsl := hs.scores
      have hkn : ∀ t, t ∈ knownPfx F (completeTerms q) ↔ t ∈ knownPfx F (completeTerms q') := by
        intro t
        unfold knownPfx
        simp only [List.mem_map, List.mem_filter, hcompl]
      rw [← hsame _ _ _ _ (hlast ▸ hr), Index4.conjScores_congr std y.inverted hkn] at e0
      unfold knownPfx at e0
      rw [e0, M.ok_bind]
      have := Base.extract_shows h hy.base hy.dict hy.built (n := n) (wf_scores (wf_init hs hb) e1) (holds_scores (Pool.Holds.init _) _)
        (by dsimp only [Pool.init] at e1 ⊢; omega) (by
          intro d hd
          rw [show _ = scores'.take n from rfl, e3] at hd
          exact s2 d (List.mem_of_mem_take hd))
      rw [← List.map_take, ← e3]
      exact this

theorem Index4.conj_spec (std : StdLib) {m : Nat} {x : Index4} {docss : List (List Nat)} (hx : x.Rep m F docss) (hids : ∀ r ∈ C, r.1 < 2 ^ 32 - 2)
    {q : Str} (hq : IsText q) :
    ∃ S, Result4 C (blocksOf F.terms x.inverted.blocks) (completeTerms q) (lastTerm q) S ∧
      ∀ q', IsText q' → lastTerm q' = lastTerm q → (∀ t, t ∈ completeTerms q' ↔ t ∈ completeTerms q) →
        ∀ k, 1 ≤ k → k ≤ MAX_K → ∀ s : Scratch, s.WF → Shows F.terms (S.take k) (x.conjTopk std q' k s) := by
  obtain ⟨S, h1, h2⟩ := Index4.conj_like h std hx hids hq
  exact ⟨S, h1, fun q' a b c => h2 q' a b c x docss hx (fun _ _ _ _ _ => rfl)⟩

end
end AC
