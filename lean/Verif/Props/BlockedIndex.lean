import Verif.Proofs.BlkInter
import Verif.Proofs.StdLib
import Verif.Props.InvertedIndex
/-!
# C25, C47: the blocked inverted index
-/
namespace AC.Props
open Spec

/-- building a blocked inverted index: the builder, then the index -/
def buildBlocked (std : StdLib) (m u : Nat) (lists : List (List Nat)) (mem : Nat → W) : M BlkIdx := do
  let b ← BlkBuilder.mk' std m u lists
  b.build mem

/-- reading the terms from position `i` on -/
def readTerms (ii : BlkIdx) (b : Blk) : Nat → Nat → M (List Nat)
  | 0, _ => .ok []
  | n + 1, i => do
      let t ← ii.termAt b i
      let ts ← readTerms ii b n (i + 1)
      .ok (t :: ts)

/-- a program that reads a block from the position of its iterator on: each document with its terms -/
def readRows (ii : BlkIdx) : Nat → Blk → M (List (Nat × List Nat))
  | 0, _ => .error .diverge
  | fuel + 1, b =>
      if b.docs.hasNext then do
        let (s, e, b) ← ii.bounds b
        let ts ← readTerms ii b (e - s) s
        let d ← b.docs.next ii.lists
        let rest ← readRows ii fuel { b with docs := d }
        .ok ((b.docs.value, ts) :: rest)
      else .ok []

theorem readTerms_spec {ii : BlkIdx} {b : Blk} {s : Nat} {ts : List Nat} (h : TermsFrom ii b s ts) : ∀ (n i : Nat), i + n = ts.length →
    readTerms ii b n (s + i) = .ok (ts.drop i) := by
  intro n
  induction n with
  | zero => intro i hi; rw [List.drop_eq_nil_of_le (by omega)]; rfl
  | succ n ih =>
      intro i hi
      have hl : i < ts.length := by omega
      unfold readTerms
      rw [h i ts[i] (List.getElem?_eq_getElem hl)]
      simp only [M.ok_bind]
      have := ih (i + 1) (by omega)
      rw [← Nat.add_assoc] at this
      rw [this]
      simp only [M.ok_bind]
      rw [List.drop_eq_getElem_cons hl]

theorem readRows_spec {ii : BlkIdx} {u : Nat} {lists : List (List Nat)} {lo hi : Nat} {docs : List Nat} : ∀ (fuel : Nat) (b : Blk) (p : Nat),
    b.At ii u lists lo hi docs p → docs.length - p < fuel → readRows ii fuel b = .ok (blockAbs lists lo hi (docs.drop p)) := by
  intro fuel
  induction fuel with
  | zero => intro b p _ h; omega
  | succ fuel ih =>
      intro b p h hf
      unfold readRows
      rw [h.it.hasNext]
      by_cases hp : p < docs.length
      · rw [decide_eq_true hp, if_pos rfl]
        have hd := List.getElem?_eq_getElem hp
        obtain ⟨o, e1, e2⟩ := h.bounds hd
        have ht := readTerms_spec (e2.termsFrom hd) (termsOf lists docs[p] lo hi).length 0 (by omega)
        rw [Nat.add_zero, List.drop_zero] at ht
        obtain ⟨it', f1, f2⟩ := h.it.next hp
        simp only [e1, M.ok_bind, Nat.add_sub_cancel_left, ht, f1]
        rw [ih _ (p + 1) (e2.withDocs f2) (by omega)]
        simp only [M.ok_bind]
        rw [List.drop_eq_getElem_cons hp, h.it.value, hd]
        rfl
      · rw [decide_eq_false hp, if_neg (by simp), List.drop_eq_nil_of_le (by omega)]
        rfl

/-- **C25**: for all non-empty increasing lists of documents below `u` and every block size `m`, the index can be built, and
- the last terms of the blocks cut the terms into consecutive blocks; a block is closed as soon as it has `m` postings;
- reading a block gives exactly the documents that have a term of the block, in increasing order, each with exactly its terms of
  the block, in increasing order;
- `block_id(t)` is the block that contains `t`.

The first documents of the lists are reported to the caller of the builder. -/
theorem C25_blocks (std : StdLib) (m u : Nat) (lists : List (List Nat)) (h : BlkLists u lists) (mem : Nat → W) :
    ∃ ii, buildBlocked std m u lists mem = .ok ii ∧ ii.numTerms = lists.length ∧ ii.numDocs = u ∧
      ii.numIntegers = (lists.map List.length).sum ∧
      (∃ b, BlkBuilder.mk' std m u lists = .ok b ∧ b.minimal.map some = lists.map List.head?) ∧
      IsCut lists m ii.blocks ∧
      (∀ (j lo hi : Nat), (0 :: ii.blocks)[j]? = some lo → ii.blocks[j]? = some hi →
        ii.boundary j = .ok hi ∧ ∃ b rows, ii.block j = .ok b ∧ readRows ii (u + 1) b = .ok rows ∧ IsBlock lists lo hi rows) ∧
      (∀ t, 1 ≤ t → t ≤ lists.length → ∃ j lo hi, ii.blockId std t = .ok j ∧ (0 :: ii.blocks)[j]? = some lo ∧ ii.blocks[j]? = some hi ∧
        lo < t ∧ t ≤ hi) := by
  obtain ⟨b, e1, e2, e3⟩ := BlkBuilder.build_spec h std m
  obtain ⟨ii, docss, f1, f2⟩ := e3 mem
  refine ⟨ii, ?_, f2.terms, f2.docs, f2.ints, ⟨b, e1, ?_⟩, f2.cut, ?_, fun t h1 h2 => blockId_spec f2 std h1 h2⟩
  · unfold buildBlocked
    rw [e1]; exact f1
  · rw [e2, List.map_map]
    apply List.map_congr_left
    intro l hl
    have := (h.each l hl).1
    cases l with
    | nil => exact absurd rfl this
    | cons x xs => rfl
  · intro j lo hi h1 h2
    refine ⟨rd_of_getElem? h2, ?_⟩
    obtain ⟨docs, h3⟩ := docss_get f2 h2
    obtain ⟨blk, g1, g2, g3⟩ := block_spec f2 h1 h2 h3
    refine ⟨blk, _, g1, readRows_spec (u + 1) blk 0 g2 ?_, by rw [List.drop_zero]; exact g2.isDocs.isBlock⟩
    have := nodup_subset_length' (A := docs) (B := List.range u) (g2.it.sorted.imp Nat.ne_of_lt) (fun a ha => List.mem_range.mpr (g2.it.bound a ha))
    simp only [List.length_range] at this
    omega

/-- the lists of the examples: five terms, documents below 9 -/
def exLists : List (List Nat) := [[0, 3, 8], [3], [1, 3, 5, 8], [2], [0, 2, 5]]

example : BlkLists 9 exLists := ⟨⟨by decide, by decide, by decide, by decide⟩, by decide⟩

/-- with `m = 4` these lists make three blocks -/
example : IsCut exLists 4 [2, 3, 5] :=
  ⟨by decide, by decide, by
    intro j lo hi h1 h2
    match j with
    | 0 => cases h1; cases h2; decide
    | 1 => cases h1; cases h2; decide
    | 2 => cases h1; cases h2; decide
    | j + 3 => simp at h2, by
    intro j lo hi h1 h2 x hx1 hx2
    match j with
    | 0 => cases h1; cases h2; have : x = 1 := by omega
           subst this; decide
    | 1 => cases h1; cases h2; omega
    | 2 => cases h1; cases h2; have : x = 4 := by omega
           subst this; decide
    | j + 3 => simp at h2⟩

theorem mem_inAllLists {u : Nat} {lists : List (List Nat)} (h : BlkLists u lists) {ids : List Nat} (hne : ids ≠ []) (hids : ∀ t ∈ ids, 1 ≤ t) (d : Nat) :
    d ∈ inAllLists u lists ids ↔ ∀ t ∈ ids, Posted lists t d := by
  unfold inAllLists
  simp only [List.mem_filter, List.mem_range, List.all_eq_true, List.contains_iff_mem]
  constructor
  · rintro ⟨_, hall⟩ t ht
    exact (mem_getD_iff (hids t ht)).mp (hall t ht)
  · intro hall
    obtain ⟨t, ht⟩ := List.exists_mem_of_ne_nil _ hne
    exact ⟨posted_bound h (hall t ht), fun t ht => (mem_getD_iff (hids t ht)).mpr (hall t ht)⟩

theorem firstOfOne_iff {ii : BlkIdx} {u m : Nat} {lists docss : List (List Nat)} (h : ii.Rep u m lists docss) {ids : List Nat} {d : Nat} :
    FirstOfOne lists ii.blocks ids d ↔
      ∃ (j lo hi : Nat) (docs : List Nat), (0 :: ii.blocks)[j]? = some lo ∧ ii.blocks[j]? = some hi ∧ docss[j]? = some docs ∧
        (∀ t ∈ ids, lo < t ∧ t ≤ hi) ∧ docs.head? = some d := by
  have key : ∀ (j lo hi : Nat) (docs : List Nat), (0 :: ii.blocks)[j]? = some lo → ii.blocks[j]? = some hi → docss[j]? = some docs →
      (IsFirstDoc lists lo hi d ↔ docs.head? = some d) := by
    intro j lo hi docs h1 h2 h3
    have hD := h.blocks.isDocs j lo hi docs h1 h2 h3
    have hs := hD.sorted
    have hmem := hD.mem
    unfold IsFirstDoc
    cases docs with
    | nil =>
        simp only [List.head?_nil]
        constructor
        · rintro ⟨⟨t, t1, t2, t3⟩, _⟩
          exact absurd ((hmem d).mpr ⟨t, t1, t2, t3⟩) (by simp)
        · intro hn; cases hn
    | cons a as =>
        simp only [List.head?_cons, Option.some.injEq]
        have hle : ∀ e ∈ a :: as, a ≤ e := by
          intro e he
          rcases List.mem_cons.mp he with rfl | he
          · exact Nat.le_refl _
          · exact Nat.le_of_lt ((List.pairwise_cons.mp hs).1 e he)
        constructor
        · rintro ⟨hd, hmin⟩
          have h1 := hle d ((hmem d).mpr hd)
          obtain ⟨t, t1, t2, t3⟩ := (hmem a).mp (List.mem_cons_self ..)
          have := hmin t a t1 t2 t3
          omega
        · rintro rfl
          exact ⟨(hmem a).mp (List.mem_cons_self ..), fun t e t1 t2 t3 => hle e ((hmem e).mpr ⟨t, t1, t2, t3⟩)⟩
  constructor
  · rintro ⟨j, lo, hi, h1, h2, h3, h4⟩
    obtain ⟨docs, hdocs⟩ := docss_get h h2
    exact ⟨j, lo, hi, docs, h1, h2, hdocs, h3, (key j lo hi docs h1 h2 hdocs).mp h4⟩
  · rintro ⟨j, lo, hi, docs, h1, h2, hdocs, h3, h4⟩
    exact ⟨j, lo, hi, h1, h2, h3, (key j lo hi docs h1 h2 hdocs).mpr h4⟩

open Classical in
/-- the intersection of the lists of `ids`, as the iterator of the blocked index enumerates it -/
noncomputable def enumerated (u : Nat) (lists : List (List Nat)) (bounds ids : List Nat) : List Nat :=
  (inAllLists u lists ids).filter (fun d => decide (¬ FirstOfOne lists bounds ids d))

theorem mem_enumerated {u : Nat} {lists : List (List Nat)} {bounds ids : List Nat} {d : Nat} :
    d ∈ enumerated u lists bounds ids ↔ d ∈ inAllLists u lists ids ∧ ¬ FirstOfOne lists bounds ids d := by
  classical
  unfold enumerated
  rw [List.mem_filter, decide_eq_true_iff]

/-- **C47** (partial): the intersection iterator of the blocked index, on increasing terms, enumerates the documents that have all
of them, each once and in increasing order; only the first document of the block is missing when the terms lie in one block
(the full statement has `inAllLists u lists ids` instead of `enumerated …`; see `C47_false`). The number of documents must leave
room for one more in 32 bits. -/
theorem C47_intersection_partial (std : StdLib) (m u : Nat) (lists : List (List Nat)) (h : BlkLists u lists) (hu : u + 1 < 2 ^ 32) (mem : Nat → W)
    (ids : List Nat) (hne : ids ≠ []) (hs : ids.Pairwise (· < ·)) (hids : ∀ t ∈ ids, 1 ≤ t ∧ t ≤ lists.length) :
    ∃ ii s, buildBlocked std m u lists mem = .ok ii ∧ BInter.mk' std ii ids = .ok s ∧
      s.collect ii (u + 1) = .ok (enumerated u lists ii.blocks ids) := by
  obtain ⟨b, e1, e2, e3⟩ := BlkBuilder.build_spec h std m
  obtain ⟨ii, docss, f1, f2⟩ := e3 mem
  have hsort : (enumerated u lists ii.blocks ids).Pairwise (· < ·) :=
    List.Pairwise.filter _ (List.Pairwise.filter _ List.pairwise_lt_range)
  obtain ⟨s, xs, g1, g2⟩ := BInter.mk'_spec f2 hu std ids hne hs hids (enumerated u lists ii.blocks ids) hsort (by
    intro d
    rw [← firstOfOne_iff f2]
    rw [mem_enumerated, mem_inAllLists h hne (fun t ht => (hids t ht).1)])
  refine ⟨ii, s, ?_, g1, BInter.collect_spec _ _ s xs g2 ?_⟩
  · unfold buildBlocked
    rw [e1]; exact f1
  · have := nodup_subset_length' (A := enumerated u lists ii.blocks ids) (B := List.range u) (hsort.imp Nat.ne_of_lt)
      (fun a ha => List.mem_range.mpr (g2.bound a ha))
    simp only [List.length_range] at this
    omega

/-- **C47 is false**: whenever the terms lie in one block the first document of which has all of them, this document is missing from the
enumeration. -/
theorem C47_false (std : StdLib) (m u : Nat) (lists : List (List Nat)) (h : BlkLists u lists) (hu : u + 1 < 2 ^ 32) (mem : Nat → W)
    (ids : List Nat) (hne : ids ≠ []) (hs : ids.Pairwise (· < ·)) (hids : ∀ t ∈ ids, 1 ≤ t ∧ t ≤ lists.length) :
    ∃ ii, buildBlocked std m u lists mem = .ok ii ∧ ∀ d, FirstOfOne lists ii.blocks ids d → (∀ t ∈ ids, Posted lists t d) →
      ∃ s R, BInter.mk' std ii ids = .ok s ∧ s.collect ii (u + 1) = .ok R ∧ d ∈ inAllLists u lists ids ∧ d ∉ R := by
  obtain ⟨ii, s, e1, e2, e3⟩ := C47_intersection_partial std m u lists h hu mem ids hne hs hids
  refine ⟨ii, e1, ?_⟩
  intro d hd hall
  refine ⟨s, _, e2, e3, (mem_inAllLists h hne (fun t ht => (hids t ht).1) d).mpr hall, ?_⟩
  rw [mem_enumerated]
  exact fun hn => hn.2 hd

/-- the first term of the example: its block `(0, 2]` begins with document 0, which has the term -/
example : FirstOfOne exLists [2, 3, 5] [1] 0 ∧ ∀ t ∈ [1], Posted exLists t 0 := by
  refine ⟨⟨0, 0, 2, rfl, rfl, by decide, ⟨1, by decide, by decide, by decide, [0, 3, 8], rfl, by decide⟩, ?_⟩, ?_⟩
  · intro t e _ _ _; exact Nat.zero_le _
  · intro t ht
    rw [List.mem_singleton.mp ht]
    exact ⟨by decide, [0, 3, 8], rfl, by decide⟩

end AC.Props
