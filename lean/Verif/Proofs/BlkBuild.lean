import Verif.Proofs.BlkStore
import Verif.Proofs.Collection
import Verif.Spec.Blocks
/-!
# Construction of the blocked inverted index
-/
namespace AC
open Spec

/-- the terms of document `d` after `lo` up to `hi` -/
def termsOf (lists : List (List Nat)) (d lo hi : Nat) : List Nat :=
  (List.range' (lo + 1) (hi - lo)).filter (fun t => decide (d ∈ lists.getD (t - 1) []))

theorem mem_getD_iff {lists : List (List Nat)} {t d : Nat} (ht : 1 ≤ t) : d ∈ lists.getD (t - 1) [] ↔ Posted lists t d := by
  unfold Posted
  rw [List.getD_eq_getElem?_getD]
  cases h : lists[t - 1]? with
  | none => simp
  | some l => simp [ht]

theorem mem_termsOf {lists : List (List Nat)} {d lo hi t : Nat} :
    t ∈ termsOf lists d lo hi ↔ lo < t ∧ t ≤ hi ∧ Posted lists t d := by
  unfold termsOf
  rw [List.mem_filter, List.mem_range'_1, decide_eq_true_iff]
  constructor
  · rintro ⟨⟨h1, h2⟩, h3⟩
    exact ⟨by omega, by omega, (mem_getD_iff (by omega)).mp h3⟩
  · rintro ⟨h1, h2, h3⟩
    exact ⟨⟨by omega, by omega⟩, (mem_getD_iff (by omega)).mpr h3⟩

theorem termsOf_sorted (lists : List (List Nat)) (d lo hi : Nat) : (termsOf lists d lo hi).Pairwise (· < ·) := by
  unfold termsOf
  exact List.Pairwise.filter _ (List.pairwise_lt_range' ..)

theorem termsOf_self (lists : List (List Nat)) (d lo : Nat) : termsOf lists d lo lo = [] := by
  simp [termsOf]

theorem termsOf_succ {lists : List (List Nat)} {d lo hi : Nat} (h : lo ≤ hi) :
    termsOf lists d lo (hi + 1) = termsOf lists d lo hi ++ if d ∈ lists.getD hi [] then [hi + 1] else [] := by
  unfold termsOf
  rw [show hi + 1 - lo = (hi - lo) + 1 by omega, List.range'_1_concat, List.filter_append]
  congr 1
  rw [show lo + 1 + (hi - lo) = hi + 1 by omega]
  rw [List.filter_cons, List.filter_nil, Nat.add_sub_cancel]
  by_cases hd : d ∈ lists.getD hi []
  · rw [if_pos (decide_eq_true hd), if_pos hd]
  · rw [if_neg (by simpa using hd), if_neg hd]

/-- the rows of a block as they are stored -/
def blockRel (lists : List (List Nat)) (lo hi : Nat) (docs : List Nat) : List (Nat × List Nat) :=
  docs.map (fun d => (d, (termsOf lists d lo hi).map (· - max lo 1)))

/-- the rows of a block -/
def blockAbs (lists : List (List Nat)) (lo hi : Nat) (docs : List Nat) : List (Nat × List Nat) :=
  docs.map (fun d => (d, termsOf lists d lo hi))

/-- the documents of a block -/
structure IsDocs (lists : List (List Nat)) (lo hi : Nat) (docs : List Nat) : Prop where
  sorted : docs.Pairwise (· < ·)
  mem : ∀ d, d ∈ docs ↔ ∃ t, lo < t ∧ t ≤ hi ∧ Posted lists t d

theorem IsDocs.isBlock {lists : List (List Nat)} {lo hi : Nat} {docs : List Nat} (h : IsDocs lists lo hi docs) :
    IsBlock lists lo hi (blockAbs lists lo hi docs) := by
  unfold blockAbs
  refine ⟨?_, ?_, ?_, ?_, ?_⟩
  · rw [List.map_map]
    have : ((fun r : Nat × List Nat => r.1) ∘ fun d => (d, termsOf lists d lo hi)) = id := rfl
    rw [this, List.map_id]; exact h.sorted
  · intro t d h1 h2 h3
    exact ⟨_, List.mem_map.mpr ⟨d, (h.mem d).mpr ⟨t, h1, h2, h3⟩, rfl⟩⟩
  · intro r hr
    obtain ⟨d, hd, rfl⟩ := List.mem_map.mp hr
    obtain ⟨t, ht⟩ := (h.mem d).mp hd
    exact List.ne_nil_of_mem (mem_termsOf.mpr ht)
  · intro r hr
    obtain ⟨d, hd, rfl⟩ := List.mem_map.mp hr
    exact termsOf_sorted ..
  · intro r hr t
    obtain ⟨d, hd, rfl⟩ := List.mem_map.mp hr
    exact mem_termsOf

/-! ## The loops of the builder -/

theorem addPostings_spec (x : Nat) : ∀ (l : List Nat) (f : Nat → List Nat), l.Nodup → ∀ e,
    BlkBuilder.addPostings x l f e = if e ∈ l then f e ++ [x] else f e := by
  intro l
  induction l with
  | nil => intro f _ e; simp [BlkBuilder.addPostings]
  | cons d ds ih =>
      intro f hn e
      rw [List.nodup_cons] at hn
      rw [BlkBuilder.addPostings, ih _ hn.2]
      by_cases he : e = d
      · subst he
        rw [if_neg hn.1, if_pos rfl, if_pos (List.mem_cons_self ..)]
      · simp [he]

theorem gather_spec : ∀ (docs : List Nat) (f : Nat → List Nat) (off : Nat), docs.Nodup →
    ∃ g, BlkBuilder.gather docs f off =
      (offsetsFrom (docs.map (fun d => (d, f d))) off, rowTerms (docs.map (fun d => (d, f d))), g) ∧
      ∀ e, g e = if e ∈ docs then [] else f e := by
  intro docs
  induction docs with
  | nil => intro f off _; exact ⟨f, rfl, by simp⟩
  | cons d ds ih =>
      intro f off hn
      rw [List.nodup_cons] at hn
      obtain ⟨g, e1, e2⟩ := ih (fun e => if e = d then [] else f e) (off + (f d).length) hn.2
      have hm : ds.map (fun e => (e, if e = d then [] else f e)) = ds.map (fun e => (e, f e)) := by
        apply List.map_congr_left
        intro e he
        rw [if_neg (by rintro rfl; exact hn.1 he)]
      rw [hm] at e1
      refine ⟨g, ?_, ?_⟩
      · rw [BlkBuilder.gather, e1]
        simp [offsetsFrom, rowTerms]
      · intro e
        rw [e2 e]
        by_cases he : e = d
        · subst he; simp
        · simp [he]

theorem rowTotal_blockRel {lists : List (List Nat)} {docs : List Nat} (hn : docs.Nodup) {lo : Nat} : ∀ hi, lo ≤ hi →
    rowTotal (blockRel lists lo hi docs) ≤ postingsIn lists lo hi := by
  intro hi h
  obtain ⟨k, rfl⟩ := Nat.exists_eq_add_of_le h
  clear h
  have key : ∀ k, (docs.map (fun d => (termsOf lists d lo (lo + k)).length)).sum ≤ postingsIn lists lo (lo + k) := by
    intro k
    induction k with
    | zero =>
        have : ∀ l : List Nat, (l.map (fun d => (termsOf lists d lo lo).length)).sum = 0 := by
          intro l
          induction l with
          | nil => rfl
          | cons a l ih => rw [List.map_cons, List.sum_cons, ih, termsOf_self]; rfl
        rw [Nat.add_zero, this]; exact Nat.zero_le _
    | succ k ih =>
        have h1 : ∀ l : List Nat, (l.map (fun d => (termsOf lists d lo (lo + k + 1)).length)).sum =
            (l.map (fun d => (termsOf lists d lo (lo + k)).length)).sum + (l.filter (fun d => decide (d ∈ lists.getD (lo + k) []))).length := by
          intro l
          induction l with
          | nil => rfl
          | cons a l ihl =>
              rw [List.map_cons, List.sum_cons, ihl, List.map_cons, List.sum_cons, termsOf_succ (Nat.le_add_right _ _), List.length_append,
                List.filter_cons]
              by_cases ha : a ∈ lists.getD (lo + k) []
              · rw [if_pos ha, if_pos (decide_eq_true ha), List.length_singleton, List.length_cons]; omega
              · rw [if_neg ha, if_neg (by simpa using ha), List.length_nil]; omega
        have h2 : (docs.filter (fun d => decide (d ∈ lists.getD (lo + k) []))).length ≤ (lists.getD (lo + k) []).length := by
          apply nodup_subset_length' (hn.sublist List.filter_sublist)
          intro x hx
          rw [List.mem_filter] at hx
          exact of_decide_eq_true hx.2
        have h3 : postingsIn lists lo (lo + k + 1) = postingsIn lists lo (lo + k) + (lists.getD (lo + k) []).length := by
          unfold postingsIn
          rw [List.getD_eq_getElem?_getD]
          cases hg : lists[lo + k]? with
          | none =>
              rw [List.getElem?_eq_none_iff] at hg
              rw [List.take_of_length_le (by omega), List.take_of_length_le (by omega)]
              simp
          | some l =>
              obtain ⟨hl, he⟩ := List.getElem?_eq_some_iff.mp hg
              rw [List.take_succ_eq_append_getElem hl, List.drop_append_of_le_length (by simp; omega), he]
              simp
        rw [← Nat.add_assoc, h1, h3]
        omega
  have := key k
  unfold rowTotal blockRel
  rw [List.map_map]
  have e : ((fun r : Nat × List Nat => r.2.length) ∘ fun d => (d, (termsOf lists d lo (lo + k)).map (· - max lo 1))) =
      fun d => (termsOf lists d lo (lo + k)).length := by
    funext d; simp
  rw [e]; exact this

/-- what is required of the posting lists -/
structure BlkLists (u : Nat) (lists : List (List Nat)) : Prop extends InvLists u lists where
  few : (lists.map List.length).sum + 1 < 2 ^ 32

theorem postingsIn_add {lists : List (List Nat)} {lo mid hi : Nat} (h1 : lo ≤ mid) (h2 : mid ≤ hi) :
    postingsIn lists lo hi = postingsIn lists lo mid + postingsIn lists mid hi := by
  unfold postingsIn
  have : (lists.take hi).drop lo = (lists.take mid).drop lo ++ (lists.take hi).drop mid := by
    have e1 : lists.take mid = (lists.take hi).take mid := by rw [List.take_take, Nat.min_eq_left h2]
    rw [e1]
    generalize lists.take hi = L
    rw [List.drop_take]
    have e2 : L.drop mid = (L.drop lo).drop (mid - lo) := by rw [List.drop_drop]; congr 1; omega
    rw [e2, List.take_append_drop]
  rw [this]
  simp

theorem postingsIn_all (lists : List (List Nat)) : postingsIn lists 0 lists.length = (lists.map List.length).sum := by
  simp [postingsIn]

theorem postingsIn_le {lists : List (List Nat)} {lo hi : Nat} (h1 : lo ≤ hi) (h2 : hi ≤ lists.length) :
    postingsIn lists lo hi ≤ (lists.map List.length).sum := by
  rw [← postingsIn_all, postingsIn_add (Nat.zero_le lo) (Nat.le_trans h1 h2), postingsIn_add h1 h2]
  omega

def wDocs (rows : List (Nat × List Nat)) : Nat := 128 * rows.length + 160
def wOffs (rows : List (Nat × List Nat)) : Nat := 128 * rows.length + 320
def wTerms (rows : List (Nat × List Nat)) : Nat := 6 + 32 * rowTotal rows

/-- `bounds` are the last terms of the closed blocks, the documents of which are `docss` -/
structure Blocks (lists : List (List Nat)) (bounds : List Nat) (docss : List (List Nat)) : Prop where
  incr : (0 :: bounds).Pairwise (· < ·)
  len : docss.length = bounds.length
  isDocs : ∀ (j lo hi : Nat) (docs : List Nat), (0 :: bounds)[j]? = some lo → bounds[j]? = some hi → docss[j]? = some docs →
    IsDocs lists lo hi docs

/-- the rows of the blocks as they are stored -/
def stored (lists : List (List Nat)) : Nat → List Nat → List (List Nat) → List (List (Nat × List Nat))
  | lo, hi :: bs, docs :: ds => blockRel lists lo hi docs :: stored lists hi bs ds
  | _, _, _ => []

theorem stored_snoc (lists : List (List Nat)) (x : Nat) (d : List Nat) : ∀ (bs : List Nat) (ds : List (List Nat)) (lo : Nat), ds.length = bs.length →
    stored lists lo (bs ++ [x]) (ds ++ [d]) = stored lists lo bs ds ++ [blockRel lists (bs.getLastD lo) x d] := by
  intro bs
  induction bs with
  | nil =>
      intro ds lo h
      have : ds = [] := List.length_eq_zero_iff.mp h
      subst this; rfl
  | cons b bs ih =>
      intro ds lo h
      cases ds with
      | nil => simp at h
      | cons e ds =>
          rw [List.cons_append, List.cons_append, stored, ih ds b (by simpa using h), stored, List.cons_append, List.getLastD_cons]

theorem stored_get (lists : List (List Nat)) : ∀ (bs : List Nat) (ds : List (List Nat)) (lo : Nat) (j : Nat) (a b : Nat) (docs : List Nat),
    (lo :: bs)[j]? = some a → bs[j]? = some b → ds[j]? = some docs → (stored lists lo bs ds)[j]? = some (blockRel lists a b docs) := by
  intro bs
  induction bs with
  | nil => intro ds lo j a b docs h1 h2; simp at h2
  | cons x bs ih =>
      intro ds lo j a b docs h1 h2 h3
      cases ds with
      | nil => simp at h3
      | cons e ds =>
          cases j with
          | zero =>
              simp only [List.getElem?_cons_zero, Option.some.injEq] at h1 h2 h3
              subst h1 h2 h3
              rfl
          | succ j =>
              simp only [List.getElem?_cons_succ] at h1 h2 h3
              rw [stored, List.getElem?_cons_succ]
              exact ih ds x j a b docs h1 h2 h3

theorem stored_length (lists : List (List Nat)) : ∀ (bs : List Nat) (ds : List (List Nat)) (lo : Nat), ds.length = bs.length →
    (stored lists lo bs ds).length = bs.length := by
  intro bs
  induction bs with
  | nil => intro ds lo h; cases ds <;> rfl
  | cons b bs ih =>
      intro ds lo h
      cases ds with
      | nil => simp at h
      | cons e ds => rw [stored, List.length_cons, ih ds b (by simpa using h), List.length_cons]

/-- the state of the builder after the terms up to `cur`, the last closed block ending with `lo` -/
structure BlkInv (u m : Nat) (lists : List (List Nat)) (lo cur : Nat) (docss : List (List Nat)) (b : BlkBuilder) (s : BlkLocals) : Prop where
  le : lo ≤ cur
  le' : cur ≤ lists.length
  docs : b.numDocs = u
  terms : b.numTerms = lists.length
  ints : b.numIntegers = postingsIn lists 0 cur
  min : b.minimal = (lists.take cur).map (fun l => l.headD 0)
  last : b.blocks.getLastD 0 = lo
  blocks : Blocks lists b.blocks docss
  full : ∀ (j lo hi : Nat), (0 :: b.blocks)[j]? = some lo → b.blocks[j]? = some hi → m ≤ postingsIn lists lo hi ∨ hi = lists.length
  least : ∀ (j lo hi : Nat), (0 :: b.blocks)[j]? = some lo → b.blocks[j]? = some hi → ∀ x, lo < x → x < hi → postingsIn lists lo x < m
  st1 : Store (DocsAt u) wDocs b.lists b.ptrLists (stored lists 0 b.blocks docss)
  st2 : Store OffsAt wOffs b.offs b.ptrOffs (stored lists 0 b.blocks docss)
  st3 : Store TermsAt wTerms b.terms b.ptrTerms (stored lists 0 b.blocks docss)
  pos : ∀ rows ∈ stored lists 0 b.blocks docss, 1 ≤ rowTotal rows ∧ rows.length ≤ rowTotal rows
  total : ((stored lists 0 b.blocks docss).map rowTotal).sum ≤ postingsIn lists 0 lo
  lower : s.lower = max lo 1
  map : ∀ d, s.map d = (termsOf lists d lo cur).map (· - max lo 1)
  union : ∀ d, d ∈ s.union ↔ ∃ t, lo < t ∧ t ≤ cur ∧ Posted lists t d
  postings : s.postings = postingsIn lists lo cur
  small : ∀ x, lo < x → x < cur → postingsIn lists lo x < m

theorem take_succ_getD {lists : List (List Nat)} {cur : Nat} (h : cur < lists.length) : lists.take (cur + 1) = lists.take cur ++ [lists[cur]] :=
  List.take_succ_eq_append_getElem h

theorem postingsIn_succ {lists : List (List Nat)} {lo cur : Nat} (h : lo ≤ cur) (hc : cur < lists.length) :
    postingsIn lists lo (cur + 1) = postingsIn lists lo cur + lists[cur].length := by
  rw [postingsIn_add h (Nat.le_succ _)]
  congr 1
  unfold postingsIn
  rw [take_succ_getD hc, List.drop_append_of_le_length (by simp; omega), List.drop_eq_nil_of_le (by simp; omega)]
  simp

/-- a term is added to the open block -/
theorem BlkInv.addTerm {u m : Nat} {lists : List (List Nat)} (hL : BlkLists u lists) {lo cur : Nat} {docss : List (List Nat)} {b : BlkBuilder} {s : BlkLocals}
    (h : BlkInv u m lists lo cur docss b s) (hc : cur < lists.length) (hs : lo < cur → postingsIn lists lo cur < m) :
    BlkInv u m lists lo (cur + 1) docss (b.addTerm (cur + 1) lists[cur] s).1 (b.addTerm (cur + 1) lists[cur] s).2 := by
  obtain ⟨hne, hsort, hbd⟩ := hL.each lists[cur] (List.getElem_mem hc)
  have hle := h.le
  have hg : lists.getD cur [] = lists[cur] := by rw [List.getD_eq_getElem?_getD, List.getElem?_eq_getElem hc]; rfl
  refine { h with le := by omega, le' := hc, ints := ?_, min := ?_, map := ?_, union := ?_, postings := ?_, small := ?_ }
  · dsimp only [BlkBuilder.addTerm]
    rw [h.ints, postingsIn_succ (Nat.zero_le _) hc]
  · dsimp only [BlkBuilder.addTerm]
    rw [h.min, take_succ_getD hc, List.map_append, List.map_singleton]
    congr 1
    cases hl : lists[cur] with
    | nil => exact absurd hl hne
    | cons x xs => rfl
  · intro d
    dsimp only [BlkBuilder.addTerm]
    rw [addPostings_spec _ _ _ (hsort.imp Nat.ne_of_lt), h.map d, termsOf_succ hle, hg, h.lower]
    by_cases hd : d ∈ lists[cur]
    · rw [if_pos hd, if_pos hd, List.map_append]; rfl
    · rw [if_neg hd, if_neg hd, List.append_nil]
  · intro d
    dsimp only [BlkBuilder.addTerm]
    rw [List.mem_append, h.union d]
    constructor
    · rintro (⟨t, t1, t2, t3⟩ | hd)
      · exact ⟨t, t1, by omega, t3⟩
      · exact ⟨cur + 1, by omega, Nat.le_refl _, by omega, lists[cur], by rw [Nat.add_sub_cancel, List.getElem?_eq_getElem hc], hd⟩
    · rintro ⟨t, t1, t2, t3⟩
      by_cases ht : t ≤ cur
      · exact Or.inl ⟨t, t1, ht, t3⟩
      · right
        have : t = cur + 1 := by omega
        subst this
        obtain ⟨_, l, hl, hd⟩ := t3
        rw [Nat.add_sub_cancel, List.getElem?_eq_getElem hc] at hl
        cases hl
        exact hd
  · dsimp only [BlkBuilder.addTerm]
    rw [h.postings, postingsIn_succ hle hc]
  · intro x h1 h2
    by_cases hx : x < cur
    · exact h.small x h1 hx
    · have : x = cur := by omega
      subst this
      exact hs h1

theorem all_empty_of_union {lists : List (List Nat)} {docs : List Nat} {lo hi d : Nat} (h : IsDocs lists lo hi docs) (hd : d ∉ docs) :
    termsOf lists d lo hi = [] := by
  rw [List.eq_nil_iff_forall_not_mem]
  intro t ht
  exact hd ((h.mem d).mpr ⟨t, mem_termsOf.mp ht⟩)

theorem posted_bound {u : Nat} {lists : List (List Nat)} (hL : BlkLists u lists) {t d : Nat} (h : Posted lists t d) : d < u := by
  obtain ⟨_, l, hl, hd⟩ := h
  exact (hL.each l (List.mem_of_getElem? hl)).2.2 d hd

theorem posted_le {lists : List (List Nat)} {t d : Nat} (h : Posted lists t d) : t ≤ lists.length := by
  obtain ⟨h1, l, hl, hd⟩ := h
  have := (List.getElem?_eq_some_iff.mp hl).1
  omega

theorem rows_le_total {lists : List (List Nat)} {lo hi : Nat} {docs : List Nat} (h : IsDocs lists lo hi docs) :
    docs.length ≤ rowTotal (blockRel lists lo hi docs) := by
  have : ∀ l : List Nat, (∀ d ∈ l, d ∈ docs) → l.length ≤ rowTotal (blockRel lists lo hi l) := by
    intro l
    induction l with
    | nil => intro _; simp
    | cons a l ih =>
        intro hl
        obtain ⟨t, ht⟩ := (h.mem a).mp (hl a (List.mem_cons_self ..))
        have h1 := List.length_pos_of_mem (mem_termsOf.mpr ht)
        have h2 := ih (fun d hd => hl d (List.mem_cons_of_mem _ hd))
        unfold rowTotal blockRel at h2 ⊢
        rw [List.map_cons, List.map_cons, List.sum_cons, List.length_cons, List.length_map]
        omega
  exact this docs (fun _ h => h)

/-- the open block is closed -/
theorem BlkInv.close {u m : Nat} {lists : List (List Nat)} (hL : BlkLists u lists) (std : StdLib) {lo cur : Nat} {docss : List (List Nat)}
    {b : BlkBuilder} {s : BlkLocals} (h : BlkInv u m lists lo cur docss b s) (hlt : lo < cur)
    (hs : m ≤ postingsIn lists lo cur ∨ cur = lists.length) :
    ∃ b' s', b.close std cur s = .ok (b', s') ∧ BlkInv u m lists cur cur (docss ++ [deduplicate std s.union]) b' s' := by
  obtain ⟨hsort, hmem⟩ := deduplicate_spec std s.union
  have hD : IsDocs lists lo cur (deduplicate std s.union) := ⟨hsort, fun d => by rw [hmem, h.union]⟩
  generalize hdocs : deduplicate std s.union = docs at *
  have hnd : docs.Nodup := hsort.imp Nat.ne_of_lt
  have hrel : docs.map (fun d => (d, s.map d)) = blockRel lists lo cur docs := by
    unfold blockRel
    apply List.map_congr_left
    intro d _
    rw [h.map d]
  have hfst : (blockRel lists lo cur docs).map (·.1) = docs := by
    unfold blockRel
    rw [List.map_map]
    exact List.map_id docs
  have hrl : (blockRel lists lo cur docs).length = docs.length := by simp [blockRel]
  have htot : rowTotal (blockRel lists lo cur docs) ≤ postingsIn lists lo cur := rowTotal_blockRel hnd cur h.le
  have hpost := postingsIn_le h.le h.le'
  have hfew := hL.few
  have hrows := rows_le_total hD
  have hdne : docs ≠ [] := by
    have hcl : cur - 1 < lists.length := by have := h.le'; omega
    obtain ⟨hne, _, _⟩ := hL.each lists[cur - 1] (List.getElem_mem hcl)
    obtain ⟨x, hx⟩ := List.exists_mem_of_ne_nil _ hne
    exact List.ne_nil_of_mem ((hD.mem x).mpr ⟨cur, hlt, Nat.le_refl _, by omega, _, List.getElem?_eq_getElem hcl, hx⟩)
  have hdl : 1 ≤ docs.length := List.length_pos_iff.mpr hdne
  have hu := hL.univ
  have hbd : ∀ d ∈ docs, d < u := by
    intro d hd
    obtain ⟨t, _, _, ht⟩ := (hD.mem d).mp hd
    exact posted_bound hL ht
  have hval : CEF.Valid u ((blockRel lists lo cur docs).map (·.1)) := by
    rw [hfst]
    exact ⟨hdne, hsort.imp Nat.le_of_lt, fun d hd => Nat.le_of_lt (hbd d hd), by omega⟩
  have hnl : lists.length ≤ (lists.map List.length).sum := count_le_sum (fun l hl => (hL.each l hl).1)
  obtain ⟨l', e1, e2, e3, e4, e5, e6⟩ := storeDocs b.lists u _ h.st1.wf hval (by rw [hrl]; omega)
  obtain ⟨o', f1, f2, f3, f4, f5, f6⟩ := storeOffs b.offs (blockRel lists lo cur docs) h.st2.wf (by omega) (by rw [hrl]; omega)
  have htne : rowTerms (blockRel lists lo cur docs) ≠ [] := by
    intro hn
    have := rowTerms_length (blockRel lists lo cur docs)
    rw [hn, List.length_nil] at this
    omega
  have htb : ∀ t ∈ rowTerms (blockRel lists lo cur docs), t + 1 < 2 ^ 32 := by
    intro t ht
    unfold rowTerms blockRel at ht
    obtain ⟨r, hr, ht⟩ := List.mem_flatMap.mp ht
    obtain ⟨d, hd, rfl⟩ := List.mem_map.mp hr
    obtain ⟨t', ht', rfl⟩ := List.mem_map.mp ht
    have := posted_le (mem_termsOf.mp ht').2.2
    omega
  obtain ⟨mx, g1, t', g2, g3, g4, g5, g6, g7⟩ := storeTerms b.terms (blockRel lists lo cur docs) h.st3.wf htne htb
  obtain ⟨g, k1, k2⟩ := gather_spec docs s.map 0 hnd
  rw [hrel] at k1
  have hdocs' := h.docs
  refine ⟨{ b with
    blocks := b.blocks ++ [cur], lists := l', ptrLists := b.ptrLists ++ [l'.size], offs := o', ptrOffs := b.ptrOffs ++ [o'.size],
    terms := t', ptrTerms := b.ptrTerms ++ [t'.size] }, ⟨g, [], 0, cur⟩, ?_, ?_⟩
  · rw [hrl, hfst, ← hdocs'] at e1
    unfold BlkBuilder.close
    simp only [hdocs, e1, k1, M.ok_bind, f1, g1, ← g2]
  · have hlast := h.last
    have hblk := h.blocks
    have hst : stored lists 0 (b.blocks ++ [cur]) (docss ++ [docs]) = stored lists 0 b.blocks docss ++ [blockRel lists lo cur docs] := by
      rw [stored_snoc _ _ _ _ _ _ hblk.len, hlast]
    have hlo : (0 :: b.blocks)[b.blocks.length]? = some lo := by
      cases hb : b.blocks with
      | nil => rw [hb] at hlast; simpa using hlast
      | cons x xs =>
          rw [hb, List.getLastD_eq_getLast?, List.getLast?_eq_getElem?] at hlast
          rw [List.length_cons, List.getElem?_cons_succ]
          rw [List.length_cons, Nat.add_sub_cancel] at hlast
          rw [List.getElem?_eq_getElem (by simp)] at hlast ⊢
          rw [← hlast]; rfl
    have split : ∀ (j a c : Nat), (0 :: (b.blocks ++ [cur]))[j]? = some a → (b.blocks ++ [cur])[j]? = some c →
        ((0 :: b.blocks)[j]? = some a ∧ b.blocks[j]? = some c) ∨ (j = b.blocks.length ∧ a = lo ∧ c = cur) := by
      intro j a c h1 h2
      have hj : j < (b.blocks ++ [cur]).length := (List.getElem?_eq_some_iff.mp h2).1
      simp only [List.length_append, List.length_singleton] at hj
      rw [← List.cons_append, List.getElem?_append_left (by simp; omega)] at h1
      by_cases hjl : j < b.blocks.length
      · rw [List.getElem?_append_left hjl] at h2
        exact Or.inl ⟨h1, h2⟩
      · have : j = b.blocks.length := by omega
        subst this
        rw [List.getElem?_concat_length] at h2
        rw [hlo] at h1
        cases h1; cases h2
        exact Or.inr ⟨rfl, rfl, rfl⟩
    have hm1 : 1 ≤ max cur 1 := Nat.le_max_right ..
    refine ⟨Nat.le_refl _, h.le', h.docs, h.terms, h.ints, h.min, ?_, ?_, ?_, ?_, ?_, ?_, ?_, ?_, ?_, ?_, ?_, ?_, ?_, ?_⟩
    · dsimp only; rw [List.getLastD_eq_getLast?, List.getLast?_concat]; rfl
    · refine ⟨?_, by dsimp only; simp [hblk.len], ?_⟩
      · dsimp only
        rw [← List.cons_append, List.pairwise_append]
        refine ⟨hblk.incr, by simp, ?_⟩
        intro a ha c hc
        rw [List.mem_singleton.mp hc]
        obtain ⟨i, hi, rfl⟩ := List.getElem_of_mem ha
        obtain ⟨hj, he⟩ := List.getElem?_eq_some_iff.mp hlo
        rcases Nat.lt_or_ge i b.blocks.length with hc2 | hc2
        · have := List.pairwise_iff_getElem.mp hblk.incr i b.blocks.length hi hj hc2
          omega
        · have : i = b.blocks.length := by simp at hi; omega
          subst this; omega
      · intro j a c dd h1 h2 h3
        dsimp only at h1 h2
        rcases split j a c h1 h2 with ⟨q1, q2⟩ | ⟨q1, q2, q3⟩
        · have hj := (List.getElem?_eq_some_iff.mp q2).1
          rw [List.getElem?_append_left (by rw [hblk.len]; exact hj)] at h3
          exact hblk.isDocs j a c dd q1 q2 h3
        · subst q1 q2 q3
          rw [← hblk.len, List.getElem?_concat_length] at h3
          cases h3
          exact hD
    · intro j a c h1 h2
      rcases split j a c h1 h2 with ⟨q1, q2⟩ | ⟨q1, q2, q3⟩
      · exact h.full j a c q1 q2
      · subst q2 q3; exact hs
    · intro j a c h1 h2
      rcases split j a c h1 h2 with ⟨q1, q2⟩ | ⟨q1, q2, q3⟩
      · exact h.least j a c q1 q2
      · subst q2 q3; exact h.small
    · dsimp only; rw [hst]; exact h.st1.snoc (docsAt_local u) e2 e3 e4 e5 e6
    · dsimp only; rw [hst]; exact h.st2.snoc offsAt_local f2 f3 f4 f5 f6
    · dsimp only; rw [hst]; exact h.st3.snoc termsAt_local g3 g4 g5 g6 g7
    · dsimp only; rw [hst]
      intro rows hr
      rcases List.mem_append.mp hr with hr | hr
      · exact h.pos rows hr
      · rw [List.mem_singleton.mp hr, hrl]; omega
    · dsimp only; rw [hst, List.map_append, List.sum_append, List.map_singleton, List.sum_singleton, postingsIn_add (Nat.zero_le _) h.le]
      have := h.total
      omega
    · dsimp only; omega
    · intro d
      dsimp only
      rw [k2 d, termsOf_self]
      by_cases hd : d ∈ docs
      · rw [if_pos hd]; rfl
      · rw [if_neg hd, h.map d, all_empty_of_union hD hd]; rfl
    · intro d
      dsimp only
      constructor
      · intro hd; simp at hd
      · rintro ⟨t, h1, h2, _⟩; omega
    · dsimp only
      unfold postingsIn
      rw [List.drop_eq_nil_of_le (by simp; omega)]; rfl
    · intro x h1 h2; omega

/-- the loop over the terms -/
theorem addAll_spec {u m : Nat} {lists : List (List Nat)} (hL : BlkLists u lists) (std : StdLib) :
    ∀ (rest : List (List Nat)) (lo cur : Nat) (docss : List (List Nat)) (b : BlkBuilder) (s : BlkLocals),
    rest = lists.drop cur → BlkInv u m lists lo cur docss b s → (lo < cur → postingsIn lists lo cur < m) → (cur = lists.length → lo = cur) →
    ∃ b' s' docss', BlkBuilder.addAll std m rest (cur + 1) b s = .ok b' ∧ BlkInv u m lists lists.length lists.length docss' b' s' := by
  intro rest
  induction rest with
  | nil =>
      intro lo cur docss b s hr h h1 h2
      have hc : cur = lists.length := by
        have := h.le'
        have hl := congrArg List.length hr
        simp at hl; omega
      have := h2 hc
      subst this
      rw [hc] at h
      exact ⟨b, s, docss, rfl, h⟩
  | cons l rest ih =>
      intro lo cur docss b s hr h h1 h2
      have hc : cur < lists.length := by
        have hl := congrArg List.length hr
        simp at hl; omega
      rw [List.drop_eq_getElem_cons hc] at hr
      obtain ⟨rfl, hr'⟩ := List.cons.inj hr
      have ha := h.addTerm hL hc h1
      unfold BlkBuilder.addAll
      generalize hx : b.addTerm (cur + 1) lists[cur] s = x at ha
      obtain ⟨b1, s1⟩ := x
      dsimp only at ha ⊢
      have hle := h.le
      split
      · rename_i hcl
        rw [ha.postings, ha.terms] at hcl
        obtain ⟨b2, s2, e1, e2⟩ := ha.close hL std (by omega) hcl
        rw [e1]
        simp only [M.ok_bind]
        exact ih (cur + 1) (cur + 1) _ b2 s2 hr' e2 (fun hn => absurd hn (Nat.lt_irrefl _)) (fun _ => rfl)
      · rename_i hcl
        rw [ha.postings, ha.terms] at hcl
        exact ih lo (cur + 1) docss b1 s1 hr' ha (fun _ => by omega) (fun hn => absurd (Or.inr hn) hcl)

theorem sum_map_le {α : Type} (f g : α → Nat) (c : Nat) (l : List α) (h : ∀ x ∈ l, f x ≤ c * g x) : (l.map f).sum ≤ c * (l.map g).sum := by
  induction l with
  | nil => simp
  | cons a l ih =>
      have h1 := h a (List.mem_cons_self ..)
      have h2 := ih (fun x hx => h x (List.mem_cons_of_mem _ hx))
      simp only [List.map_cons, List.sum_cons, Nat.mul_add]
      omega

/-- the index holds the blocks of the lists -/
structure BlkIdx.Rep (ii : BlkIdx) (u m : Nat) (lists : List (List Nat)) (docss : List (List Nat)) : Prop where
  valid : BlkLists u lists
  docs : ii.numDocs = u
  ints : ii.numIntegers = (lists.map List.length).sum
  terms : ii.numTerms = lists.length
  cut : IsCut lists m ii.blocks
  blocks : Blocks lists ii.blocks docss
  at1 : ∀ (j lo hi : Nat) (docs : List Nat), (0 :: ii.blocks)[j]? = some lo → ii.blocks[j]? = some hi → docss[j]? = some docs →
    ∃ p e, ii.ptrLists.access j = .ok p ∧ DocsAt u ii.lists.bits p e (blockRel lists lo hi docs) ∧ e ≤ 64 * ii.lists.bits.length
  at2 : ∀ (j lo hi : Nat) (docs : List Nat), (0 :: ii.blocks)[j]? = some lo → ii.blocks[j]? = some hi → docss[j]? = some docs →
    ∃ p e, ii.ptrOffs.access j = .ok p ∧ OffsAt ii.offs.bits p e (blockRel lists lo hi docs) ∧ e ≤ 64 * ii.offs.bits.length
  at3 : ∀ (j lo hi : Nat) (docs : List Nat), (0 :: ii.blocks)[j]? = some lo → ii.blocks[j]? = some hi → docss[j]? = some docs →
    ∃ p e, ii.ptrTerms.access j = .ok p ∧ TermsAt ii.terms.bits p e (blockRel lists lo hi docs) ∧ e ≤ 64 * ii.terms.bits.length

theorem BlkInv.start (u m : Nat) (lists : List (List Nat)) :
    BlkInv u m lists 0 0 [] ⟨0, u, lists.length, [], [0], [0], [0], BVB.empty, BVB.empty, BVB.empty, []⟩ ⟨fun _ => [], [], 0, 1⟩ :=
    { le := Nat.le_refl _, le' := Nat.zero_le _, docs := rfl, terms := rfl, ints := by simp [postingsIn], min := by simp, last := rfl,
      blocks := ⟨by simp, rfl, by intro j lo hi docs h1 h2; simp at h2⟩,
      full := by intro j lo hi h1 h2; simp at h2
      least := by intro j lo hi h1 h2; simp at h2
      st1 := Store.empty .., st2 := Store.empty .., st3 := Store.empty ..
      pos := by intro rows h; simp [stored] at h
      total := by simp [stored]
      lower := rfl, map := by intro d; rw [termsOf_self]; rfl
      union := by intro d; constructor
                  · intro h; simp at h
                  · rintro ⟨t, h1, h2, _⟩; omega
      postings := by simp [postingsIn]
      small := by intro x h1 h2; omega }

theorem BlkBuilder.addAll_inv {u : Nat} {lists : List (List Nat)} (hL : BlkLists u lists) (std : StdLib) (m : Nat) :
    ∃ b s docss, BlkBuilder.addAll std m lists 1 ⟨0, u, lists.length, [], [0], [0], [0], BVB.empty, BVB.empty, BVB.empty, []⟩ ⟨fun _ => [], [], 0, 1⟩ = .ok b ∧
      BlkInv u m lists lists.length lists.length docss b s := by
  exact addAll_spec hL (m := m) std lists 0 0 []
    ⟨0, u, lists.length, [], [0], [0], [0], BVB.empty, BVB.empty, BVB.empty, []⟩ ⟨fun _ => [], [], 0, 1⟩ rfl (BlkInv.start u m lists)
    (by omega) (by intro _; rfl)

theorem BlkBuilder.build_spec {u : Nat} {lists : List (List Nat)} (hL : BlkLists u lists) (std : StdLib) (m : Nat) :
    ∃ b, BlkBuilder.mk' std m u lists = .ok b ∧ b.minimal = lists.map (fun l => l.headD 0) ∧
      ∀ mem, ∃ ii docss, b.build mem = .ok ii ∧ ii.Rep u m lists docss := by
  obtain ⟨b, s, docss, e1, h⟩ := BlkBuilder.addAll_inv hL std m
  refine ⟨_, by unfold BlkBuilder.mk'; rw [e1]; rfl, by dsimp only; rw [h.min, List.take_length], ?_⟩
  intro mem
  have hlpos : 0 < lists.length := List.length_pos_iff.mpr hL.ne
  have hbne : b.blocks ≠ [] := by
    intro hn
    have := h.last
    rw [hn] at this
    simp at this; omega
  have hsl := stored_length lists b.blocks docss 0 h.blocks.len
  have hne : stored lists 0 b.blocks docss ≠ [] := by
    intro hn
    rw [hn, List.length_nil] at hsl
    exact hbne (List.length_eq_zero_iff.mp hsl.symm)
  have htot := h.total
  rw [postingsIn_all] at htot
  have hfew := hL.few
  have hb1 : ((stored lists 0 b.blocks docss).map wDocs).sum < 2 ^ 64 := by
    have := sum_map_le wDocs rowTotal 448 (stored lists 0 b.blocks docss) (fun x hx => by have := h.pos x hx; unfold wDocs; omega)
    omega
  have hb2 : ((stored lists 0 b.blocks docss).map wOffs).sum < 2 ^ 64 := by
    have := sum_map_le wOffs rowTotal 448 (stored lists 0 b.blocks docss) (fun x hx => by have := h.pos x hx; unfold wOffs; omega)
    omega
  have hb3 : ((stored lists 0 b.blocks docss).map wTerms).sum < 2 ^ 64 := by
    have := sum_map_le wTerms rowTotal 448 (stored lists 0 b.blocks docss) (fun x hx => by have := h.pos x hx; unfold wTerms; omega)
    omega
  obtain ⟨q1, a1, a2⟩ := h.st1.pointers hne hb1
  obtain ⟨q2, c1, c2⟩ := h.st2.pointers hne hb2
  obtain ⟨q3, d1, d2⟩ := h.st3.pointers hne hb3
  refine ⟨⟨b.numIntegers, b.numDocs, b.numTerms, b.blocks, q1, BV.build b.lists (mem 0), q2, BV.build b.offs (mem 1), q3,
    BV.build b.terms (mem 2)⟩, docss, ?_, ?_⟩
  · unfold BlkBuilder.build
    dsimp only
    rw [a1, c1, d1]
    rfl
  · refine ⟨hL, h.docs, by dsimp only; rw [h.ints, postingsIn_all], h.terms, ⟨h.blocks.incr, ?_, h.full, h.least⟩, h.blocks, ?_, ?_, ?_⟩
    · have := h.last
      dsimp only
      rw [List.getLastD_eq_getLast?] at this
      cases hg : b.blocks.getLast? with
      | none => rw [List.getLast?_eq_none_iff] at hg; exact absurd hg hbne
      | some x => rw [hg] at this; simp at this; rw [this]
    · intro j lo hi docs h1 h2 h3
      obtain ⟨p, e, r1, r2, r3⟩ := a2 j _ (stored_get lists b.blocks docss 0 j lo hi docs h1 h2 h3)
      exact ⟨p, e, r1, r2, by have := wf_room h.st1.wf; dsimp only [BV.build]; omega⟩
    · intro j lo hi docs h1 h2 h3
      obtain ⟨p, e, r1, r2, r3⟩ := c2 j _ (stored_get lists b.blocks docss 0 j lo hi docs h1 h2 h3)
      exact ⟨p, e, r1, r2, by have := wf_room h.st2.wf; dsimp only [BV.build]; omega⟩
    · intro j lo hi docs h1 h2 h3
      obtain ⟨p, e, r1, r2, r3⟩ := d2 j _ (stored_get lists b.blocks docss 0 j lo hi docs h1 h2 h3)
      exact ⟨p, e, r1, r2, by have := wf_room h.st3.wf; dsimp only [BV.build]; omega⟩

end AC
