import Verif.Proofs.BlkBuild
import Verif.Model.Autocomplete4
/-!
# Reading the blocked inverted index
-/
namespace AC
open Spec

theorem BG.access_spec (v : BV) (g : BG) (i : Nat) (hw : g.width ≤ 64) (h1 : 1 ≤ g.width) (hb : g.base + i * g.width + g.width ≤ 64 * v.bits.length) :
    ∃ w, g.access v i = .ok w ∧ w.toNat = valueAt v.bits (g.base + i * g.width) g.width := by
  generalize hpos : g.base + i * g.width = pos at hb
  have hk : pos / 64 < v.bits.length := by omega
  obtain ⟨r1, r2⟩ := two_word_read v.bits (pos / 64) (pos % 64) g.width (by omega) hw (by omega) hk
  rw [show 64 * (pos / 64) + pos % 64 = pos by omega] at r1 r2
  unfold BG.access
  rw [hpos]
  simp only [rd_ok hk, M.ok_bind]
  split
  · rename_i hc
    exact ⟨_, rfl, r1 hc⟩
  · rename_i hc
    obtain ⟨hk1, e⟩ := r2 hc
    simp only [rd_ok hk1, M.ok_bind]
    exact ⟨_, rfl, e⟩

/-- a block read from the index, the iterator over its documents being at position `p` -/
structure Blk.At (ii : BlkIdx) (u : Nat) (lists : List (List Nat)) (lo hi : Nat) (docs : List Nat) (b : Blk) (p : Nat) : Prop where
  isDocs : IsDocs lists lo hi docs
  it : CEF.ItAt ii.lists u docs b.docs p
  offs : ∃ q, CEF.ItAt ii.offs (rowTotal (blockRel lists lo hi docs) + 1) (offsetsFrom (blockRel lists lo hi docs) 0) b.offs q
  terms : ∀ (i t : Nat), (rowTerms (blockRel lists lo hi docs))[i]? = some t → ∃ w, b.terms.access ii.terms i = .ok w ∧ w.toNat = t
  lower : b.lower = max lo 1

theorem offsets_strict {lists : List (List Nat)} {lo hi : Nat} {docs : List Nat} (h : IsDocs lists lo hi docs) :
    (offsetsFrom (blockRel lists lo hi docs) 0).Pairwise (· < ·) := by
  have key : ∀ (rows : List (Nat × List Nat)) (o : Nat), (∀ r ∈ rows, r.2 ≠ []) → (offsetsFrom rows o).Pairwise (· < ·) ∧ ∀ x ∈ offsetsFrom rows o, o ≤ x := by
    intro rows
    induction rows with
    | nil => intro o _; simp [offsetsFrom]
    | cons r rs ih =>
        intro o hr
        have h1 := List.length_pos_iff.mpr (hr r (List.mem_cons_self ..))
        obtain ⟨i1, i2⟩ := ih (o + r.2.length) (fun x hx => hr x (List.mem_cons_of_mem _ hx))
        rw [offsetsFrom]
        refine ⟨List.pairwise_cons.mpr ⟨fun x hx => by have := i2 x hx; omega, i1⟩, ?_⟩
        intro x hx
        rcases List.mem_cons.mp hx with rfl | hx
        · exact Nat.le_refl _
        · have := i2 x hx; omega
  refine (key _ 0 ?_).1
  intro r hr
  obtain ⟨d, hd, rfl⟩ := List.mem_map.mp hr
  obtain ⟨t, ht⟩ := (h.mem d).mp hd
  exact List.ne_nil_of_mem (List.mem_map_of_mem (mem_termsOf.mpr ht))

theorem offsets_bound (rows : List (Nat × List Nat)) : ∀ x ∈ offsetsFrom rows 0, x < rowTotal rows + 1 := by
  intro x hx
  obtain ⟨i, hi, rfl⟩ := List.getElem_of_mem hx
  rw [offsetsFrom_length] at hi
  obtain ⟨_, e⟩ := List.getElem?_eq_some_iff.mp (offsetsFrom_get rows 0 i (by omega))
  have := rowTotal_take_le rows (i := i) (j := rows.length) (by omega)
  rw [List.take_length] at this
  omega

theorem lowerOf_spec {ii : BlkIdx} {j lo : Nat} (h : (0 :: ii.blocks)[j]? = some lo) (hlo : 0 < j → 1 ≤ lo) : ii.lowerOf j = .ok (max lo 1) := by
  unfold BlkIdx.lowerOf
  cases j with
  | zero =>
      simp only [List.getElem?_cons_zero, Option.some.injEq] at h
      subst h; rfl
  | succ j =>
      rw [List.getElem?_cons_succ] at h
      rw [if_pos (by omega), Nat.add_sub_cancel, rd_of_getElem? h, Nat.max_eq_left (hlo (by omega))]

theorem BlkIdx.Rep.bounds_ok {ii : BlkIdx} {u m : Nat} {lists : List (List Nat)} {docss : List (List Nat)} (h : ii.Rep u m lists docss)
    {j lo hi : Nat} (h1 : (0 :: ii.blocks)[j]? = some lo) (h2 : ii.blocks[j]? = some hi) : lo < hi ∧ hi ≤ lists.length ∧ (0 < j → 1 ≤ lo) := by
  have hp := h.cut.incr
  have hl := h.cut.last
  rw [List.pairwise_iff_getElem] at hp
  obtain ⟨a1, a2⟩ := List.getElem?_eq_some_iff.mp h1
  obtain ⟨b1, b2⟩ := List.getElem?_eq_some_iff.mp h2
  have hlt := hp j (j + 1) a1 (by simp; omega) (by omega)
  rw [List.getElem_cons_succ] at hlt
  refine ⟨by omega, ?_, ?_⟩
  · rw [List.getLast?_eq_getElem?] at hl
    obtain ⟨c1, c2⟩ := List.getElem?_eq_some_iff.mp hl
    rcases Nat.lt_or_ge j (ii.blocks.length - 1) with hj | hj
    · have := (List.pairwise_iff_getElem.mp (List.pairwise_cons.mp h.cut.incr).2) j (ii.blocks.length - 1) b1 c1 hj
      omega
    · have : j = ii.blocks.length - 1 := by omega
      subst this; omega
  · intro hj
    have := hp 0 j (by simp) a1 hj
    rw [List.getElem_cons_zero] at this
    omega

theorem block_spec {ii : BlkIdx} {u m : Nat} {lists : List (List Nat)} {docss : List (List Nat)} (h : ii.Rep u m lists docss)
    {j lo hi : Nat} {docs : List Nat} (h1 : (0 :: ii.blocks)[j]? = some lo) (h2 : ii.blocks[j]? = some hi) (h3 : docss[j]? = some docs) :
    ∃ b, ii.block j = .ok b ∧ b.At ii u lists lo hi docs 0 ∧ b.ids = [] := by
  obtain ⟨k1, k2, k3⟩ := h.bounds_ok h1 h2
  have hD := h.blocks.isDocs j lo hi docs h1 h2 h3
  obtain ⟨p, pe, p1, ⟨p2, p3, p4⟩, p5⟩ := h.at1 j lo hi docs h1 h2 h3
  obtain ⟨q, qe, q1, ⟨q2, q2', q3, q4⟩, q5⟩ := h.at2 j lo hi docs h1 h2 h3
  obtain ⟨r, re, r1, ⟨w, w1, w2, r2, r3, r4⟩, r5⟩ := h.at3 j lo hi docs h1 h2 h3
  have hfst : (blockRel lists lo hi docs).map (·.1) = docs := by
    unfold blockRel
    rw [List.map_map]
    exact List.map_id docs
  have hrl : (blockRel lists lo hi docs).length = docs.length := by simp [blockRel]
  rw [hfst] at p3
  rw [hrl] at p2 p4 q2 q4
  have hle1 := offsets_p0_le (p + 32) u _ p3.valid
  have hle2 := offsets_p0_le (q + 64) _ _ q3.valid
  rw [offsetsFrom_length, hrl] at hle2
  obtain ⟨n1, a1, a2⟩ := ii.lists.getBits_spec p 32 (by omega) (by omega)
  obtain ⟨n2, b1, b2⟩ := ii.offs.getBits_spec q 32 (by omega) (by omega)
  obtain ⟨n3, c1, c2⟩ := ii.offs.getBits_spec (q + 32) 32 (by omega) (by omega)
  have hmul : 0 ≤ rowTotal (blockRel lists lo hi docs) * w := Nat.zero_le _
  obtain ⟨n4, d1, d2⟩ := ii.terms.getBits_spec r 6 (by omega) (by omega)
  obtain ⟨it, e1, e2⟩ := CEF.mk'_spec p3
  obtain ⟨ito, f1, f2⟩ := CEF.mk'_spec q3
  rw [offsetsFrom_length, hrl] at f1
  refine ⟨⟨it, ito, ⟨r + 6, w⟩, [], max lo 1⟩, ?_, ⟨hD, ⟨_, p3, ?_, hD.sorted, e2⟩, ⟨0, _, q3, offsets_bound _, offsets_strict hD, f2⟩, ?_, rfl⟩, rfl⟩
  · unfold BlkIdx.block
    simp only [lowerOf_spec h1 k3, M.ok_bind, p1, a1, a2, p2, h.docs, e1, q1, b1, b2, q2, c1, c2, q2', f1, r1, d1, d2, r2]
  · intro d hd
    obtain ⟨t, _, _, ht⟩ := (hD.mem d).mp hd
    exact posted_bound h.valid ht
  · intro i t ht
    have hil : i < rowTotal (blockRel lists lo hi docs) := by rw [← rowTerms_length]; exact (List.getElem?_eq_some_iff.mp ht).1
    have hm : (i + 1) * w ≤ rowTotal (blockRel lists lo hi docs) * w := Nat.mul_le_mul_right _ hil
    rw [Nat.succ_mul] at hm
    obtain ⟨x, x1, x2⟩ := BG.access_spec ii.terms ⟨r + 6, w⟩ i (by dsimp only; omega) w1 (by dsimp only; omega)
    exact ⟨x, x1, by rw [x2]; exact r4 i t ht⟩

namespace Blk.At

variable {ii : BlkIdx} {u : Nat} {lists : List (List Nat)} {lo hi : Nat} {docs : List Nat} {b : Blk} {p : Nat}

/-- where the terms of the current document begin -/
def start (lists : List (List Nat)) (lo hi : Nat) (docs : List Nat) (p : Nat) : Nat := rowTotal ((blockRel lists lo hi docs).take p)

theorem withIds (h : b.At ii u lists lo hi docs p) (ids : List Nat) : Blk.At ii u lists lo hi docs { b with ids := ids } p :=
  ⟨h.isDocs, h.it, h.offs, h.terms, h.lower⟩

theorem withDocs (h : b.At ii u lists lo hi docs p) {it' : CEI} {p' : Nat} (hi' : CEF.ItAt ii.lists u docs it' p') :
    Blk.At ii u lists lo hi docs { b with docs := it' } p' :=
  ⟨h.isDocs, hi', h.offs, h.terms, h.lower⟩

theorem bounds (h : b.At ii u lists lo hi docs p) {d : Nat} (hp : docs[p]? = some d) :
    ∃ o, ii.bounds b = .ok (start lists lo hi docs p, start lists lo hi docs p + (termsOf lists d lo hi).length, { b with offs := o }) ∧
      Blk.At ii u lists lo hi docs { b with offs := o } p := by
  obtain ⟨q, hq⟩ := h.offs
  obtain ⟨hpl, hpe⟩ := List.getElem?_eq_some_iff.mp hp
  have hrl : (blockRel lists lo hi docs).length = docs.length := by simp [blockRel]
  have hol := offsetsFrom_length (blockRel lists lo hi docs) 0
  obtain ⟨o1, e1, e2⟩ := hq.access (i := p) (by omega)
  obtain ⟨o2, f1, f2⟩ := e2.access (i := p + 1) (by omega)
  have v1 := e2.value
  have v2 := f2.value
  rw [offsetsFrom_get _ _ _ (by omega), Nat.zero_add] at v1 v2
  refine ⟨o2, ?_, h.isDocs, h.it, ⟨_, f2⟩, h.terms, h.lower⟩
  unfold BlkIdx.bounds
  rw [h.it.pos]
  simp only [e1, M.ok_bind, f1, v1, v2, Option.getD_some]
  have : rowTotal ((blockRel lists lo hi docs).take (p + 1)) = start lists lo hi docs p + (termsOf lists d lo hi).length := by
    unfold start rowTotal
    rw [List.take_succ_eq_append_getElem (by omega), List.map_append, List.sum_append]
    congr 1
    simp [blockRel, hpe]
  rw [this]
  rfl

theorem termAt (h : b.At ii u lists lo hi docs p) {d : Nat} (hp : docs[p]? = some d) {i t : Nat} (ht : (termsOf lists d lo hi)[i]? = some t) :
    ii.termAt b (start lists lo hi docs p + i) = .ok t := by
  have hr : (blockRel lists lo hi docs)[p]? = some (d, (termsOf lists d lo hi).map (· - max lo 1)) := by
    unfold blockRel
    rw [List.getElem?_map, hp]; rfl
  have hi := (List.getElem?_eq_some_iff.mp ht).1
  have hg := rowTerms_get _ p _ hr i (by simpa using hi)
  dsimp only at hg
  rw [List.getElem?_map, ht] at hg
  obtain ⟨w, w1, w2⟩ := h.terms _ _ hg
  unfold BlkIdx.termAt start
  simp only [w1, M.ok_bind, w2, h.lower]
  obtain ⟨t1, t2, t3, _⟩ := mem_termsOf.mp (List.mem_of_getElem? ht)
  congr 1
  omega

end Blk.At

/-! ## Scanning the terms of a document -/

/-- the terms from position `s` on are `ts` -/
def TermsFrom (ii : BlkIdx) (b : Blk) (s : Nat) (ts : List Nat) : Prop := ∀ (i t : Nat), ts[i]? = some t → ii.termAt b (s + i) = .ok t

theorem findTerm_spec {ii : BlkIdx} {b : Blk} {s : Nat} {ts : List Nat} (h : TermsFrom ii b s ts) (x : Nat) : ∀ (n i : Nat), i + n = ts.length →
    ∃ i' r, ii.findTerm b x n (s + i) = .ok (s + i', r) ∧ (if r then ts[i']? = some x else x ∉ ts.drop i) := by
  intro n
  induction n with
  | zero => intro i hi; exact ⟨i, false, rfl, by rw [List.drop_eq_nil_of_le (by omega)]; simp⟩
  | succ n ih =>
      intro i hi
      have hl : i < ts.length := by omega
      unfold BlkIdx.findTerm
      rw [h i ts[i] (List.getElem?_eq_getElem hl)]
      simp only [M.ok_bind]
      split
      · rename_i he
        exact ⟨i, true, rfl, by rw [if_pos rfl, List.getElem?_eq_getElem hl, he]⟩
      · rename_i hne
        obtain ⟨i', r, e1, e2⟩ := ih (i + 1) (by omega)
        refine ⟨i', r, e1, ?_⟩
        cases r with
        | true => exact e2
        | false =>
            rw [if_neg (by simp)] at e2 ⊢
            rw [List.drop_eq_getElem_cons hl, List.mem_cons, not_or]
            exact ⟨fun h => hne h.symm, e2⟩

theorem findAll_spec {ii : BlkIdx} {b : Blk} {s : Nat} {ts : List Nat} (h : TermsFrom ii b s ts) (hts : ts.Pairwise (· < ·)) :
    ∀ (xs : List Nat) (i : Nat), xs.Pairwise (· < ·) → i ≤ ts.length → (∀ x ∈ xs, x ∈ ts → x ∈ ts.drop i) →
    ii.findAll b (s + ts.length) xs (s + i) = .ok (decide (∀ x ∈ xs, x ∈ ts)) := by
  intro xs
  induction xs with
  | nil => intro i _ _ _; simp [BlkIdx.findAll]
  | cons x xs ih =>
      intro i hxs hi hd
      rw [List.pairwise_cons] at hxs
      unfold BlkIdx.findAll
      rw [show s + ts.length - (s + i) = ts.length - i by omega]
      obtain ⟨i', r, e1, e2⟩ := findTerm_spec h x (ts.length - i) i (by omega)
      rw [e1]
      simp only [M.ok_bind]
      cases r with
      | false =>
          rw [if_neg (by simp)] at e2 ⊢
          congr 1
          symm
          rw [decide_eq_false_iff_not]
          intro hall
          exact e2 (hd x (List.mem_cons_self ..) (hall x (List.mem_cons_self ..)))
      | true =>
          rw [if_pos rfl] at e2 ⊢
          obtain ⟨hl, he⟩ := List.getElem?_eq_some_iff.mp e2
          rw [ih i' hxs.2 (by omega)]
          · congr 1
            rw [decide_eq_decide]
            constructor
            · intro hall y hy
              rcases List.mem_cons.mp hy with rfl | hy
              · exact List.mem_of_getElem? e2
              · exact hall y hy
            · intro hall y hy
              exact hall y (List.mem_cons_of_mem _ hy)
          · intro y hy hyt
            obtain ⟨j, hj, rfl⟩ := List.getElem_of_mem hyt
            have hlt := hxs.1 _ hy
            rcases Nat.lt_or_ge j i' with hji | hji
            · have := List.pairwise_iff_getElem.mp hts j i' hj hl hji
              omega
            · rw [List.mem_iff_getElem]
              refine ⟨j - i', by simp; omega, ?_⟩
              rw [List.getElem_drop]
              congr 1; omega

theorem anyTerm_spec {ii : BlkIdx} {b : Blk} {s : Nat} {ts : List Nat} (h : TermsFrom ii b s ts) (hts : ts.Pairwise (· < ·)) (r : Range) :
    ∀ (n i : Nat), i + n = ts.length → Index4.anyTerm ii r b n (s + i) = .ok ((ts.drop i).any (fun t => r.contains t)) := by
  intro n
  induction n with
  | zero => intro i hi; rw [List.drop_eq_nil_of_le (by omega)]; rfl
  | succ n ih =>
      intro i hi
      have hl : i < ts.length := by omega
      unfold Index4.anyTerm
      rw [h i ts[i] (List.getElem?_eq_getElem hl)]
      simp only [M.ok_bind]
      rw [List.drop_eq_getElem_cons hl, List.any_cons]
      split
      · rename_i hgt
        have h1 : r.contains ts[i] = false := by
          unfold Range.contains
          rw [Bool.and_eq_false_iff]; right
          rw [decide_eq_false_iff_not]; omega
        have h2 : (ts.drop (i + 1)).any (fun t => r.contains t) = false := by
          rw [List.any_eq_false]
          intro t ht
          obtain ⟨j, hj, rfl⟩ := List.getElem_of_mem ht
          rw [List.getElem_drop]
          simp only [List.length_drop] at hj
          have := List.pairwise_iff_getElem.mp hts i (i + 1 + j) hl (by omega) (by omega)
          unfold Range.contains
          simp only [Bool.and_eq_true, decide_eq_true_eq]; omega
        rw [h1, h2]; rfl
      · split
        · rename_i hc; rw [hc]; rfl
        · rename_i hc
          rw [Bool.not_eq_true] at hc
          rw [hc, Bool.false_or, ← ih (i + 1) (by omega)]
          rfl

theorem Blk.At.termsFrom {ii : BlkIdx} {u : Nat} {lists : List (List Nat)} {lo hi : Nat} {docs : List Nat} {b : Blk} {p : Nat}
    (h : b.At ii u lists lo hi docs p) {d : Nat} (hp : docs[p]? = some d) : TermsFrom ii b (Blk.At.start lists lo hi docs p) (termsOf lists d lo hi) :=
  fun _ _ ht => h.termAt hp ht

/-- `d` has a term of the block in the range -/
def hasIn (lists : List (List Nat)) (lo hi : Nat) (r : Range) (d : Nat) : Bool := (termsOf lists d lo hi).any (fun t => r.contains t)

theorem hasIn_iff {lists : List (List Nat)} {lo hi : Nat} {r : Range} {d : Nat} :
    hasIn lists lo hi r d = true ↔ ∃ t, lo < t ∧ t ≤ hi ∧ r.b ≤ t ∧ t ≤ r.e ∧ Posted lists t d := by
  unfold hasIn Range.contains
  simp only [List.any_eq_true, mem_termsOf, Bool.and_eq_true, decide_eq_true_eq]
  constructor
  · rintro ⟨t, ⟨h1, h2, h3⟩, h4, h5⟩; exact ⟨t, h1, h2, h4, h5, h3⟩
  · rintro ⟨t, h1, h2, h4, h5, h3⟩; exact ⟨t, ⟨h1, h2, h3⟩, h4, h5⟩

theorem check_spec {ii : BlkIdx} {u : Nat} {lists : List (List Nat)} {lo hi : Nat} {docs : List Nat} {b : Blk} {p : Nat}
    (h : b.At ii u lists lo hi docs p) {d : Nat} (hp : docs[p]? = some d) (r : Range) :
    ∃ o, Index4.check ii r b = .ok (hasIn lists lo hi r d, { b with offs := o }) ∧ Blk.At ii u lists lo hi docs { b with offs := o } p := by
  obtain ⟨o, e1, e2⟩ := h.bounds hp
  refine ⟨o, ?_, e2⟩
  unfold Index4.check
  simp only [e1, M.ok_bind]
  have := anyTerm_spec (e2.termsFrom hp) (termsOf_sorted ..) r (termsOf lists d lo hi).length 0 (by omega)
  rw [Nat.add_zero, List.drop_zero] at this
  rw [Nat.add_sub_cancel_left, this]
  rfl

theorem isIn_spec {ii : BlkIdx} {u : Nat} {lists : List (List Nat)} {lo hi : Nat} {docs : List Nat} {b : Blk} {p : Nat}
    (h : b.At ii u lists lo hi docs p) (hs : b.ids.Pairwise (· < ·)) (hr : ∀ x ∈ b.ids, lo < x ∧ x ≤ hi) :
    ∃ o r, ii.isIn b = .ok (r, { b with offs := o }) ∧ Blk.At ii u lists lo hi docs { b with offs := o } p ∧
      (r = true ↔ ∃ d, docs[p]? = some d ∧ ∀ x ∈ b.ids, Posted lists x d) := by
  unfold BlkIdx.isIn
  rw [h.it.pos, h.it.size]
  split
  · rename_i hp
    refine ⟨b.offs, false, rfl, h, ?_⟩
    simp only [Bool.false_eq_true, false_iff, not_exists, not_and]
    intro d hd
    rw [hp, List.getElem?_eq_none (Nat.le_refl _)] at hd
    cases hd
  · rename_i hp
    have hp' : p < docs.length := by have := h.it.le; omega
    have hd : docs[p]? = some docs[p] := List.getElem?_eq_getElem hp'
    obtain ⟨o, e1, e2⟩ := h.bounds hd
    have hiff : (∀ x ∈ b.ids, x ∈ termsOf lists docs[p] lo hi) ↔ ∃ d, docs[p]? = some d ∧ ∀ x ∈ b.ids, Posted lists x d := by
      constructor
      · intro hall
        exact ⟨_, hd, fun x hx => (mem_termsOf.mp (hall x hx)).2.2⟩
      · rintro ⟨d, hd', hall⟩ x hx
        rw [hd] at hd'; cases hd'
        exact mem_termsOf.mpr ⟨(hr x hx).1, (hr x hx).2, hall x hx⟩
    simp only [e1, M.ok_bind]
    rw [Nat.add_sub_cancel_left]
    split
    · rename_i hlen
      refine ⟨o, false, rfl, e2, ?_⟩
      rw [← hiff]
      simp only [Bool.false_eq_true, false_iff]
      intro hall
      have := nodup_subset_length' (hs.imp Nat.ne_of_lt) hall
      omega
    · refine ⟨o, decide (∀ x ∈ b.ids, x ∈ termsOf lists docs[p] lo hi), ?_, e2, by rw [decide_eq_true_iff]; exact hiff⟩
      have := findAll_spec (e2.termsFrom hd) (termsOf_sorted ..) b.ids 0 hs (Nat.zero_le _) (fun x _ hx => by rwa [List.drop_zero])
      rw [Nat.add_zero] at this
      rw [this]; rfl

/-! ## The block of a term -/

theorem blockId_spec {ii : BlkIdx} {u m : Nat} {lists : List (List Nat)} {docss : List (List Nat)} (h : ii.Rep u m lists docss) (std : StdLib)
    {t : Nat} (h1 : 1 ≤ t) (h2 : t ≤ lists.length) :
    ∃ j lo hi, ii.blockId std t = .ok j ∧ (0 :: ii.blocks)[j]? = some lo ∧ ii.blocks[j]? = some hi ∧ lo < t ∧ t ≤ hi := by
  have hst := (List.pairwise_cons.mp h.cut.incr).2
  obtain ⟨ub1, ub2⟩ := std.upperBound_spec ii.blocks t (hst.imp Nat.le_of_lt)
  have hl := h.cut.last
  rw [List.getLast?_eq_getElem?] at hl
  obtain ⟨c1, c2⟩ := List.getElem?_eq_some_iff.mp hl
  unfold BlkIdx.blockId
  generalize std.upperBound ii.blocks t = n at ub1 ub2
  unfold BlkIdx.blockOf
  have hlow : ∀ (j : Nat), (∀ (i : Nat) (hi : i < ii.blocks.length), i < j → ii.blocks[i] < t) → j ≤ ii.blocks.length →
      ∃ lo, (0 :: ii.blocks)[j]? = some lo ∧ lo < t := by
    intro j hj hjl
    cases j with
    | zero => exact ⟨0, rfl, h1⟩
    | succ j => exact ⟨ii.blocks[j], by rw [List.getElem?_cons_succ, List.getElem?_eq_getElem], hj j (by omega) (by omega)⟩
  by_cases hn : n > 0
  · rw [if_pos hn]
    have hn1 : n - 1 < ii.blocks.length := by omega
    rw [rd_ok hn1]
    simp only [M.ok_bind]
    have hle : ii.blocks[n - 1] ≤ t := (ub2 (n - 1) hn1).mpr (by omega)
    by_cases he : ii.blocks[n - 1] = t
    · rw [if_pos he]
      obtain ⟨lo, l1, l2⟩ := hlow (n - 1) (fun i hi hin => by
        have := List.pairwise_iff_getElem.mp hst i (n - 1) hi hn1 hin
        omega) (by omega)
      exact ⟨n - 1, lo, t, rfl, l1, by rw [List.getElem?_eq_getElem hn1, he], l2, Nat.le_refl _⟩
    · rw [if_neg he]
      have hnl : n < ii.blocks.length := by
        rcases Nat.lt_or_ge n ii.blocks.length with hc | hc
        · exact hc
        · have hn' : n = ii.blocks.length := by omega
          subst hn'
          omega
      obtain ⟨lo, l1, l2⟩ := hlow n (fun i hi hin => by
        rcases Nat.lt_or_ge i (n - 1) with hc | hc
        · have := List.pairwise_iff_getElem.mp hst i (n - 1) hi hn1 hc
          omega
        · have : i = n - 1 := by omega
          subst this; omega) (by omega)
      refine ⟨n, lo, ii.blocks[n], rfl, l1, List.getElem?_eq_getElem hnl, l2, ?_⟩
      have : ¬ ii.blocks[n] ≤ t := fun hc => by have := (ub2 n hnl).mp hc; omega
      omega
  · rw [if_neg hn]
    have hn0 : n = 0 := by omega
    subst hn0
    have h0 : 0 < ii.blocks.length := by omega
    refine ⟨0, 0, ii.blocks[0], rfl, rfl, List.getElem?_eq_getElem h0, h1, ?_⟩
    have : ¬ ii.blocks[0] ≤ t := fun hc => by have := (ub2 0 h0).mp hc; omega
    omega

theorem blocks_mono {ii : BlkIdx} {u m : Nat} {lists : List (List Nat)} {docss : List (List Nat)} (h : ii.Rep u m lists docss)
    {j j' hi lo' : Nat} (h1 : ii.blocks[j]? = some hi) (h2 : (0 :: ii.blocks)[j']? = some lo') (hj : j < j') : hi ≤ lo' := by
  cases j' with
  | zero => omega
  | succ k =>
      rw [List.getElem?_cons_succ] at h2
      obtain ⟨a1, a2⟩ := List.getElem?_eq_some_iff.mp h1
      obtain ⟨b1, b2⟩ := List.getElem?_eq_some_iff.mp h2
      have hst := (List.pairwise_cons.mp h.cut.incr).2
      rcases Nat.lt_or_ge j k with hc | hc
      · have := List.pairwise_iff_getElem.mp hst j k a1 b1 hc
        omega
      · have : j = k := by omega
        subst this; omega

/-- the block of a term is unique -/
theorem block_unique {ii : BlkIdx} {u m : Nat} {lists : List (List Nat)} {docss : List (List Nat)} (h : ii.Rep u m lists docss)
    {j j' lo hi lo' hi' t : Nat} (h1 : (0 :: ii.blocks)[j]? = some lo) (h2 : ii.blocks[j]? = some hi) (h3 : (0 :: ii.blocks)[j']? = some lo')
    (h4 : ii.blocks[j']? = some hi') (a1 : lo < t) (a2 : t ≤ hi) (b1 : lo' < t) (b2 : t ≤ hi') : j = j' := by
  rcases Nat.lt_trichotomy j j' with hc | hc | hc
  · have := blocks_mono h h2 h3 hc; omega
  · exact hc
  · have := blocks_mono h h4 h1 hc; omega

theorem docss_get {ii : BlkIdx} {u m : Nat} {lists : List (List Nat)} {docss : List (List Nat)} (h : ii.Rep u m lists docss)
    {j hi : Nat} (h2 : ii.blocks[j]? = some hi) : ∃ docs, docss[j]? = some docs := by
  have := (List.getElem?_eq_some_iff.mp h2).1
  exact ⟨docss[j]'(by rw [h.blocks.len]; exact this), List.getElem?_eq_getElem _⟩

end AC
