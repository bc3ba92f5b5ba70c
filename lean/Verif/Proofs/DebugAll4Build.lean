import Verif.Model.DebugAll4
import Verif.Proofs.DebugType4
import Verif.Proofs.DebugAllIndex
/-!
# The blocked inverted index built with all assertions
-/
namespace AC
open Spec

theorem BVB.appendBitsD_small (v : BVB) {x len : Nat} (hl : len ≤ 64) (hx : x < 2 ^ len) :
    v.appendBitsD (BitVec.ofNat 64 x) len = .ok (v.appendBits (BitVec.ofNat 64 x) len) := by
  unfold BVB.appendBitsD
  split
  · rename_i h0; subst h0; rfl
  · rw [check_bind (fits_of_lt (by rw [ofNat_lt hl hx]; exact hx))]

namespace BlkBuilder

theorem widthForA_eq (max : Nat) : widthForA max = .ok (widthFor max) := by
  unfold widthForA widthFor
  rw [ceilLog2A_eq, M.ok_bind]

theorem appendAllA_eq (w : Nat) (hw : w ≤ 64) : ∀ (ts : List Nat) (b : BVB), (∀ t ∈ ts, t < 2 ^ w) → appendAllA w ts b = .ok (appendAll w ts b)
  | [], _, _ => rfl
  | t :: ts, b, h => by
      unfold appendAllA appendAll
      rw [BVB.appendBitsD_small b hw (h t (List.mem_cons_self ..)), M.ok_bind]
      exact appendAllA_eq w hw ts _ fun x hx => h x (List.mem_cons_of_mem _ hx)

theorem width_holds {ts : List Nat} {mx : Nat} (h : maxElement ts = .ok mx) (hs : ∀ t ∈ ts, t + 1 < 2 ^ 32) :
    widthFor mx ≤ 32 ∧ ∀ t ∈ ts, t < 2 ^ widthFor mx := by
  cases ts with
  | nil => cases h
  | cons x xs =>
      cases h
      obtain ⟨m1, m2, m3⟩ := foldl_max xs x
      have hmx : xs.foldl max x + 1 ≤ 2 ^ 32 := by
        have := m3 (2 ^ 32 - 2) (by have := hs x (by simp); omega) (fun t ht => by have := hs t (List.mem_cons_of_mem _ ht); omega)
        omega
      have hc := ceilLog2_le (xs.foldl max x + 1) 32 hmx
      have hl := lt_two_pow_ceilLog2 (xs.foldl max x + 1) (by omega)
      have hw : widthFor (xs.foldl max x) ≤ 32 ∧ xs.foldl max x + 1 ≤ 2 ^ widthFor (xs.foldl max x) := by
        unfold widthFor
        split
        · rename_i h0
          rw [h0] at hl
          exact ⟨by omega, by omega⟩
        · exact ⟨hc, hl⟩
      refine ⟨hw.1, fun t ht => ?_⟩
      rcases List.mem_cons.mp ht with rfl | ht
      · omega
      · have := m2 t ht; omega

/-- what is written at the end of a block -/
theorem close_sides {u m : Nat} {lists : List (List Nat)} (hL : BlkLists u lists) (std : StdLib) {lo cur : Nat} {docss : List (List Nat)}
    {b : BlkBuilder} {s : BlkLocals} (h : BlkInv u m lists lo cur docss b s) (hlt : lo < cur) :
    CEF.Valid u (deduplicate std s.union) ∧ (deduplicate std s.union).length < 2 ^ 32 ∧ ∃ rows g, gather (deduplicate std s.union) s.map 0 =
      (offsetsFrom rows 0, rowTerms rows, g) ∧ rowTotal rows + 1 < 2 ^ 32 ∧ rows.length + 1 < 2 ^ 32 ∧ ∀ t ∈ rowTerms rows, t + 1 < 2 ^ 32 := by
  obtain ⟨hsort, hmem⟩ := deduplicate_spec std s.union
  have hD : IsDocs lists lo cur (deduplicate std s.union) := ⟨hsort, fun d => by rw [hmem, h.union]⟩
  generalize hdocs : deduplicate std s.union = docs at *
  have hnd : docs.Nodup := hsort.imp Nat.ne_of_lt
  have hrel : docs.map (fun d => (d, s.map d)) = blockRel lists lo cur docs := by
    unfold blockRel
    apply List.map_congr_left
    intro d _
    rw [h.map d]
  have hrl : (blockRel lists lo cur docs).length = docs.length := by simp [blockRel]
  have htot : rowTotal (blockRel lists lo cur docs) ≤ postingsIn lists lo cur := rowTotal_blockRel hnd cur h.le
  have hpost := postingsIn_le h.le h.le'
  have hfew := hL.few
  have hrows := rows_le_total hD
  have hdne : docs ≠ [] := by
    have hcl : cur - 1 < lists.length := by have := h.le'; omega
    obtain ⟨hne, _, _⟩ := hL.each lists[cur - 1] (List.getElem_mem hcl)
    obtain ⟨x, hx⟩ := List.exists_mem_of_ne_nil _ hne
    exact List.ne_nil_of_mem ((hD.mem x).mpr ⟨cur, hlt, Nat.le_refl _, by omega, _, List.getElem?_eq_getElem hcl, hx⟩)
  have hu := hL.univ
  have hbd : ∀ d ∈ docs, d < u := by
    intro d hd
    obtain ⟨t, _, _, ht⟩ := (hD.mem d).mp hd
    exact posted_bound hL ht
  have hnl : lists.length ≤ (lists.map List.length).sum := count_le_sum (fun l hl => (hL.each l hl).1)
  obtain ⟨g, k1, -⟩ := gather_spec docs s.map 0 hnd
  rw [hrel] at k1
  refine ⟨⟨hdne, hsort.imp Nat.le_of_lt, fun d hd => Nat.le_of_lt (hbd d hd), by omega⟩, by omega, _, g, k1, by omega, by omega, ?_⟩
  intro t ht
  unfold rowTerms blockRel at ht
  obtain ⟨r, hr, ht⟩ := List.mem_flatMap.mp ht
  obtain ⟨d, hd, rfl⟩ := List.mem_map.mp hr
  obtain ⟨t', ht', rfl⟩ := List.mem_map.mp ht
  have := posted_le (mem_termsOf.mp ht').2.2
  omega

theorem map_sorted {u m : Nat} {lists : List (List Nat)} {lo cur : Nat} {docss : List (List Nat)} {b : BlkBuilder} {s : BlkLocals}
    (h : BlkInv u m lists lo cur docss b s) (d : Nat) : (s.map d).Pairwise (· ≤ ·) := by
  rw [h.map d, List.pairwise_map]
  exact (termsOf_sorted lists d lo cur).imp fun hab => by omega

theorem closeA_eq {u m : Nat} {lists : List (List Nat)} (hL : BlkLists u lists) (std : StdLib) {lo cur : Nat} {docss : List (List Nat)}
    {b : BlkBuilder} {s : BlkLocals} (h : BlkInv u m lists lo cur docss b s) (hlt : lo < cur) (term : Nat) : b.closeA std term s = b.close std term s := by
  obtain ⟨v1, v2, rows, g, v3, v4, v5, v6⟩ := close_sides hL std h hlt
  unfold closeA close
  dsimp only
  rw [BVB.appendBitsD_small _ (by omega) v2, M.ok_bind, h.docs, CEF.buildD_eq _ v1, gatherD_stays _ _ _ (map_sorted h), v3]
  refine M.bind_congr_ok ?_
  intro l _
  rw [M.ok_bind]
  dsimp only
  rw [offsetsFrom_length, offsetsFrom_getLast, Nat.zero_add, BVB.appendBitsD_small _ (by omega) v5, M.ok_bind, BVB.appendBitsD_small _ (by omega) v4, M.ok_bind,
    CEF.buildD_eq _ (offsets_valid rows (by omega))]
  refine M.bind_congr_ok ?_
  intro o _
  refine M.bind_congr_ok ?_
  intro mx hmx
  obtain ⟨w1, w2⟩ := width_holds hmx v6
  rw [widthForA_eq, M.ok_bind, BVB.appendBitsD_small _ (by omega) (by omega), M.ok_bind, appendAllA_eq _ (by omega) _ _ w2, M.ok_bind]

theorem addAllA_eq {u m : Nat} {lists : List (List Nat)} (hL : BlkLists u lists) (std : StdLib) :
    ∀ (rest : List (List Nat)) (lo cur : Nat) (docss : List (List Nat)) (b : BlkBuilder) (s : BlkLocals),
    rest = lists.drop cur → BlkInv u m lists lo cur docss b s → (lo < cur → postingsIn lists lo cur < m) →
    addAllA std m rest (cur + 1) b s = addAll std m rest (cur + 1) b s
  | [], _, _, _, _, _, _, _, _ => rfl
  | l :: rest, lo, cur, docss, b, s, hr, h, h1 => by
      have hc : cur < lists.length := by
        have hl := congrArg List.length hr
        simp at hl; omega
      rw [List.drop_eq_getElem_cons hc] at hr
      obtain ⟨rfl, hr'⟩ := List.cons.inj hr
      have ha := h.addTerm hL hc h1
      have hle := h.le
      have hlow := h.lower
      unfold addAllA addAll addTermD
      rw [show AC.check (lists[cur] = [] ∨ s.lower ≤ cur + 1) = .ok () from if_pos (Or.inr (by omega)), M.ok_bind, M.ok_bind]
      generalize hx : b.addTerm (cur + 1) lists[cur] s = x at ha
      obtain ⟨b1, s1⟩ := x
      dsimp only at ha ⊢
      by_cases hcl : s1.postings ≥ m ∨ cur + 1 = b1.numTerms
      · rw [if_pos hcl, if_pos hcl, closeA_eq hL std ha (by omega)]
        rw [ha.postings, ha.terms] at hcl
        obtain ⟨b2, s2, e1, e2⟩ := ha.close hL std (by omega) hcl
        rw [e1, M.ok_bind, M.ok_bind]
        exact addAllA_eq hL std rest (cur + 1) (cur + 1) _ b2 s2 hr' e2 (fun hn => absurd hn (Nat.lt_irrefl _))
      · rw [if_neg hcl, if_neg hcl]
        rw [ha.postings, ha.terms] at hcl
        exact addAllA_eq hL std rest lo (cur + 1) docss b1 s1 hr' ha (fun _ => by omega)

theorem mkA_eq {u : Nat} {lists : List (List Nat)} (hL : BlkLists u lists) (std : StdLib) (m : Nat) : mkA std m u lists = mk' std m u lists := by
  unfold mkA mk'
  rw [addAllA_eq hL (m := m) std lists 0 0 [] _ _ rfl (BlkInv.start u m lists) (by omega)]

theorem buildA_eq (b : BlkBuilder) (mem : Nat → W) : b.buildA mem = b.build mem := by
  unfold buildA build
  rw [EF.buildD_eq, EF.buildD_eq, EF.buildD_eq]

end BlkBuilder

/-- what is read at the beginning of a block lies within the bits of the index -/
structure BlkIdx.InBits (ii : BlkIdx) : Prop where
  p1 : ∃ xs, ii.ptrLists.RepD xs ∧ xs.length = ii.blocks.length
  p2 : ∃ xs, ii.ptrOffs.RepD xs ∧ xs.length = ii.blocks.length
  p3 : ∃ xs, ii.ptrTerms.RepD xs ∧ xs.length = ii.blocks.length
  f1 : ∀ j < ii.blocks.length, ∃ p, ii.ptrLists.access j = .ok p ∧ p + 32 ≤ ii.lists.size
  f2 : ∀ j < ii.blocks.length, ∃ p, ii.ptrOffs.access j = .ok p ∧ p + 64 ≤ ii.offs.size
  f3 : ∀ j < ii.blocks.length, ∃ p, ii.ptrTerms.access j = .ok p ∧ p + 6 ≤ ii.terms.size

theorem BlkBuilder.build_fits {u : Nat} {lists : List (List Nat)} (hL : BlkLists u lists) (std : StdLib) (m : Nat) {b : BlkBuilder}
    (hb : BlkBuilder.mk' std m u lists = .ok b) {mem : Nat → W} {ii : BlkIdx} (hi : b.build mem = .ok ii) : ii.InBits := by
  obtain ⟨c, s, docss, e1, h⟩ := BlkBuilder.addAll_inv hL std m
  unfold BlkBuilder.mk' at hb
  rw [e1, M.ok_bind] at hb
  cases hb
  have hlpos : 0 < lists.length := List.length_pos_iff.mpr hL.ne
  have hbne : c.blocks ≠ [] := by
    intro hn
    have := h.last
    rw [hn] at this
    simp at this; omega
  have hsl := stored_length lists c.blocks docss 0 h.blocks.len
  have hne : stored lists 0 c.blocks docss ≠ [] := by
    intro hn
    rw [hn, List.length_nil] at hsl
    exact hbne (List.length_eq_zero_iff.mp hsl.symm)
  have htot := h.total
  rw [postingsIn_all] at htot
  have hfew := hL.few
  have hb1 : ((stored lists 0 c.blocks docss).map wDocs).sum < 2 ^ 64 := by
    have := sum_map_le wDocs rowTotal 448 (stored lists 0 c.blocks docss) (fun x hx => by have := h.pos x hx; unfold wDocs; omega)
    omega
  have hb2 : ((stored lists 0 c.blocks docss).map wOffs).sum < 2 ^ 64 := by
    have := sum_map_le wOffs rowTotal 448 (stored lists 0 c.blocks docss) (fun x hx => by have := h.pos x hx; unfold wOffs; omega)
    omega
  have hb3 : ((stored lists 0 c.blocks docss).map wTerms).sum < 2 ^ 64 := by
    have := sum_map_le wTerms rowTotal 448 (stored lists 0 c.blocks docss) (fun x hx => by have := h.pos x hx; unfold wTerms; omega)
    omega
  obtain ⟨q1, a1, a2⟩ := h.st1.pointers hne hb1
  obtain ⟨q2, c1, c2⟩ := h.st2.pointers hne hb2
  obtain ⟨q3, d1, d2⟩ := h.st3.pointers hne hb3
  have l1 := h.st1.len
  have l2 := h.st2.len
  have l3 := h.st3.len
  unfold BlkBuilder.build at hi
  dsimp only at hi
  rw [a1, M.ok_bind, c1, M.ok_bind, d1, M.ok_bind] at hi
  cases hi
  have hget : ∀ (j : Nat) (hj : j < c.blocks.length), (stored lists 0 c.blocks docss)[j]? = some ((stored lists 0 c.blocks docss)[j]'(by omega)) := by
    intro j hj
    exact List.getElem?_eq_getElem _
  refine ⟨⟨_, EF.build_repD a1, ?_⟩, ⟨_, EF.build_repD c1, ?_⟩, ⟨_, EF.build_repD d1, ?_⟩, ?_, ?_, ?_⟩
  · simp only [toWords, List.length_map, List.length_dropLast]; omega
  · simp only [toWords, List.length_map, List.length_dropLast]; omega
  · simp only [toWords, List.length_map, List.length_dropLast]; omega
  · intro j hj
    obtain ⟨p, e, r1, ⟨-, r2, r3⟩, r4⟩ := a2 j _ (hget j hj)
    refine ⟨p, r1, ?_⟩
    have := offsets_p0_le (p + 32) u _ r2.valid
    rw [List.length_map] at this
    show p + 32 ≤ c.lists.size
    omega
  · intro j hj
    obtain ⟨p, e, r1, ⟨-, -, r2, r3⟩, r4⟩ := c2 j _ (hget j hj)
    refine ⟨p, r1, ?_⟩
    have := offsets_p0_le (p + 64) _ _ r2.valid
    rw [offsetsFrom_length] at this
    show p + 64 ≤ c.offs.size
    omega
  · intro j hj
    obtain ⟨p, e, r1, ⟨w, -, -, -, r3, -⟩, r4⟩ := d2 j _ (hget j hj)
    refine ⟨p, r1, ?_⟩
    have hz := Nat.zero_le (rowTotal ((stored lists 0 c.blocks docss)[j]'(hsl.symm ▸ hj)) * w)
    show p + 6 ≤ c.terms.size
    omega

end AC
