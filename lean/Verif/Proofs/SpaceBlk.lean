import Verif.Proofs.SpaceIdx
import Verif.Proofs.BlkBuild
/-!
# The bytes of the blocked inverted index
-/
namespace AC
open Spec (Posted postingsIn)

theorem widthFor_eq (m : Nat) : BlkBuilder.widthFor m = Spec.digits m := by
  unfold BlkBuilder.widthFor
  by_cases h : m = 0
  · subst h; rfl
  · rw [ceilLog2_succ h, if_neg (by omega)]
    rfl

theorem appendAll_size (w : Nat) : ∀ (ts : List Nat) (b : BVB), (BlkBuilder.appendAll w ts b).size = b.size + ts.length * w
  | [], b => by simp [BlkBuilder.appendAll]
  | t :: ts, b => by
      rw [BlkBuilder.appendAll, appendAll_size w ts, BVB.appendBits_size, List.length_cons, Nat.add_mul]
      omega

/-- the documents of a block have its postings -/
theorem rowTotal_blockRel_eq {lists : List (List Nat)} {lo hi : Nat} {docs : List Nat} (hd : IsDocs lists lo hi docs) (hle : lo ≤ hi)
    (hs : ∀ l ∈ lists, l.Pairwise (· < ·)) : rowTotal (blockRel lists lo hi docs) = postingsIn lists lo hi := by
  obtain ⟨k, rfl⟩ := Nat.exists_eq_add_of_le hle
  have hn : docs.Nodup := hd.sorted.imp Nat.ne_of_lt
  have key : ∀ j, j ≤ k → (docs.map (fun d => (termsOf lists d lo (lo + j)).length)).sum = postingsIn lists lo (lo + j) := by
    intro j
    induction j with
    | zero =>
        intro _
        have : ∀ l : List Nat, (l.map (fun d => (termsOf lists d lo lo).length)).sum = 0 := by
          intro l
          induction l with
          | nil => rfl
          | cons a l ih => rw [List.map_cons, List.sum_cons, ih, termsOf_self]; rfl
        rw [Nat.add_zero, this]
        unfold postingsIn
        rw [List.drop_eq_nil_of_le (by simp; omega)]; rfl
    | succ j ih =>
        intro hj
        have h1 : ∀ l : List Nat, (l.map (fun d => (termsOf lists d lo (lo + j + 1)).length)).sum =
            (l.map (fun d => (termsOf lists d lo (lo + j)).length)).sum + (l.filter (fun d => decide (d ∈ lists.getD (lo + j) []))).length := by
          intro l
          induction l with
          | nil => rfl
          | cons a l ihl =>
              rw [List.map_cons, List.sum_cons, ihl, List.map_cons, List.sum_cons, termsOf_succ (Nat.le_add_right _ _), List.length_append,
                List.filter_cons]
              by_cases ha : a ∈ lists.getD (lo + j) []
              · rw [if_pos ha, if_pos (decide_eq_true ha), List.length_singleton, List.length_cons]; omega
              · rw [if_neg ha, if_neg (by simpa using ha), List.length_nil]; omega
        have h2 : (docs.filter (fun d => decide (d ∈ lists.getD (lo + j) []))).length ≤ (lists.getD (lo + j) []).length := by
          apply nodup_subset_length' (hn.sublist List.filter_sublist)
          intro x hx
          rw [List.mem_filter] at hx
          exact of_decide_eq_true hx.2
        have h3 : postingsIn lists lo (lo + j + 1) = postingsIn lists lo (lo + j) + (lists.getD (lo + j) []).length := by
          unfold postingsIn
          rw [List.getD_eq_getElem?_getD]
          cases hg : lists[lo + j]? with
          | none =>
              rw [List.getElem?_eq_none_iff] at hg
              rw [List.take_of_length_le (by omega), List.take_of_length_le (by omega)]
              simp
          | some l =>
              obtain ⟨hl, he⟩ := List.getElem?_eq_some_iff.mp hg
              rw [List.take_succ_eq_append_getElem hl, List.drop_append_of_le_length (by simp; omega), he]
              simp
        have h4 : (lists.getD (lo + j) []).length ≤ (docs.filter (fun d => decide (d ∈ lists.getD (lo + j) []))).length := by
          rw [List.getD_eq_getElem?_getD]
          cases hg : lists[lo + j]? with
          | none => simp
          | some l =>
              apply nodup_subset_length' ((hs l (List.mem_of_getElem? hg)).imp Nat.ne_of_lt)
              intro x hx
              rw [List.mem_filter]
              exact ⟨(hd.mem x).mpr ⟨lo + j + 1, by omega, by omega, by omega, l, hg, hx⟩, by simpa [hg] using hx⟩
        have := ih (by omega)
        rw [← Nat.add_assoc, h1, h3]
        omega
  have := key k (Nat.le_refl _)
  unfold rowTotal blockRel
  rw [List.map_map]
  have e : ((fun r : Nat × List Nat => r.2.length) ∘ fun d => (d, (termsOf lists d lo (lo + k)).map (· - max lo 1))) =
      fun d => (termsOf lists d lo (lo + k)).length := by
    funext d; simp
  rw [e]; exact this

theorem nodup_eraseDups {α : Type} [BEq α] [LawfulBEq α] : ∀ (n : Nat) (l : List α), l.length ≤ n → l.eraseDups.Nodup
  | _, [], _ => by simp
  | n + 1, a :: l, h => by
      rw [List.eraseDups_cons, List.nodup_cons]
      refine ⟨by simp, nodup_eraseDups n _ ?_⟩
      have := List.length_filter_le (fun b => !b == a) l
      rw [List.length_cons] at h
      omega

theorem postings_eq (lists : List (List Nat)) (lo hi : Nat) : postingsIn lists lo hi = Spec.postingCount lists lo hi := by
  unfold postingsIn Spec.postingCount
  rw [List.length_flatten]

theorem documents_eq {lists : List (List Nat)} {lo hi : Nat} {docs : List Nat} (hd : IsDocs lists lo hi docs) :
    docs.length = Spec.documents lists lo hi := by
  have hmem : ∀ x, x ∈ ((lists.take hi).drop lo).flatten.eraseDups ↔ x ∈ docs := by
    intro x
    rw [List.mem_eraseDups, List.mem_flatten, hd.mem]
    constructor
    · rintro ⟨l, hl, hx⟩
      obtain ⟨i, hi', rfl⟩ := List.getElem_of_mem hl
      have hi2 := hi'
      rw [List.length_drop, List.length_take] at hi2
      refine ⟨lo + i + 1, by omega, by omega, by omega, _, ?_, hx⟩
      rw [List.getElem_drop, List.getElem_take]
      exact List.getElem?_eq_getElem _
    · rintro ⟨t, h1, h2, h3, l, hl, hx⟩
      refine ⟨l, ?_, hx⟩
      apply List.mem_of_getElem? (i := t - 1 - lo)
      rw [List.getElem?_drop, List.getElem?_take, if_pos (by omega), show lo + (t - 1 - lo) = t - 1 by omega, hl]
  unfold Spec.documents
  apply Nat.le_antisymm
  · exact nodup_subset_length' (hd.sorted.imp Nat.ne_of_lt) (fun x hx => (hmem x).mpr hx)
  · exact nodup_subset_length' (nodup_eraseDups _ _ (Nat.le_refl _)) (fun x hx => (hmem x).mp hx)

/-- what a block takes in each of the three streams -/
theorem BlkInv.close_sizes {u m : Nat} {lists : List (List Nat)} (hL : BlkLists u lists) (std : StdLib) {lo cur : Nat} {docss : List (List Nat)}
    {b : BlkBuilder} {s : BlkLocals} (h : BlkInv u m lists lo cur docss b s) (hlt : lo < cur) {b' : BlkBuilder} {s' : BlkLocals}
    (hc : b.close std cur s = .ok (b', s')) :
    b'.blocks = b.blocks ++ [cur] ∧
    b'.lists.size = b.lists.size + (32 + Spec.setBits u (Spec.documents lists lo cur)) ∧
    b'.offs.size = b.offs.size + (64 + Spec.setBits (Spec.postingCount lists lo cur + 1) (Spec.documents lists lo cur + 1)) ∧
    b'.terms.size = b.terms.size + (6 + Spec.postingCount lists lo cur * Spec.digits (cur - max lo 1)) := by
  obtain ⟨hsort, hmem⟩ := deduplicate_spec std s.union
  have hD : IsDocs lists lo cur (deduplicate std s.union) := ⟨hsort, fun d => by rw [hmem, h.union]⟩
  generalize hdocs : deduplicate std s.union = docs at *
  have hnd : docs.Nodup := hsort.imp Nat.ne_of_lt
  have hrel : docs.map (fun d => (d, s.map d)) = blockRel lists lo cur docs := by
    unfold blockRel
    apply List.map_congr_left
    intro d _
    rw [h.map d]
  have hfst : (blockRel lists lo cur docs).map (·.1) = docs := by
    unfold blockRel
    rw [List.map_map]
    exact List.map_id docs
  have hrl : (blockRel lists lo cur docs).length = docs.length := by simp [blockRel]
  have htot : rowTotal (blockRel lists lo cur docs) = postingsIn lists lo cur := rowTotal_blockRel_eq hD h.le (fun l hl => (hL.each l hl).2.1)
  have hpost := postingsIn_le h.le h.le'
  have hfew := hL.few
  have hrows := rows_le_total hD
  have hcl : cur - 1 < lists.length := by have := h.le'; omega
  obtain ⟨x0, hx0, hp0⟩ : ∃ x, x ∈ docs ∧ Posted lists cur x := by
    obtain ⟨hne, _, _⟩ := hL.each lists[cur - 1] (List.getElem_mem hcl)
    obtain ⟨x, hx⟩ := List.exists_mem_of_ne_nil _ hne
    have hp : Posted lists cur x := ⟨by omega, _, List.getElem?_eq_getElem hcl, hx⟩
    exact ⟨x, (hD.mem x).mpr ⟨cur, hlt, Nat.le_refl _, hp⟩, hp⟩
  have hdne : docs ≠ [] := List.ne_nil_of_mem hx0
  have hdl : 1 ≤ docs.length := List.length_pos_iff.mpr hdne
  have hu := hL.univ
  have hbd : ∀ d ∈ docs, d < u := by
    intro d hd
    obtain ⟨t, _, _, ht⟩ := (hD.mem d).mp hd
    exact posted_bound hL ht
  have hval : CEF.Valid u ((blockRel lists lo cur docs).map (·.1)) := by
    rw [hfst]
    exact ⟨hdne, hsort.imp Nat.le_of_lt, fun d hd => Nat.le_of_lt (hbd d hd), by omega⟩
  have hdu : docs.length ≤ u := sorted_length_le (k := 0) hsort (fun x hx => ⟨Nat.zero_le _, hbd x hx⟩) (Nat.zero_le _)
  have hnl : lists.length ≤ (lists.map List.length).sum := count_le_sum (fun l hl => (hL.each l hl).1)
  obtain ⟨l', e1, e2, e3, e4, e5, e6⟩ := storeDocs b.lists u _ h.st1.wf hval (by rw [hrl]; omega)
  obtain ⟨o', f1, f2, f3, f4, f5, f6⟩ := storeOffs b.offs (blockRel lists lo cur docs) h.st2.wf (by omega) (by rw [hrl]; omega)
  have hin : ∀ t, t ∈ rowTerms (blockRel lists lo cur docs) ↔ ∃ d ∈ docs, ∃ t' ∈ termsOf lists d lo cur, t' - max lo 1 = t := by
    intro t
    unfold rowTerms blockRel
    rw [List.mem_flatMap]
    constructor
    · rintro ⟨r, hr, ht⟩
      obtain ⟨d, hd, rfl⟩ := List.mem_map.mp hr
      obtain ⟨t', h1, h2⟩ := List.mem_map.mp ht
      exact ⟨d, hd, t', h1, h2⟩
    · rintro ⟨d, hd, t', h1, h2⟩
      exact ⟨_, List.mem_map.mpr ⟨d, hd, rfl⟩, List.mem_map.mpr ⟨t', h1, h2⟩⟩
  have htl := rowTerms_length (blockRel lists lo cur docs)
  obtain ⟨g, k1, k2⟩ := gather_spec docs s.map 0 hnd
  rw [hrel] at k1
  have hdocs' := h.docs
  rw [hrl, hfst, ← hdocs'] at e1
  unfold BlkBuilder.close at hc
  simp only [hdocs, e1, k1, M.ok_bind, f1] at hc
  obtain ⟨mx, m1, hc⟩ := bind_ok hc
  cases hc
  have hmx : mx = cur - max lo 1 := by
    have hall : ∀ t ∈ rowTerms (blockRel lists lo cur docs), t ≤ cur - max lo 1 := by
      intro t ht
      obtain ⟨d, _, t', h1, rfl⟩ := (hin t).mp ht
      have := (mem_termsOf.mp h1).2.1
      omega
    have hhit : cur - max lo 1 ∈ rowTerms (blockRel lists lo cur docs) :=
      (hin _).mpr ⟨x0, hx0, cur, mem_termsOf.mpr ⟨hlt, Nat.le_refl _, hp0⟩, rfl⟩
    cases hr : rowTerms (blockRel lists lo cur docs) with
    | nil => rw [hr] at hhit; simp at hhit
    | cons a as =>
        rw [hr] at m1 hall hhit
        unfold BlkBuilder.maxElement at m1
        cases m1
        obtain ⟨q1, q2, q3⟩ := foldl_max as a
        apply Nat.le_antisymm
        · exact q3 _ (hall a (List.mem_cons_self ..)) (fun t ht => hall t (List.mem_cons_of_mem _ ht))
        · rcases List.mem_cons.mp hhit with hh | hh
          · omega
          · exact q2 _ hh
  have hdoc := documents_eq hD
  have hpo := postings_eq lists lo cur
  refine ⟨rfl, ?_, ?_, ?_⟩
  · dsimp only
    rw [e5.2.2, hrl, offsets_last (by omega) hdu, hdoc]
    omega
  · dsimp only
    rw [f5.2.2.2, hrl, htot, offsets_last (by omega) (by omega), hdoc, hpo]
    omega
  · dsimp only
    rw [appendAll_size, BVB.appendBits_size, htl, htot, hmx, widthFor_eq, hpo]
    omega

theorem perBlock_snoc (f : Nat → Nat → Nat) (x : Nat) : ∀ (lo : Nat) (ends : List Nat),
    Spec.perBlock f lo (ends ++ [x]) = Spec.perBlock f lo ends + f (ends.getLastD lo) x
  | lo, [] => by simp [Spec.perBlock]
  | lo, e :: ends => by
      rw [List.cons_append, Spec.perBlock, perBlock_snoc f x e ends, Spec.perBlock, List.getLastD_cons]
      omega

def docBits (u : Nat) (lists : List (List Nat)) (lo hi : Nat) : Nat := 32 + Spec.setBits u (Spec.documents lists lo hi)
def offBits (lists : List (List Nat)) (lo hi : Nat) : Nat := 64 + Spec.setBits (Spec.postingCount lists lo hi + 1) (Spec.documents lists lo hi + 1)
def termBits (lists : List (List Nat)) (lo hi : Nat) : Nat := 6 + Spec.postingCount lists lo hi * Spec.digits (hi - max lo 1)

structure BlkSizes (u : Nat) (lists : List (List Nat)) (b : BlkBuilder) : Prop where
  docs : b.lists.size = Spec.perBlock (docBits u lists) 0 b.blocks
  offs : b.offs.size = Spec.perBlock (offBits lists) 0 b.blocks
  terms : b.terms.size = Spec.perBlock (termBits lists) 0 b.blocks

theorem addAll_sizes {u m : Nat} {lists : List (List Nat)} (hL : BlkLists u lists) (std : StdLib) :
    ∀ (rest : List (List Nat)) (lo cur : Nat) (docss : List (List Nat)) (b : BlkBuilder) (s : BlkLocals),
    rest = lists.drop cur → BlkInv u m lists lo cur docss b s → (lo < cur → postingsIn lists lo cur < m) → BlkSizes u lists b →
    ∀ b', BlkBuilder.addAll std m rest (cur + 1) b s = .ok b' → BlkSizes u lists b' := by
  intro rest
  induction rest with
  | nil =>
      intro lo cur docss b s hr h h1 hs b' hb
      unfold BlkBuilder.addAll at hb
      cases hb
      exact hs
  | cons l rest ih =>
      intro lo cur docss b s hr h h1 hs b' hb
      have hc : cur < lists.length := by
        have hl := congrArg List.length hr
        simp at hl; omega
      rw [List.drop_eq_getElem_cons hc] at hr
      obtain ⟨rfl, hr'⟩ := List.cons.inj hr
      have ha := h.addTerm hL hc h1
      have hs1 : BlkSizes u lists (b.addTerm (cur + 1) lists[cur] s).1 := ⟨hs.docs, hs.offs, hs.terms⟩
      unfold BlkBuilder.addAll at hb
      generalize hx : b.addTerm (cur + 1) lists[cur] s = x at ha hb hs1
      obtain ⟨b1, s1⟩ := x
      dsimp only at ha hb hs1
      have hle := h.le
      split at hb
      · rename_i hcl
        rw [ha.postings, ha.terms] at hcl
        obtain ⟨b2, s2, e1, e2⟩ := ha.close hL std (by omega) hcl
        rw [e1] at hb
        simp only [M.ok_bind] at hb
        obtain ⟨z1, z2, z3, z4⟩ := ha.close_sizes hL std (by omega) e1
        have hlast := ha.last
        refine ih (cur + 1) (cur + 1) _ b2 s2 hr' e2 (fun hn => absurd hn (Nat.lt_irrefl _)) ⟨?_, ?_, ?_⟩ b' hb
        · rw [z2, z1, perBlock_snoc, hlast, hs1.docs]; rfl
        · rw [z3, z1, perBlock_snoc, hlast, hs1.offs]; rfl
        · rw [z4, z1, perBlock_snoc, hlast, hs1.terms]; rfl
      · rename_i hcl
        rw [ha.postings, ha.terms] at hcl
        exact ih lo (cur + 1) docss b1 s1 hr' ha (fun _ => by omega) hs1 b' hb

theorem BlkBuilder.build_bytes {u : Nat} {lists : List (List Nat)} (hL : BlkLists u lists) (std : StdLib) {m : Nat} {b : BlkBuilder} {mem : Nat → W}
    {ii : BlkIdx} (hb : BlkBuilder.mk' std m u lists = .ok b) (hi : b.build mem = .ok ii) :
    ii.docsBytes = 16 + Spec.packed (Spec.perBlock (docBits u lists) 0 ii.blocks) 1 ∧
    ii.offsetsBytes = 16 + Spec.packed (Spec.perBlock (offBits lists) 0 ii.blocks) 1 ∧
    ii.termsBytes = 16 + Spec.packed (Spec.perBlock (termBits lists) 0 ii.blocks) 1 := by
  obtain ⟨b0, s, docss, e1, h⟩ := BlkBuilder.addAll_inv hL std m
  have hz := addAll_sizes hL std lists 0 0 [] ⟨0, u, lists.length, [], [0], [0], [0], BVB.empty, BVB.empty, BVB.empty, []⟩ ⟨fun _ => [], [], 0, 1⟩ rfl
    (BlkInv.start u m lists) (by omega) ⟨rfl, rfl, rfl⟩ b0 e1
  unfold BlkBuilder.mk' at hb
  rw [e1, M.ok_bind] at hb
  cases hb
  unfold BlkBuilder.build at hi
  obtain ⟨_, _, hi⟩ := bind_ok hi
  obtain ⟨_, _, hi⟩ := bind_ok hi
  obtain ⟨_, _, hi⟩ := bind_ok hi
  cases hi
  refine ⟨?_, ?_, ?_⟩
  · unfold BlkIdx.docsBytes BV.bytes vecBytes BV.build Spec.packed
    dsimp only
    rw [h.st1.wf.len, hz.docs, wordsFor]
    omega
  · unfold BlkIdx.offsetsBytes BV.bytes vecBytes BV.build Spec.packed
    dsimp only
    rw [h.st2.wf.len, hz.offs, wordsFor]
    omega
  · unfold BlkIdx.termsBytes BV.bytes vecBytes BV.build Spec.packed
    dsimp only
    rw [h.st3.wf.len, hz.terms, wordsFor]
    omega

end AC
