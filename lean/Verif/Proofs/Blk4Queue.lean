import Verif.Proofs.Blk4
/-!
# The blocks put into the queue by the conjunctive queries with index type 4
-/
namespace AC
open Spec

theorem filter_interval {α : Type} {L : List α} {P : α → Bool} {a b : Nat} (hab : a ≤ b) (hb : b ≤ L.length)
    (h : ∀ (j : Nat) (x : α), L[j]? = some x → (P x = true ↔ a ≤ j ∧ j < b)) : L.filter P = (L.drop a).take (b - a) := by
  have e : L = L.take a ++ ((L.drop a).take (b - a) ++ L.drop b) := by
    rw [show L.drop b = (L.drop a).drop (b - a) by rw [List.drop_drop]; congr 1; omega, List.take_append_drop, List.take_append_drop]
  have h1 : (L.take a).filter P = [] := by
    rw [List.filter_eq_nil_iff]
    intro x hx
    obtain ⟨j, hj⟩ := List.mem_iff_getElem?.mp hx
    rw [List.getElem?_take] at hj
    split at hj
    · rw [h j x hj]; omega
    · cases hj
  have h2 : (L.drop b).filter P = [] := by
    rw [List.filter_eq_nil_iff]
    intro x hx
    obtain ⟨j, hj⟩ := List.mem_iff_getElem?.mp hx
    rw [List.getElem?_drop] at hj
    rw [h _ x hj]; omega
  have h3 : ((L.drop a).take (b - a)).filter P = (L.drop a).take (b - a) := by
    rw [List.filter_eq_self]
    intro x hx
    obtain ⟨j, hj⟩ := List.mem_iff_getElem?.mp hx
    rw [List.getElem?_take] at hj
    split at hj
    · rw [List.getElem?_drop] at hj
      rw [h _ x hj]; omega
    · cases hj
  conv => lhs; rw [e]
  rw [List.filter_append, List.filter_append, h1, h2, h3, List.nil_append, List.append_nil]

namespace Index4

/-- block `j`, at its beginning -/
def desc (ii : BlkIdx) (docss : List (List Nat)) (j : Nat) : VB := ⟨(0 :: ii.blocks).getD j 0, ii.blocks.getD j 0, docss.getD j []⟩

variable {ii : BlkIdx} {u m : Nat} {lists docss : List (List Nat)}

theorem desc_eq {j lo hi : Nat} {docs : List Nat} (h1 : (0 :: ii.blocks)[j]? = some lo) (h2 : ii.blocks[j]? = some hi) (h3 : docss[j]? = some docs) :
    desc ii docss j = ⟨lo, hi, docs⟩ := by
  unfold desc
  rw [List.getD_eq_getElem?_getD, h1, List.getD_eq_getElem?_getD, h2, List.getD_eq_getElem?_getD, h3]; rfl

theorem live_block (h : ii.Rep u m lists docss) {j lo hi : Nat} (h1 : (0 :: ii.blocks)[j]? = some lo) (h2 : ii.blocks[j]? = some hi) :
    ∃ b, ii.block j = .ok b ∧ Live ii u lists b (desc ii docss j, 0) := by
  obtain ⟨docs, h3⟩ := docss_get h h2
  obtain ⟨b, e1, e2, _⟩ := block_spec h h1 h2 h3
  refine ⟨b, e1, ?_⟩
  rw [desc_eq h1 h2 h3]
  refine ⟨e2, ?_⟩
  obtain ⟨base, r1, _⟩ := e2.it
  exact List.length_pos_iff.mpr r1.valid.ne

theorem blocksLoop_spec (h : ii.Rep u m lists docss) : ∀ (n i cur lo hi : Nat) (q : List Blk), (0 :: ii.blocks)[cur]? = some lo →
    ii.blocks[cur]? = some hi → lo < i → i ≤ hi + 1 → i + n ≤ lists.length + 1 →
    ∃ qs cur' lo' hi', blocksLoop ii n i cur hi q = .ok (q ++ qs, cur') ∧ cur ≤ cur' ∧ (0 :: ii.blocks)[cur']? = some lo' ∧ ii.blocks[cur']? = some hi' ∧
      All2 (Live ii u lists) qs ((List.range' cur (cur' - cur)).map (fun j => (desc ii docss j, 0))) ∧ (n = 0 → cur' = cur) ∧
      (0 < n → lo' < i + n - 1 ∧ i + n - 1 ≤ hi') := by
  intro n
  induction n with
  | zero =>
      intro i cur lo hi q h1 h2 hlo hle hn
      exact ⟨[], cur, lo, hi, by rw [List.append_nil]; rfl, Nat.le_refl _, h1, h2, by rw [Nat.sub_self]; exact .nil, fun _ => rfl, fun h => by omega⟩
  | succ n ih =>
      intro i cur lo hi q h1 h2 hlo hle hn
      unfold blocksLoop
      split
      · rename_i hgt
        obtain ⟨b, e1, e2⟩ := live_block h h1 h2
        have hl := h.cut.last
        rw [List.getLast?_eq_getElem?] at hl
        obtain ⟨c1, c2⟩ := List.getElem?_eq_some_iff.mp hl
        obtain ⟨b1, b2⟩ := List.getElem?_eq_some_iff.mp h2
        have hcur : cur + 1 < ii.blocks.length := by
          rcases Nat.lt_or_ge (cur + 1) ii.blocks.length with hc | hc
          · exact hc
          · have : cur = ii.blocks.length - 1 := by omega
            subst this
            omega
        have h2' : ii.blocks[cur + 1]? = some ii.blocks[cur + 1] := List.getElem?_eq_getElem hcur
        have h1' : (0 :: ii.blocks)[cur + 1]? = some hi := by rw [List.getElem?_cons_succ]; exact h2
        obtain ⟨k1, k2, k3⟩ := h.bounds_ok h1' h2'
        obtain ⟨qs, cur', lo', hi', g1, g2, g3, g4, g5, g6, g7⟩ := ih (i + 1) (cur + 1) hi ii.blocks[cur + 1] (q ++ [b]) h1' h2' (by omega) (by omega) (by omega)
        refine ⟨b :: qs, cur', lo', hi', ?_, by omega, g3, g4, ?_, fun h => by omega, ?_⟩
        · rw [e1]
          simp only [M.ok_bind]
          unfold BlkIdx.boundary
          rw [rd_of_getElem? h2']
          simp only [M.ok_bind, g1, List.append_assoc, List.cons_append, List.nil_append]
        · rw [show cur' - cur = (cur' - (cur + 1)) + 1 by omega, List.range'_succ, List.map_cons]
          exact .cons e2 g5
        · intro _
          rcases Nat.eq_zero_or_pos n with rfl | hn0
          · have := g6 rfl
            subst this
            rw [g3] at h1'; cases h1'
            rw [g4] at h2'; cases h2'
            omega
          · have := g7 hn0; omega
      · rename_i hgt
        obtain ⟨qs, cur', lo', hi', g1, g2, g3, g4, g5, g6, g7⟩ := ih (i + 1) cur lo hi q h1 h2 (by omega) (by omega) (by omega)
        refine ⟨qs, cur', lo', hi', g1, g2, g3, g4, g5, fun h => by omega, ?_⟩
        intro _
        rcases Nat.eq_zero_or_pos n with rfl | hn0
        · have := g6 rfl
          subst this
          rw [g3] at h1; cases h1
          rw [g4] at h2; cases h2
          omega
        · have := g7 hn0; omega

/-- the queue before the searches: the visited blocks, at their beginning -/
theorem blocks_spec (h : ii.Rep u m lists docss) (std : StdLib) (r : Range) (h1 : 1 ≤ r.b) (h2 : r.b ≤ r.e) (h3 : r.e ≤ lists.length) :
    ∃ (q : List Blk) (xs : List (VB × Nat)) (V : List VB), blocks std ii r = .ok q ∧ All2 (Live ii u lists) q xs ∧ IsHeap key q ∧ xs.Perm (V.map (fun v => (v, 0))) ∧
      V.map (fun v : VB => (v.lo, v.hi)) = visitedBlocks ii.blocks r.b r.e ∧ ∀ v ∈ V, IsDocs lists v.lo v.hi v.docs ∧ v.docs.length ≤ u := by
  obtain ⟨j0, lo, hi, e1, e2, e3, e4, e5⟩ := blockId_spec h std (t := r.b) h1 (by omega)
  obtain ⟨qs, j1, lo', hi', g1, g2, g3, g4, g5, g6, g7⟩ := blocksLoop_spec h (r.e - r.b) r.b j0 lo hi [] e2 e3 e4 (by omega) (by omega)
  obtain ⟨b, f1, f2⟩ := live_block h g3 g4
  obtain ⟨m1, m2⟩ := Heap.makeHeap_spec (key := key) std (qs ++ [b])
  have hA : All2 (Live ii u lists) (qs ++ [b]) ((List.range' j0 (j1 + 1 - j0)).map (fun j => (desc ii docss j, 0))) := by
    rw [show j1 + 1 - j0 = (j1 - j0) + 1 by omega, List.range'_1_concat, List.map_append, show j0 + (j1 - j0) = j1 by omega]
    exact All2.append g5 (.cons f2 .nil)
  obtain ⟨xs, p1, p2⟩ := All2.perm m1.symm hA
  have hj1 : j1 < ii.blocks.length := (List.getElem?_eq_some_iff.mp g4).1
  refine ⟨_, xs, (List.range' j0 (j1 + 1 - j0)).map (desc ii docss), ?_, p2, m2, ?_, ?_, ?_⟩
  · unfold blocks
    rw [e1]
    simp only [M.ok_bind]
    unfold BlkIdx.boundary
    rw [rd_of_getElem? e3]
    simp only [M.ok_bind, g1, List.nil_append, f1]
  · rw [List.map_map]; exact p1.symm
  · unfold visitedBlocks
    rw [filter_interval (a := j0) (b := j1 + 1) (by omega) (by simp; omega)]
    · apply List.ext_getElem?
      intro i
      rw [List.map_map, List.getElem?_map, List.getElem?_take, List.getElem?_drop]
      split
      · rename_i hi
        rw [List.getElem?_range' (by omega), (List.getElem?_zip_eq_some (z := ((0 :: ii.blocks).getD (j0 + i) 0, ii.blocks.getD (j0 + i) 0))).mpr]
        · simp [desc]
        · constructor
          · have hz : j0 + i < (0 :: ii.blocks).length := by simp; omega
            dsimp only
            rw [List.getD_eq_getElem?_getD, List.getElem?_eq_getElem hz]; rfl
          · have hz : j0 + i < ii.blocks.length := by omega
            dsimp only
            rw [List.getD_eq_getElem?_getD, List.getElem?_eq_getElem hz]; rfl
      · rename_i hi
        rw [List.getElem?_eq_none (by simp; omega)]; rfl
    · intro j x hx
      obtain ⟨x1, x2⟩ := List.getElem?_zip_eq_some.mp hx
      rw [decide_eq_true_iff]
      have hend : lo' < max r.b (r.e - 1) ∧ max r.b (r.e - 1) ≤ hi' := by
        rcases Nat.eq_zero_or_pos (r.e - r.b) with hz | hz
        · have := g6 hz
          subst this
          rw [e2] at g3; cases g3
          rw [e3] at g4; cases g4
          rw [Nat.max_eq_left (by omega)]; omega
        · have := g7 hz
          rw [Nat.max_eq_right (by omega)]; omega
      have hb := h.bounds_ok x1 x2
      constructor
      · rintro ⟨y1, y2⟩
        constructor
        · rcases Nat.lt_or_ge j j0 with hc | hc
          · have := blocks_mono h x2 e2 hc; omega
          · exact hc
        · rcases Nat.lt_or_ge j (j1 + 1) with hc | hc
          · exact hc
          · have := blocks_mono h g4 x1 (by omega); omega
      · rintro ⟨y1, y2⟩
        constructor
        · rcases Nat.lt_or_eq_of_le y1 with hc | hc
          · have := blocks_mono h e3 x1 hc; omega
          · subst hc
            rw [x2] at e3; cases e3
            exact e5
        · rcases Nat.lt_or_ge j j1 with hc | hc
          · have := blocks_mono h x2 g3 hc; omega
          · have : j = j1 := by omega
            subst this
            rw [x1] at g3; cases g3
            omega
  · intro v hv
    obtain ⟨j, hj, rfl⟩ := List.mem_map.mp hv
    rw [List.mem_range'_1] at hj
    have hjl : j < ii.blocks.length := by omega
    have k2 : ii.blocks[j]? = some ii.blocks[j] := List.getElem?_eq_getElem hjl
    have k1 : (0 :: ii.blocks)[j]? = some ((0 :: ii.blocks)[j]'(by simp; omega)) := List.getElem?_eq_getElem _
    obtain ⟨docs, k3⟩ := docss_get h k2
    obtain ⟨b', _, hl⟩ := live_block h k1 k2
    rw [desc_eq k1 k2 k3] at hl ⊢
    refine ⟨hl.1.isDocs, ?_⟩
    have := nodup_subset_length' (A := docs) (B := List.range u) (hl.1.it.sorted.imp Nat.ne_of_lt) (fun a ha => List.mem_range.mpr (hl.1.it.bound a ha))
    simpa using this

end Index4
end AC
