import Verif.Spec.Type4
import Verif.Proofs.Conj4
/-!
# The blocks of an index of type 4 in terms of the collection
-/
namespace AC
open Spec

/-- the terms after `x.1` up to `x.2` -/
def slice (T : List Str) (x : Nat × Nat) : List Str := (T.take x.2).drop x.1

theorem mem_slice {T : List Str} (hs : StrictSorted T) {x : Nat × Nat} {t : Str} :
    t ∈ slice T x ↔ t ∈ T ∧ x.1 < rankOf T t ∧ rankOf T t ≤ x.2 := by
  unfold slice
  constructor
  · intro h
    obtain ⟨i, hi, rfl⟩ := List.mem_iff_getElem.mp h
    rw [List.length_drop, List.length_take] at hi
    rw [List.getElem_drop, List.getElem_take]
    have hl : x.1 + i < T.length := by omega
    rw [rankOf_getElem hs hl]
    exact ⟨List.getElem_mem hl, by omega, by omega⟩
  · rintro ⟨h1, h2, h3⟩
    have h4 := rankOf_le h1
    have h5 := getElem_rankOf h1
    refine List.mem_iff_getElem?.mpr ⟨rankOf T t - 1 - x.1, ?_⟩
    rw [List.getElem?_drop, List.getElem?_take, if_pos (by omega), show x.1 + (rankOf T t - 1 - x.1) = rankOf T t - 1 by omega]
    exact h5

theorem slices_flatten (T : List Str) : ∀ (bounds : List Nat) (lo : Nat), (lo :: bounds).Pairwise (· < ·) → (lo :: bounds).getLast? = some T.length →
    (((lo :: bounds).zip bounds).map (slice T)).flatten = T.drop lo
  | [], lo, _, h => by
      simp only [List.getLast?_singleton, Option.some.injEq] at h
      subst h
      simp
  | hi :: bounds, lo, hp, h => by
      obtain ⟨h1, h2⟩ := List.pairwise_cons.mp hp
      have hlt := h1 hi (List.mem_cons_self ..)
      rw [List.zip_cons_cons, List.map_cons, List.flatten_cons, slices_flatten T bounds hi h2 (by rw [List.getLast?_cons_cons] at h; exact h)]
      unfold slice
      dsimp only
      have : (T.drop lo) = ((T.take hi).drop lo) ++ (T.drop hi) := by
        conv => lhs; rw [← List.take_append_drop hi T]
        by_cases hle : hi ≤ T.length
        · rw [List.drop_append_of_le_length (by rw [List.length_take]; omega)]
        · exfalso
          have : ∀ z ∈ hi :: bounds, hi ≤ z := by
            intro z hz
            rcases List.mem_cons.mp hz with rfl | hz
            · exact Nat.le_refl _
            · exact Nat.le_of_lt ((List.pairwise_cons.mp h2).1 z hz)
          have := this T.length (List.mem_of_getLast? (by rw [List.getLast?_cons_cons] at h; exact h))
          omega
      rw [this]

section
variable {C : Coll} {F : Files} (h : Ready C F)
include h

theorem Ready.posted_iff {t d : Nat} : Posted F.inverted t d ↔ ∃ x ∈ F.terms, rankOf F.terms x = t ∧ ∃ c, (d, c) ∈ C ∧ x ∈ c := by
  constructor
  · rintro ⟨h1, l, hl, hd⟩
    have hlt : t - 1 < F.terms.length := by rw [← h.files.numLists]; exact (List.getElem?_eq_some_iff.mp hl).1
    have hd' : d ∈ F.inverted.getD (t - 1) [] := by rw [List.getD_eq_getElem?_getD, hl]; exact hd
    obtain ⟨c, hc, hx⟩ := (h.files.memList _ _ hlt).mp hd'
    rw [h.getD_terms hlt] at hx
    exact ⟨_, List.getElem_mem hlt, by rw [rankOf_getElem h.files.terms]; omega, c, hc, hx⟩
  · rintro ⟨x, hx, rfl, c, hc, hxc⟩
    have h1 := rankOf_le hx
    have h2 := rankOf_pos (L := F.terms) x
    have hlt : rankOf F.terms x - 1 < F.inverted.length := by rw [h.files.numLists]; omega
    refine ⟨h2, _, List.getElem?_eq_getElem hlt, ?_⟩
    have := (h.mem_list hx d).mpr ⟨c, hc, hxc⟩
    rw [List.getD_eq_getElem?_getD, List.getElem?_eq_getElem hlt] at this
    exact this

theorem Ready.has_iff {x : Nat × Nat} {d : Nat} :
    (∃ t, x.1 < t ∧ t ≤ x.2 ∧ Posted F.inverted t d) ↔ ∃ c, (d, c) ∈ C ∧ ∃ y ∈ c, y ∈ slice F.terms x := by
  constructor
  · rintro ⟨t, t1, t2, ht⟩
    obtain ⟨y, hy, rfl, c, hc, hyc⟩ := h.posted_iff.mp ht
    exact ⟨c, hc, y, hyc, (mem_slice h.files.terms).mpr ⟨hy, t1, t2⟩⟩
  · rintro ⟨c, hc, y, hyc, hy⟩
    obtain ⟨h1, h2, h3⟩ := (mem_slice h.files.terms).mp hy
    exact ⟨_, h2, h3, h.posted_iff.mpr ⟨y, h1, rfl, c, hc, hyc⟩⟩

theorem Ready.inRange_iff {last : Str} {b e : Nat} (hr : LastRange C F last b e) {x : Nat × Nat} {d : Nat} :
    InRange F.inverted x.1 x.2 (b + 1) (e + 1) d ↔ ∃ c, (d, c) ∈ C ∧ FoundIn C last (slice F.terms x) c := by
  constructor
  · rintro ⟨t, t1, t2, t3, t4, ht⟩
    obtain ⟨y, hy, rfl, c, hc, hyc⟩ := h.posted_iff.mp ht
    exact ⟨c, hc, y, hyc, (mem_slice h.files.terms).mpr ⟨hy, t1, t2⟩, (hr.rank hy).mp ⟨t3, t4⟩⟩
  · rintro ⟨c, hc, y, hyc, hy, hre⟩
    obtain ⟨h1, h2, h3⟩ := (mem_slice h.files.terms).mp hy
    obtain ⟨h4, h5⟩ := (hr.rank h1).mpr hre
    exact ⟨_, h2, h3, h4, h5, h.posted_iff.mpr ⟨y, h1, rfl, c, hc, hyc⟩⟩

theorem Ready.visited_iff {last : Str} {b e : Nat} (hr : LastRange C F last b e) {x : Nat × Nat} (hlt : x.1 < x.2) (hle : x.2 ≤ F.terms.length) :
    (b + 1 ≤ x.2 ∧ (x.1 < b + 1 ∨ x.1 + 1 < e + 1)) ↔ Looked C last (slice F.terms x) := by
  have hbe := hr.le
  have hel := hr.lt
  have s := h.files.terms
  have key : ∀ i (hi : i < F.terms.length), F.terms[i] ∈ slice F.terms x ↔ x.1 ≤ i ∧ i < x.2 := by
    intro i hi
    rw [mem_slice s, rankOf_getElem s hi]
    constructor
    · rintro ⟨_, _, _⟩; omega
    · rintro ⟨_, _⟩; exact ⟨List.getElem_mem hi, by omega, by omega⟩
  have hT : ∀ {y}, y ∈ F.terms → IsTerm C y := fun hy => (h.isTerm _).mpr hy
  constructor
  · rintro ⟨h1, h2⟩
    by_cases hb : x.1 ≤ b
    · refine ⟨F.terms[b], (key b (by omega)).mpr ⟨hb, by omega⟩, hT (List.getElem_mem _), (hr.iff b (by omega)).mp ⟨Nat.le_refl _, hbe⟩, Or.inl ?_⟩
      refine ⟨hT (List.getElem_mem _), (hr.iff b (by omega)).mp ⟨Nat.le_refl _, hbe⟩, ?_⟩
      intro y hy hre hlt
      have hy' := (h.isTerm y).mp hy
      have h3 := (hr.rank hy').mpr hre
      have h4 := (rankOf_lt s hy' (List.getElem_mem (by omega : b < F.terms.length))).mpr hlt
      rw [rankOf_getElem s] at h4
      omega
    · refine ⟨F.terms[x.1], (key x.1 (by omega)).mpr ⟨Nat.le_refl _, by omega⟩, hT (List.getElem_mem _), (hr.iff x.1 (by omega)).mp ⟨by omega, by omega⟩,
        Or.inr ⟨F.terms[e], hT (List.getElem_mem _), (hr.iff e hel).mp ⟨hbe, Nat.le_refl _⟩, ?_⟩⟩
      rw [← rankOf_lt s (List.getElem_mem _) (List.getElem_mem _), rankOf_getElem s, rankOf_getElem s]
      omega
  · rintro ⟨y, hy, hyT, hre, hcase⟩
    obtain ⟨h1, h2, h3⟩ := (mem_slice s).mp hy
    obtain ⟨h4, h5⟩ := (hr.rank h1).mpr hre
    refine ⟨by omega, ?_⟩
    rcases hcase with ⟨_, _, hfirst⟩ | ⟨z, hz, hrz, hlt⟩
    · left
      have h6 := hfirst F.terms[b] (hT (List.getElem_mem _)) ((hr.iff b (by omega)).mp ⟨Nat.le_refl _, hbe⟩)
      rw [← rankOf_lt s (List.getElem_mem _) h1, rankOf_getElem s] at h6
      omega
    · right
      have hz' := (h.isTerm z).mp hz
      have h6 := (hr.rank hz').mpr hrz
      have h7 := (rankOf_lt s h1 hz').mpr hlt
      omega

theorem Ready.lengths : F.inverted.map List.length = F.terms.map (fun t => (C.filter (fun r => decide (t ∈ r.2))).length) := by
  apply List.ext_getElem
  · rw [List.length_map, List.length_map, h.files.numLists]
  · intro i h1 h2
    rw [List.length_map] at h1 h2
    rw [List.getElem_map, List.getElem_map]
    have hs := h.files.sortedList i h2
    have hm := fun d => h.files.memList i d h2
    rw [h.getD_terms h2] at hm
    rw [List.getD_eq_getElem?_getD, List.getElem?_eq_getElem h1] at hs hm
    simp only [Option.getD_some] at hs hm
    rw [← List.length_map (f := fun r : Nat × List Str => r.1)]
    have n1 : (F.inverted[i]).Nodup := hs.imp Nat.ne_of_lt
    have n2 : ((C.filter (fun r => decide (F.terms[i] ∈ r.2))).map (fun r : Nat × List Str => r.1)).Nodup :=
      h.coll.docs.sublist (List.filter_sublist.map _)
    have hiff : ∀ d, d ∈ F.inverted[i] ↔ d ∈ (C.filter (fun r => decide (F.terms[i] ∈ r.2))).map (fun r : Nat × List Str => r.1) := by
      intro d
      rw [hm, List.mem_map]
      constructor
      · rintro ⟨c, hc, ht⟩
        exact ⟨(d, c), List.mem_filter.mpr ⟨hc, by simpa using ht⟩, rfl⟩
      · rintro ⟨r, hr, rfl⟩
        obtain ⟨a, b⟩ := List.mem_filter.mp hr
        exact ⟨r.2, a, by simpa using b⟩
    have a := nodup_subset_length' n1 (fun d hd => (hiff d).mp hd)
    have b := nodup_subset_length' n2 (fun d hd => (hiff d).mpr hd)
    omega

theorem Ready.postings_eq (lo hi : Nat) : postingsIn F.inverted lo hi = postings C (slice F.terms (lo, hi)) := by
  unfold postingsIn postings slice
  dsimp only
  rw [List.map_drop, List.map_take, List.map_drop, List.map_take, h.lengths]

end

theorem slice_dropLast {T : List Str} {lo hi : Nat} (h2 : hi ≤ T.length) : (slice T (lo, hi)).dropLast = slice T (lo, hi - 1) := by
  unfold slice
  dsimp only
  rw [List.dropLast_eq_take, List.length_drop, List.length_take, Nat.min_eq_left h2, List.drop_take, List.drop_take, List.take_take]
  congr 1
  omega


/-- the blocks of terms between the bounds -/
def blocksOf (T : List Str) (bounds : List Nat) : List (List Str) := ((0 :: bounds).zip bounds).map (slice T)

theorem mem_zip_self {α : Type} {a : α} {bs : List α} {x : α × α} (h : x ∈ (a :: bs).zip bs) :
    ∃ j : Nat, (a :: bs)[j]? = some x.1 ∧ bs[j]? = some x.2 := by
  obtain ⟨j, hj⟩ := List.mem_iff_getElem?.mp h
  rw [List.getElem?_zip_eq_some] at hj
  exact ⟨j, hj⟩

theorem Spec.IsCut.pair {lists : List (List Nat)} {m : Nat} {bounds : List Nat} (hc : IsCut lists m bounds) {x : Nat × Nat}
    (hx : x ∈ (0 :: bounds).zip bounds) : x.1 < x.2 ∧ x.2 ≤ lists.length := by
  obtain ⟨j, h1, h2⟩ := mem_zip_self hx
  constructor
  · obtain ⟨a1, a2⟩ := List.getElem?_eq_some_iff.mp h1
    obtain ⟨b1, b2⟩ := List.getElem?_eq_some_iff.mp h2
    have := List.pairwise_iff_getElem.mp hc.incr j (j + 1) a1 (by simpa using b1) (by omega)
    rw [List.getElem_cons_succ, a2, b2] at this
    exact this
  · obtain ⟨b1, b2⟩ := List.getElem?_eq_some_iff.mp h2
    have hl := hc.last
    rw [List.getLast?_eq_getElem?] at hl
    obtain ⟨c1, c2⟩ := List.getElem?_eq_some_iff.mp hl
    by_cases he : j = bounds.length - 1
    · subst he; omega
    · have := List.pairwise_iff_getElem.mp (List.pairwise_cons.mp hc.incr).2 j (bounds.length - 1) b1 c1 (by omega)
      omega

theorem slice_ne {T : List Str} {x : Nat × Nat} (h1 : x.1 < x.2) (h2 : x.2 ≤ T.length) : slice T x ≠ [] := by
  intro he
  have := congrArg List.length he
  unfold slice at this
  rw [List.length_drop, List.length_take, List.length_nil] at this
  omega

theorem mem_dropLast_getElem? {α : Type} {l : List α} {x : α} (h : x ∈ l.dropLast) : ∃ j, j + 1 < l.length ∧ l[j]? = some x := by
  obtain ⟨j, hj⟩ := List.mem_iff_getElem?.mp h
  obtain ⟨h1, h2⟩ := List.getElem?_eq_some_iff.mp hj
  rw [List.length_dropLast] at h1
  rw [List.getElem_dropLast] at h2
  exact ⟨j, by omega, by rw [← h2]; exact List.getElem?_eq_getElem _⟩

theorem Ready.blocks {C : Coll} {F : Files} (h : Ready C F) {m : Nat} {bounds : List Nat} (hc : IsCut F.inverted m bounds) :
    IsBlocks C m (blocksOf F.terms bounds) := by
  have hlast : (0 :: bounds).getLast? = some F.terms.length := by
    have := hc.last
    rw [h.files.numLists] at this
    cases bounds with
    | nil => simp at this
    | cons b bs => rw [List.getLast?_cons_cons]; exact this
  have hflat : (blocksOf F.terms bounds).flatten = F.terms := by
    unfold blocksOf
    rw [slices_flatten _ _ _ hc.incr hlast]; rfl
  have hz : ((0 :: bounds).zip bounds).length = bounds.length := by rw [List.length_zip, List.length_cons]; omega
  refine ⟨by rw [hflat]; exact h.files.terms, fun t => by rw [hflat]; exact (h.isTerm t).symm, ?_, ?_, ?_⟩
  · intro b hb
    obtain ⟨x, hx, rfl⟩ := List.mem_map.mp hb
    obtain ⟨h1, h2⟩ := hc.pair hx
    rw [h.files.numLists] at h2
    exact slice_ne h1 h2
  · intro b hb
    obtain ⟨j, hj, hb⟩ := mem_dropLast_getElem? hb
    unfold blocksOf at hj hb
    rw [List.length_map, hz] at hj
    rw [List.getElem?_map] at hb
    obtain ⟨x, hx, rfl⟩ := Option.map_eq_some_iff.mp hb
    rw [List.getElem?_zip_eq_some] at hx
    rcases hc.full j x.1 x.2 hx.1 hx.2 with hf | hf
    · rw [h.postings_eq] at hf; exact hf
    · exfalso
      obtain ⟨b1, b2⟩ := List.getElem?_eq_some_iff.mp hx.2
      have hl := hc.last
      rw [List.getLast?_eq_getElem?] at hl
      obtain ⟨c1, c2⟩ := List.getElem?_eq_some_iff.mp hl
      have := List.pairwise_iff_getElem.mp (List.pairwise_cons.mp hc.incr).2 j (bounds.length - 1) b1 c1 (by omega)
      omega
  · intro b hb
    obtain ⟨x, hx, rfl⟩ := List.mem_map.mp hb
    obtain ⟨h1, h2⟩ := hc.pair hx
    rw [h.files.numLists] at h2
    obtain ⟨j, g1, g2⟩ := mem_zip_self hx
    rw [show slice F.terms x = slice F.terms (x.1, x.2) from rfl, slice_dropLast h2]
    by_cases he : x.1 < x.2 - 1
    · right
      have := hc.least j x.1 x.2 g1 g2 (x.2 - 1) he (by omega)
      rwa [h.postings_eq] at this
    · left
      unfold slice
      dsimp only
      apply List.drop_eq_nil_of_le
      rw [List.length_take]; omega

end AC
