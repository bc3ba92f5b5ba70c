import Verif.Proofs.InvertedIndex
import Verif.Proofs.CompactVector
import Verif.Proofs.Parse
import Verif.Model.BlockedIndex
/-!
# What a block is, and how its three parts are stored
-/
namespace AC

/-! ## Items stored one after the other in a bit vector, with pointers -/

/-- `P bits p e x` says that `x` occupies the bits from `p` to `e`; it is insensitive to the other bits -/
def Local {α : Type} (P : List W → Nat → Nat → α → Prop) : Prop :=
  ∀ bits bits' p e x, P bits p e x → e ≤ 64 * bits'.length → (∀ i, i < e → bitAt bits' i = bitAt bits i) → P bits' p e x

/-- the items are stored one after the other; there is a pointer to each of them and to the end -/
structure Store {α : Type} (P : List W → Nat → Nat → α → Prop) (w : α → Nat) (b : BVB) (ptrs : List Nat) (items : List α) : Prop where
  wf : b.WF
  len : ptrs.length = items.length + 1
  last : ptrs[items.length]? = some b.size
  sorted : ptrs.Pairwise (· ≤ ·)
  at' : ∀ (i : Nat) (x : α), items[i]? = some x → ∃ p e, ptrs[i]? = some p ∧ P b.bits p e x ∧ e ≤ b.size
  size : b.size ≤ (items.map w).sum

theorem Store.empty {α : Type} (P : List W → Nat → Nat → α → Prop) (w : α → Nat) : Store P w BVB.empty [0] [] :=
  ⟨BVB.empty_wf, rfl, rfl, by simp, by intro i x h; simp at h, by simp [BVB.empty]⟩

theorem Store.le_size {α : Type} {P : List W → Nat → Nat → α → Prop} {w : α → Nat} {b : BVB} {ptrs : List Nat} {items : List α}
    (h : Store P w b ptrs items) : ∀ p ∈ ptrs, p ≤ b.size := by
  intro p hp
  obtain ⟨i, hi, rfl⟩ := List.getElem_of_mem hp
  have hl := h.last
  obtain ⟨hi2, he⟩ := List.getElem?_eq_some_iff.mp hl
  have := h.len
  rcases Nat.lt_or_ge i items.length with hc | hc
  · have := List.pairwise_iff_getElem.mp h.sorted i items.length hi hi2 hc
    omega
  · have : i = items.length := by omega
    subst this; omega

theorem Store.snoc {α : Type} {P : List W → Nat → Nat → α → Prop} {w : α → Nat} (hP : Local P) {b b' : BVB} {ptrs : List Nat}
    {items : List α} {x : α} (h : Store P w b ptrs items) (hw : b'.WF) (hs : b.size ≤ b'.size)
    (hf : ∀ i, i < b.size → bitAt b'.bits i = bitAt b.bits i) (hx : P b'.bits b.size b'.size x) (hwx : b'.size ≤ b.size + w x) :
    Store P w b' (ptrs ++ [b'.size]) (items ++ [x]) := by
  have hlen := h.len
  refine ⟨hw, by simp [hlen], ?_, ?_, ?_, ?_⟩
  · rw [List.length_append, List.length_singleton, ← hlen, List.getElem?_concat_length]
  · rw [List.pairwise_append]
    refine ⟨h.sorted, by simp, ?_⟩
    intro a ha c hc
    rw [List.mem_singleton.mp hc]
    have := h.le_size a ha
    omega
  · intro i y hy
    have hlt : i < (items ++ [x]).length := (List.getElem?_eq_some_iff.mp hy).1
    simp only [List.length_append, List.length_singleton] at hlt
    by_cases hi : i < items.length
    · rw [List.getElem?_append_left hi] at hy
      obtain ⟨p, e, p1, p2, p3⟩ := h.at' i y hy
      refine ⟨p, e, ?_, hP _ _ _ _ _ p2 (by have := wf_room hw; omega) (fun j hj => hf j (by omega)), by omega⟩
      rw [List.getElem?_append_left (by omega)]; exact p1
    · have hi' : i = items.length := by omega
      subst hi'
      rw [List.getElem?_concat_length] at hy
      cases hy
      refine ⟨b.size, b'.size, ?_, hx, Nat.le_refl _⟩
      rw [List.getElem?_append_left (by omega)]; exact h.last
  · have := h.size
    simp only [List.map_append, List.sum_append, List.map_cons, List.map_nil, List.sum_cons, List.sum_nil]
    omega

/-- the pointers as a sequence -/
theorem Store.pointers {α : Type} {P : List W → Nat → Nat → α → Prop} {w : α → Nat} {b : BVB} {ptrs : List Nat} {items : List α}
    (h : Store P w b ptrs items) (hne : items ≠ []) (hs : (items.map w).sum < 2 ^ 64) :
    ∃ e, EF.build (toWords ptrs.dropLast) = .ok e ∧
      ∀ (i : Nat) (x : α), items[i]? = some x → ∃ p q, e.access i = .ok p ∧ P b.bits p q x ∧ q ≤ b.size := by
  have hlen := h.len
  have hd : ptrs.dropLast.length = items.length := by simp [hlen]
  obtain ⟨e, f1, f2, f3, f4⟩ := Trie.ef_words (xs := ptrs.dropLast)
    (by intro hn; rw [hn] at hd; exact hne (List.length_eq_zero_iff.mp hd.symm))
    (fun x hx => by have := h.le_size x ((List.dropLast_sublist _).subset hx); have := h.size; omega)
    (h.sorted.sublist (List.dropLast_sublist _))
  refine ⟨e, f1, ?_⟩
  intro i x hx
  have hi : i < items.length := (List.getElem?_eq_some_iff.mp hx).1
  obtain ⟨p, q, p1, p2, p3⟩ := h.at' i x hx
  refine ⟨p, q, ?_, p2, p3⟩
  rw [f3 i (by omega)]
  obtain ⟨hi2, he⟩ := List.getElem?_eq_some_iff.mp p1
  rw [← he]
  congr 1
  rw [List.getElem_dropLast]

/-! ## The rows of a block -/

/-- prefix sums of lengths, starting at `o` -/
def offsetsFrom : List (Nat × List Nat) → Nat → List Nat
  | [], o => [o]
  | r :: rs, o => o :: offsetsFrom rs (o + r.2.length)

/-- the number of terms in the rows -/
def rowTotal (rows : List (Nat × List Nat)) : Nat := (rows.map (fun r => r.2.length)).sum

theorem offsetsFrom_length (rows : List (Nat × List Nat)) : ∀ o, (offsetsFrom rows o).length = rows.length + 1 := by
  induction rows with
  | nil => intro o; rfl
  | cons r rs ih => intro o; simp [offsetsFrom, ih]

theorem offsetsFrom_get (rows : List (Nat × List Nat)) : ∀ o i, i ≤ rows.length →
    (offsetsFrom rows o)[i]? = some (o + rowTotal (rows.take i)) := by
  induction rows with
  | nil => intro o i hi; have : i = 0 := by simpa using hi
           subst this; simp [offsetsFrom, rowTotal]
  | cons r rs ih =>
      intro o i hi
      cases i with
      | zero => simp [offsetsFrom, rowTotal]
      | succ i =>
          rw [offsetsFrom, List.getElem?_cons_succ, ih _ i (by simpa using hi)]
          simp only [List.take_succ_cons, rowTotal, List.map_cons, List.sum_cons]
          congr 1; omega

theorem rowTotal_take_le (rows : List (Nat × List Nat)) {i j : Nat} (h : i ≤ j) : rowTotal (rows.take i) ≤ rowTotal (rows.take j) := by
  obtain ⟨k, rfl⟩ := Nat.exists_eq_add_of_le h
  rw [List.take_add]
  simp [rowTotal]

theorem offsetsFrom_getLast (rows : List (Nat × List Nat)) (o : Nat) : (offsetsFrom rows o).getLastD 0 = o + rowTotal rows := by
  have h := offsetsFrom_get rows o rows.length (Nat.le_refl _)
  rw [List.take_length] at h
  rw [List.getLastD_eq_getLast?, List.getLast?_eq_getElem?, offsetsFrom_length, Nat.add_sub_cancel, h]
  rfl

theorem offsetsFrom_sorted (rows : List (Nat × List Nat)) (o : Nat) : (offsetsFrom rows o).Pairwise (· ≤ ·) := by
  rw [List.pairwise_iff_getElem]
  intro i j hi hj hij
  rw [offsetsFrom_length] at hi hj
  have h1 := offsetsFrom_get rows o i (by omega)
  have h2 := offsetsFrom_get rows o j (by omega)
  obtain ⟨_, e1⟩ := List.getElem?_eq_some_iff.mp h1
  obtain ⟨_, e2⟩ := List.getElem?_eq_some_iff.mp h2
  have := rowTotal_take_le rows (Nat.le_of_lt hij)
  omega

/-- the terms, row after row -/
def rowTerms (rows : List (Nat × List Nat)) : List Nat := rows.flatMap (·.2)

theorem rowTerms_length (rows : List (Nat × List Nat)) : (rowTerms rows).length = rowTotal rows := by
  simp [rowTerms, rowTotal, List.length_flatMap]

theorem rowTerms_get (rows : List (Nat × List Nat)) : ∀ (p : Nat) (r : Nat × List Nat), rows[p]? = some r → ∀ i, i < r.2.length →
    (rowTerms rows)[rowTotal (rows.take p) + i]? = r.2[i]? := by
  induction rows with
  | nil => intro p r h; simp at h
  | cons a rs ih =>
      intro p r h i hi
      cases p with
      | zero =>
          simp only [List.getElem?_cons_zero, Option.some.injEq] at h
          subst h
          simp only [rowTerms, List.take_zero, List.flatMap_cons, rowTotal, List.map_nil, List.sum_nil, Nat.zero_add]
          rw [List.getElem?_append_left hi]
      | succ p =>
          rw [List.getElem?_cons_succ] at h
          have := ih p r h i hi
          simp only [rowTerms, List.take_succ_cons, List.flatMap_cons, rowTotal, List.map_cons, List.sum_cons] at this ⊢
          rw [List.getElem?_append_right (by omega)]
          rw [← this]
          congr 1; omega

/-! ## The three parts -/

/-- the documents of the rows, preceded by their number in 32 bits -/
def DocsAt (u : Nat) (bits : List W) (p e : Nat) (rows : List (Nat × List Nat)) : Prop :=
  valueAt bits p 32 = rows.length ∧ CEF.Rep bits (p + 32) u (rows.map (·.1)) ∧
    e = (CEF.offsets (p + 32) u rows.length).last

/-- the offsets, preceded by their number and by their bound, each in 32 bits -/
def OffsAt (bits : List W) (p e : Nat) (rows : List (Nat × List Nat)) : Prop :=
  valueAt bits p 32 = rows.length + 1 ∧ valueAt bits (p + 32) 32 = rowTotal rows + 1 ∧
    CEF.Rep bits (p + 64) (rowTotal rows + 1) (offsetsFrom rows 0) ∧
    e = (CEF.offsets (p + 64) (rowTotal rows + 1) (rows.length + 1)).last

/-- the terms, preceded by their width in 6 bits -/
def TermsAt (bits : List W) (p e : Nat) (rows : List (Nat × List Nat)) : Prop :=
  ∃ w, 1 ≤ w ∧ w ≤ 32 ∧ valueAt bits p 6 = w ∧ e = p + 6 + rowTotal rows * w ∧
    ∀ (i t : Nat), (rowTerms rows)[i]? = some t → valueAt bits (p + 6 + i * w) w = t

theorem offsets_p0_le (base u : Nat) (vs : List Nat) (h : CEF.Valid u vs) : base ≤ (CEF.offsets base u vs.length).last := by
  have k := CEF.offsets_ok base u vs h
  obtain ⟨o1, o2, o3, o4⟩ := k.order
  have : (CEF.offsets base u vs.length).p0 = base := rfl
  omega

theorem docsAt_local (u : Nat) : Local (DocsAt u) := by
  intro bits bits' p e x ⟨h1, h2, h3⟩ he hf
  have hlen : (x.map (·.1)).length = x.length := by simp
  have hle := offsets_p0_le (p + 32) u _ h2.valid
  rw [hlen] at hle
  refine ⟨?_, h2.frame (by rw [hlen]; omega) (fun i _ hi => hf i (by rw [hlen] at hi; omega)), h3⟩
  rw [valueAt_congr bits' bits p 32 (fun j hj => hf _ (by omega))]
  exact h1

theorem offsAt_local : Local OffsAt := by
  intro bits bits' p e x ⟨h1, h1', h2, h3⟩ he hf
  have hlen := offsetsFrom_length x 0
  have hle := offsets_p0_le (p + 64) _ _ h2.valid
  rw [hlen] at hle
  refine ⟨?_, ?_, h2.frame (by rw [hlen]; omega) (fun i _ hi => hf i (by rw [hlen] at hi; omega)), h3⟩
  · rw [valueAt_congr bits' bits p 32 (fun j hj => hf _ (by omega))]; exact h1
  · rw [valueAt_congr bits' bits (p + 32) 32 (fun j hj => hf _ (by omega))]; exact h1'

theorem termsAt_local : Local TermsAt := by
  intro bits bits' p e x ⟨w, h0, h1, h2, h3, h4⟩ he hf
  refine ⟨w, h0, h1, ?_, h3, ?_⟩
  · have : 0 ≤ rowTotal x * w := Nat.zero_le _
    rw [valueAt_congr bits' bits p 6 (fun j hj => hf _ (by omega))]; exact h2
  · intro i t ht
    have hi : i < rowTotal x := by rw [← rowTerms_length]; exact (List.getElem?_eq_some_iff.mp ht).1
    have hm : (i + 1) * w ≤ rowTotal x * w := Nat.mul_le_mul_right _ hi
    rw [Nat.succ_mul] at hm
    rw [valueAt_congr bits' bits _ w (fun j hj => hf _ (by omega))]
    exact h4 i t ht

theorem ofNat_lt {x k : Nat} (hk : k ≤ 64) (hx : x < 2 ^ k) : (BitVec.ofNat 64 x : W).toNat = x := by
  have : 2 ^ k ≤ 2 ^ 64 := Nat.pow_le_pow_right (by omega) hk
  rw [BitVec.toNat_ofNat, Nat.mod_eq_of_lt (by omega)]

theorem appendBits_value (v : BVB) {x len : Nat} (h : v.WF) (hl : len ≤ 64) (hx : x < 2 ^ len) :
    (v.appendBits (BitVec.ofNat 64 x) len).WF ∧ (v.appendBits (BitVec.ofNat 64 x) len).size = v.size + len ∧
    (∀ i, i < v.size → bitAt (v.appendBits (BitVec.ofNat 64 x) len).bits i = bitAt v.bits i) ∧
    valueAt (v.appendBits (BitVec.ofNat 64 x) len).bits v.size len = x := by
  have hx' : (BitVec.ofNat 64 x : W).toNat < 2 ^ len := by rw [ofNat_lt hl hx]; exact hx
  refine ⟨v.appendBits_wf _ _ h hl hx', v.appendBits_size _ _, ?_, ?_⟩
  · intro i hi
    rw [v.appendBits_bitAt _ _ h hl hx', if_neg (by omega)]
  · apply valueAt_eq hx
    intro j hj
    rw [v.appendBits_bitAt _ _ h hl hx', if_pos (by omega), Nat.add_sub_cancel_left, ← BitVec.testBit_toNat, ofNat_lt hl hx]

/-- writing the documents -/
theorem storeDocs (b : BVB) (u : Nat) (rows : List (Nat × List Nat)) (hw : b.WF) (h : CEF.Valid u (rows.map (·.1)))
    (hs : rows.length < 2 ^ 32) :
    ∃ b', CEF.build (b.appendBits (BitVec.ofNat 64 rows.length) 32) u (rows.map (·.1)) = .ok b' ∧ b'.WF ∧ b.size ≤ b'.size ∧
      (∀ i, i < b.size → bitAt b'.bits i = bitAt b.bits i) ∧ DocsAt u b'.bits b.size b'.size rows ∧
      b'.size ≤ b.size + (128 * rows.length + 160) := by
  obtain ⟨a1, a2, a3, a4⟩ := appendBits_value b (x := rows.length) (len := 32) hw (by omega) hs
  obtain ⟨b2, f1, f2, f3, f4, f5, f6⟩ := CEF.build_spec _ u _ a1 h
  have hb := offsets_last_le (base := b.size + 32) h
  rw [List.length_map] at hb
  refine ⟨b2, f1, f2, by omega, fun i hi => by rw [f5 i (by omega), a3 i hi], ⟨?_, by rw [← a2]; exact f6, ?_⟩, ?_⟩
  · rw [valueAt_congr b2.bits _ b.size 32 (fun j hj => f5 _ (by omega))]; exact a4
  · rw [f3, a2, List.length_map]
  · rw [f3, a2, List.length_map]; omega

theorem offsets_valid (rows : List (Nat × List Nat)) (h : rowTotal rows + rows.length + 4 ≤ 2 ^ 56) :
    CEF.Valid (rowTotal rows + 1) (offsetsFrom rows 0) := by
  refine ⟨?_, offsetsFrom_sorted rows 0, ?_, by rw [offsetsFrom_length]; omega⟩
  · intro hn
    have := offsetsFrom_length rows 0
    rw [hn] at this; simp at this
  · intro x hx
    obtain ⟨i, hi, rfl⟩ := List.getElem_of_mem hx
    rw [offsetsFrom_length] at hi
    obtain ⟨_, e⟩ := List.getElem?_eq_some_iff.mp (offsetsFrom_get rows 0 i (by omega))
    have := rowTotal_take_le rows (i := i) (j := rows.length) (by omega)
    rw [List.take_length] at this
    omega

/-- writing the offsets -/
theorem storeOffs (b : BVB) (rows : List (Nat × List Nat)) (hw : b.WF) (h : rowTotal rows + 1 < 2 ^ 32) (hs : rows.length + 1 < 2 ^ 32) :
    ∃ b', CEF.build ((b.appendBits (BitVec.ofNat 64 (offsetsFrom rows 0).length) 32).appendBits
        (BitVec.ofNat 64 ((offsetsFrom rows 0).getLastD 0 + 1)) 32) ((offsetsFrom rows 0).getLastD 0 + 1) (offsetsFrom rows 0) = .ok b' ∧
      b'.WF ∧ b.size ≤ b'.size ∧ (∀ i, i < b.size → bitAt b'.bits i = bitAt b.bits i) ∧ OffsAt b'.bits b.size b'.size rows ∧
      b'.size ≤ b.size + (128 * rows.length + 320) := by
  have hv := offsets_valid rows (by omega)
  rw [offsetsFrom_length, offsetsFrom_getLast, Nat.zero_add]
  obtain ⟨a1, a2, a3, a4⟩ := appendBits_value b (x := rows.length + 1) (len := 32) hw (by omega) hs
  obtain ⟨c1, c2, c3, c4⟩ := appendBits_value (b.appendBits (BitVec.ofNat 64 (rows.length + 1)) 32) (x := rowTotal rows + 1) (len := 32)
    a1 (by omega) h
  obtain ⟨b2, f1, f2, f3, f4, f5, f6⟩ := CEF.build_spec _ _ _ c1 hv
  have hb := offsets_last_le (base := b.size + 64) hv
  rw [offsetsFrom_length] at hb f3
  have e64 : (b.appendBits (BitVec.ofNat 64 (rows.length + 1)) 32).size + 32 = b.size + 64 := by rw [a2]
  rw [c2, e64] at f3 f4 f6
  refine ⟨b2, f1, f2, by omega, ?_, ⟨?_, ?_, f6, f3⟩, by omega⟩
  · intro i hi
    rw [f5 i (by omega), c3 i (by omega), a3 i hi]
  · rw [valueAt_congr b2.bits (b.appendBits (BitVec.ofNat 64 (rows.length + 1)) 32).bits b.size 32
      (fun j hj => by rw [f5 _ (by omega), c3 _ (by omega)])]
    exact a4
  · rw [valueAt_congr b2.bits _ (b.size + 32) 32 (fun j hj => f5 _ (by omega)), ← a2]
    exact c4

theorem appendAll_spec (w : Nat) (hw : w ≤ 64) : ∀ (ts : List Nat) (b : BVB), b.WF → (∀ t ∈ ts, t < 2 ^ w) →
    (BlkBuilder.appendAll w ts b).WF ∧ (BlkBuilder.appendAll w ts b).size = b.size + ts.length * w ∧
    (∀ i, i < b.size → bitAt (BlkBuilder.appendAll w ts b).bits i = bitAt b.bits i) ∧
    ∀ (i t : Nat), ts[i]? = some t → valueAt (BlkBuilder.appendAll w ts b).bits (b.size + i * w) w = t := by
  intro ts
  induction ts with
  | nil => intro b hb _; exact ⟨hb, by simp [BlkBuilder.appendAll], fun _ _ => rfl, by intro i t h; simp at h⟩
  | cons x xs ih =>
      intro b hb hv
      obtain ⟨a1, a2, a3, a4⟩ := appendBits_value b (x := x) (len := w) hb hw (hv x (List.mem_cons_self ..))
      obtain ⟨c1, c2, c3, c4⟩ := ih _ a1 (fun t ht => hv t (List.mem_cons_of_mem _ ht))
      unfold BlkBuilder.appendAll
      refine ⟨c1, ?_, fun i hi => by rw [c3 i (by omega), a3 i hi], ?_⟩
      · rw [c2, a2, List.length_cons, Nat.succ_mul]; omega
      · intro i t ht
        cases i with
        | zero =>
            rw [List.getElem?_cons_zero, Option.some.injEq] at ht
            subst ht
            rw [Nat.zero_mul, Nat.add_zero, valueAt_congr _ _ b.size w (fun j hj => c3 _ (by omega))]
            exact a4
        | succ i =>
            rw [List.getElem?_cons_succ] at ht
            have := c4 i t ht
            rw [a2] at this
            rw [Nat.succ_mul, show b.size + (i * w + w) = b.size + w + i * w by omega]
            exact this

theorem foldl_max (ts : List Nat) : ∀ x, x ≤ ts.foldl max x ∧ (∀ t ∈ ts, t ≤ ts.foldl max x) ∧ ∀ y, x ≤ y → (∀ t ∈ ts, t ≤ y) → ts.foldl max x ≤ y := by
  induction ts with
  | nil => intro x; exact ⟨Nat.le_refl _, by simp, fun y hy _ => hy⟩
  | cons a ts ih =>
      intro x
      obtain ⟨h1, h2, h3⟩ := ih (max x a)
      rw [List.foldl_cons]
      refine ⟨by omega, ?_, ?_⟩
      · intro t ht
        rcases List.mem_cons.mp ht with rfl | ht
        · omega
        · exact h2 t ht
      · intro y hy hts
        exact h3 y (by have := hts a (List.mem_cons_self ..); omega) (fun t ht => hts t (List.mem_cons_of_mem _ ht))

/-- writing the terms -/
theorem storeTerms (b : BVB) (rows : List (Nat × List Nat)) (hb : b.WF) (hne : rowTerms rows ≠ []) (hs : ∀ t ∈ rowTerms rows, t + 1 < 2 ^ 32) :
    ∃ mx, BlkBuilder.maxElement (rowTerms rows) = .ok mx ∧
      ∃ b', b' = BlkBuilder.appendAll (BlkBuilder.widthFor mx) (rowTerms rows)
          (b.appendBits (BitVec.ofNat 64 (BlkBuilder.widthFor mx)) 6) ∧ b'.WF ∧ b.size ≤ b'.size ∧
        (∀ i, i < b.size → bitAt b'.bits i = bitAt b.bits i) ∧ TermsAt b'.bits b.size b'.size rows ∧
        b'.size ≤ b.size + (6 + 32 * rowTotal rows) := by
  obtain ⟨x, xs, hx⟩ : ∃ x xs, rowTerms rows = x :: xs := by
    cases h : rowTerms rows with
    | nil => exact absurd h hne
    | cons x xs => exact ⟨x, xs, rfl⟩
  obtain ⟨m1, m2, m3⟩ := foldl_max xs x
  have hmx : xs.foldl max x + 1 ≤ 2 ^ 32 := by
    have := m3 (2 ^ 32 - 2) (by have := hs x (by rw [hx]; simp); omega)
      (fun t ht => by have := hs t (by rw [hx]; exact List.mem_cons_of_mem _ ht); omega)
    omega
  refine ⟨xs.foldl max x, by rw [hx]; rfl, _, rfl, ?_⟩
  have hc := ceilLog2_le (xs.foldl max x + 1) 32 hmx
  have hl := lt_two_pow_ceilLog2 (xs.foldl max x + 1) (by omega)
  obtain ⟨w1, w2, w3⟩ : 1 ≤ BlkBuilder.widthFor (xs.foldl max x) ∧ BlkBuilder.widthFor (xs.foldl max x) ≤ 32 ∧
      xs.foldl max x + 1 ≤ 2 ^ BlkBuilder.widthFor (xs.foldl max x) := by
    unfold BlkBuilder.widthFor
    split
    · rename_i h0
      rw [h0] at hl
      refine ⟨by omega, by omega, by omega⟩
    · exact ⟨by omega, hc, hl⟩
  generalize BlkBuilder.widthFor (xs.foldl max x) = w at *
  obtain ⟨a1, a2, a3, a4⟩ := appendBits_value b (x := w) (len := 6) hb (by omega) (by omega)
  have hall : ∀ t ∈ rowTerms rows, t < 2 ^ w := by
    intro t ht
    rw [hx] at ht
    rcases List.mem_cons.mp ht with rfl | ht
    · omega
    · have := m2 t ht; omega
  obtain ⟨c1, c2, c3, c4⟩ := appendAll_spec w (by omega) (rowTerms rows) _ a1 hall
  have hr : rowTotal rows * w ≤ rowTotal rows * 32 := Nat.mul_le_mul_left _ w2
  rw [a2, rowTerms_length] at c2
  refine ⟨c1, by omega, fun i hi => by rw [c3 i (by omega), a3 i hi], ⟨w, w1, w2, ?_, c2, ?_⟩, by omega⟩
  · rw [valueAt_congr _ _ b.size 6 (fun j hj => c3 _ (by omega))]; exact a4
  · intro i t ht
    have := c4 i t ht
    rw [a2] at this; exact this

end AC
