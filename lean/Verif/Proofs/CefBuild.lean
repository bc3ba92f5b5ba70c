import Verif.Model.CompactEf
import Verif.Proofs.EliasFano
import Verif.Proofs.CompactVector
/-! # Building Elias-Fano lists inside a shared bit vector -/
namespace AC.CEF

/-- position, among the high bits, of the one of element `j` -/
def hi (l : Nat) (vs : List Nat) (j : Nat) : Nat := vs.getD j 0 / 2 ^ l + j + 1

/-- the first `r` elements, and no more, have a high part below `z` -/
structure Split (l : Nat) (vs : List Nat) (z r : Nat) : Prop where
  le : r ≤ vs.length
  lt : ∀ j, j < r → vs.getD j 0 / 2 ^ l < z
  ge : ∀ j, r ≤ j → j < vs.length → z ≤ vs.getD j 0 / 2 ^ l

/-- what the list needs to be stored -/
structure Valid (u : Nat) (vs : List Nat) : Prop where
  ne : vs ≠ []
  sorted : vs.Pairwise (· ≤ ·)
  bound : ∀ v ∈ vs, v ≤ u
  small : vs.length + u + 2 ≤ 2 ^ 56

theorem Valid.le {u : Nat} {vs : List Nat} (h : Valid u vs) {i j : Nat} (hij : i ≤ j) (hj : j < vs.length) :
    vs.getD i 0 ≤ vs.getD j 0 := by
  rw [List.getD_eq_getElem?_getD, List.getD_eq_getElem?_getD, List.getElem?_eq_getElem (by omega),
    List.getElem?_eq_getElem hj]
  simp only [Option.getD_some]
  rcases Nat.lt_or_eq_of_le hij with h1 | h1
  · exact List.pairwise_iff_getElem.mp h.sorted i j (by omega) hj h1
  · subst h1; exact Nat.le_refl _

theorem Valid.le_u {u : Nat} {vs : List Nat} (h : Valid u vs) {j : Nat} (hj : j < vs.length) : vs.getD j 0 ≤ u := by
  rw [List.getD_eq_getElem?_getD, List.getElem?_eq_getElem hj]
  exact h.bound _ (List.getElem_mem hj)

theorem hi_lt {u : Nat} {vs : List Nat} (h : Valid u vs) (l : Nat) {i j : Nat} (hij : i < j) (hj : j < vs.length) :
    hi l vs i < hi l vs j := by
  unfold hi
  have := Nat.div_le_div_right (c := 2 ^ l) (h.le (Nat.le_of_lt hij) hj)
  omega

/-- facts about the layout -/
structure OffOk (o : Off) (vs : List Nat) : Prop where
  n : o.n = vs.length
  hlen : o.hlen = vs.length + o.univ / 2 ^ o.l + 2
  p1 : o.p1 = o.p0 + (o.hlen - vs.length) / 512 * o.psize
  hb : o.hb = o.p1 + vs.length / 256 * o.psize
  lo : o.lo = o.hb + o.hlen
  last : o.last = o.lo + vs.length * o.l
  l56 : o.l < 56
  ps56 : o.psize ≤ 56
  ps0 : 0 < o.psize
  hlen2 : o.hlen ≤ 2 ^ o.psize

theorem offsets_ok (base u : Nat) (vs : List Nat) (h : Valid u vs) : OffOk (offsets base u vs.length) vs := by
  have hs := h.small
  have h56 : (offsets base u vs.length).hlen ≤ 2 ^ 56 := by
    simp only [offsets]
    have := Nat.div_le_self u (2 ^ lowerBits u vs.length)
    omega
  refine ⟨rfl, rfl, rfl, rfl, rfl, rfl, ?_, ceilLog2_le _ _ h56, 
    ceilLog2_pos (offsets base u vs.length).hlen (Nat.le_add_left 2 _),
    lt_two_pow_ceilLog2 (offsets base u vs.length).hlen (Nat.le_trans (by omega) (Nat.le_add_left 2 _))⟩
  show lowerBits u vs.length < 56
  unfold lowerBits msbNat
  split
  · rename_i hu
    have hn : 0 < vs.length := List.length_pos_iff.mpr h.ne
    have h1 : u / vs.length ≤ u := Nat.div_le_self _ _
    have h2 : u / vs.length ≠ 0 := by
      have := (Nat.one_le_div_iff hn).mpr (show vs.length ≤ u by omega)
      omega
    rw [Nat.log2_lt h2]; omega
  · omega

theorem OffOk.hi_lt {o : Off} {vs : List Nat} (k : OffOk o vs) (h : Valid o.univ vs) {j : Nat} (hj : j < vs.length) :
    hi o.l vs j + 1 < o.hlen := by
  have := Nat.div_le_div_right (c := 2 ^ o.l) (h.le_u hj)
  have := k.hlen
  unfold hi; omega

/-- bits outside `[x, y)` are left alone -/
structure Wr (b b' : BVB) (x y : Nat) : Prop where
  wf : b.WF → b'.WF
  size : b'.size = b.size
  out : ∀ i, i < x ∨ y ≤ i → bitAt b'.bits i = bitAt b.bits i

theorem Wr.rfl' (b : BVB) (x y : Nat) : Wr b b x y := ⟨id, rfl, fun _ _ => rfl⟩

theorem Wr.trans {a b c : BVB} {x y : Nat} (h1 : Wr a b x y) (h2 : Wr b c x y) : Wr a c x y :=
  ⟨fun h => h2.wf (h1.wf h), by rw [h2.size, h1.size], fun i hi => by rw [h2.out i hi, h1.out i hi]⟩

theorem Wr.mono {a b : BVB} {x y x' y' : Nat} (h : Wr a b x y) (h1 : x' ≤ x) (h2 : y ≤ y') : Wr a b x' y' :=
  ⟨h.wf, h.size, fun i hi => h.out i (by omega)⟩

theorem Wr.value {a b : BVB} {x y p len : Nat} (h : Wr a b x y) (hd : p + len ≤ x ∨ y ≤ p) :
    valueAt b.bits p len = valueAt a.bits p len :=
  valueAt_congr _ _ _ _ fun j hj => h.out _ (by omega)

theorem setBits_wr (b : BVB) (pos : Nat) (x : W) (len : Nat) (hw : b.WF) (hp : pos + len ≤ b.size)
    (hl : len ≤ 64) (hx : x.toNat < 2 ^ len) :
    ∃ r, b.setBits pos x len = .ok r ∧ Wr b r pos (pos + len) ∧ valueAt r.bits pos len = x.toNat := by
  have hlen := hw.len
  unfold wordsFor at hlen
  obtain ⟨r, r1, r2, r3, r4⟩ := b.setBits_spec pos x len (by omega) hl hx
  refine ⟨r, r1, ⟨fun _ => ⟨by rw [r3, r2]; exact hw.len, ?_⟩, r2, ?_⟩, ?_⟩
  · intro i hi
    rw [r4 i, if_neg (by omega), hw.pad i (by omega)]
  · intro i hi
    rw [r4 i, if_neg (by omega)]
  · apply valueAt_eq hx
    intro j hj
    rw [r4 _, if_pos (by omega), Nat.add_sub_cancel_left, BitVec.testBit_toNat]

/-- the bits of the high parts of the first `i` elements -/
def High (o : Off) (vs : List Nat) (i : Nat) (b : List W) : Prop :=
  ∀ q, q < o.hlen → (bitAt b (o.hb + q) = true ↔ ∃ j, j < i ∧ q = hi o.l vs j)

/-- the low parts of the first `i` elements -/
def Low (o : Off) (vs : List Nat) (i : Nat) (b : List W) : Prop :=
  ∀ j, j < i → valueAt b (o.lo + j * o.l) o.l = vs.getD j 0 % 2 ^ o.l

/-- the pointers to the ones of the first `i` elements -/
def P1 (o : Off) (vs : List Nat) (i : Nat) (b : List W) : Prop :=
  ∀ p, 0 < p → p * 256 < i → valueAt b (o.p1 + (p - 1) * o.psize) o.psize = hi o.l vs (p * 256)

/-- the pointers to the first `z` zeros -/
def P0 (o : Off) (vs : List Nat) (z : Nat) (b : List W) : Prop :=
  ∀ p, 0 < p → p * 512 < z →
    ∃ r, Split o.l vs (p * 512) r ∧ valueAt b (o.p0 + (p - 1) * o.psize) o.psize = p * 512 + r

theorem mul_pred (p w : Nat) (h : 0 < p) : (p - 1) * w + w = p * w := by
  rw [← Nat.succ_mul]; congr 1; omega

theorem p0_room {o : Off} {vs : List Nat} (k : OffOk o vs) (p : Nat) (h0 : 0 < p) (h : p * 512 < o.hlen - vs.length) :
    o.p0 + (p - 1) * o.psize + o.psize ≤ o.p1 := by
  have h1 := mul_pred p o.psize h0
  have h2 : p * o.psize ≤ (o.hlen - vs.length) / 512 * o.psize := Nat.mul_le_mul_right _ (by omega)
  have := k.p1
  omega

theorem p1_room {o : Off} {vs : List Nat} (k : OffOk o vs) (p : Nat) (h0 : 0 < p) (h : p * 256 < vs.length) :
    o.p1 + (p - 1) * o.psize + o.psize ≤ o.hb := by
  have h1 := mul_pred p o.psize h0
  have h2 : p * o.psize ≤ vs.length / 256 * o.psize := Nat.mul_le_mul_right _ (by omega)
  have := k.hb
  omega

theorem low_room {o : Off} {vs : List Nat} (k : OffOk o vs) (j : Nat) (h : j < vs.length) :
    o.lo + j * o.l + o.l ≤ o.last := by
  have h2 : (j + 1) * o.l ≤ vs.length * o.l := Nat.mul_le_mul_right _ (by omega)
  rw [Nat.succ_mul] at h2
  have := k.last
  omega

theorem pred_disjoint (p q w : Nat) (hp : 0 < p) (hq : 0 < q) (h : p ≠ q) (base : Nat) :
    base + (p - 1) * w + w ≤ base + (q - 1) * w ∨ base + (q - 1) * w + w ≤ base + (p - 1) * w := by
  have h1 := mul_pred p w hp
  have h2 := mul_pred q w hq
  rcases Nat.lt_or_gt_of_ne h with h3 | h3
  · have : p * w ≤ (q - 1) * w := Nat.mul_le_mul_right _ (by omega)
    omega
  · have : q * w ≤ (p - 1) * w := Nat.mul_le_mul_right _ (by omega)
    omega

theorem OffOk.order {o : Off} {vs : List Nat} (k : OffOk o vs) :
    o.p0 ≤ o.p1 ∧ o.p1 ≤ o.hb ∧ o.hb ≤ o.lo ∧ o.lo ≤ o.last := by
  have := k.p1; have := k.hb; have := k.lo; have := k.last
  have := Nat.zero_le ((o.hlen - vs.length) / 512 * o.psize)
  have := Nat.zero_le (vs.length / 256 * o.psize)
  have := Nat.zero_le (vs.length * o.l)
  omega

theorem ptr_toNat {o : Off} {vs : List Nat} (k : OffOk o vs) (x : Nat) (h : x < o.hlen) :
    (BitVec.ofNat 64 x).toNat = x ∧ (BitVec.ofNat 64 x).toNat < 2 ^ o.psize := by
  have h1 := k.hlen2
  have h2 : 2 ^ o.psize ≤ 2 ^ 56 := Nat.pow_le_pow_right (by omega) k.ps56
  have : (BitVec.ofNat 64 x).toNat = x := by rw [BitVec.toNat_ofNat, Nat.mod_eq_of_lt (by omega)]
  rw [this]
  exact ⟨rfl, by omega⟩

theorem setPtr0sLoop_spec {o : Off} {vs : List Nat} (k : OffOk o vs) (E rank : Nat) (hE : E + rank ≤ o.hlen)
    (hE2 : E ≤ o.hlen - vs.length) :
    ∀ (fuel ptr0 : Nat) (b : BVB), b.WF → b.size = o.last → E < fuel + ptr0 → 0 < fuel →
      ∃ b', setPtr0sLoop o E rank fuel ptr0 b = .ok b' ∧ Wr b b' o.p0 o.p1 ∧
        ∀ p, 0 < p → p * 512 < E → valueAt b'.bits (o.p0 + (p - 1) * o.psize) o.psize =
          if ptr0 ≤ p then p * 512 + rank else valueAt b.bits (o.p0 + (p - 1) * o.psize) o.psize := by
  obtain ⟨o1, o2, o3, o4⟩ := k.order
  intro fuel
  induction fuel with
  | zero => intro ptr0 b hw hs hf h0; omega
  | succ fuel ih =>
      intro ptr0 b hw hs hf _
      unfold setPtr0sLoop
      rw [show 2 ^ logSampling0 = 512 from rfl]
      split
      · rename_i hlt
        split
        · rename_i h0
          obtain ⟨b', b1, b2, b3⟩ := ih (ptr0 + 1) b hw hs (by omega) (by omega)
          refine ⟨b', b1, b2, ?_⟩
          intro p hp hpE
          rw [b3 p hp hpE, if_pos (by omega), if_pos (by omega)]
        · rename_i h0
          have h5 : ptr0 * 512 + rank < o.hlen := by
            exact Nat.lt_of_lt_of_le (Nat.add_lt_add_right hlt rank) hE
          have ht := ptr_toNat k (ptr0 * 512 + rank) h5
          have t1 := ht.1
          have t2 := ht.2
          have hroom := p0_room k ptr0 (by omega) (Nat.lt_of_lt_of_le hlt hE2)
          obtain ⟨c, c1, c2, c3⟩ := setBits_wr b (o.p0 + (ptr0 - 1) * o.psize) (BitVec.ofNat 64 (ptr0 * 512 + rank)) o.psize hw
            (by omega) (by have := k.ps56; omega) t2
          rw [c1]
          simp only [M.ok_bind]
          obtain ⟨b', b1, b2, b3⟩ := ih (ptr0 + 1) c (c2.wf hw) (by rw [c2.size, hs]) (by omega) (by omega)
          refine ⟨b', b1, (c2.mono (by omega) hroom).trans b2, ?_⟩
          intro p hp hpE
          rw [b3 p hp hpE]
          by_cases hpp : ptr0 + 1 ≤ p
          · rw [if_pos hpp, if_pos (by omega)]
          · rw [if_neg hpp]
            by_cases hpe : ptr0 = p
            · subst hpe; rw [if_pos (Nat.le_refl _), c3, t1]
            · rw [if_neg (by omega)]
              exact c2.value (by have := pred_disjoint p ptr0 o.psize hp (by omega) (by omega) o.p0; omega)
      · rename_i hlt
        refine ⟨b, rfl, Wr.rfl' _ _ _, ?_⟩
        intro p hp hpE
        rw [if_neg (by omega)]

/-- `last_high` after `i` elements -/
def lastHi (l : Nat) (vs : List Nat) (i : Nat) : Nat := if i = 0 then 0 else hi l vs (i - 1)

theorem ceilDiv_le_iff (a p : Nat) : ceilDiv a 512 ≤ p ↔ a ≤ p * 512 := by
  unfold ceilDiv; omega

theorem setPtr0s_spec {o : Off} {vs : List Nat} (k : OffOk o vs) (i e : Nat) (hi : i ≤ vs.length)
    (he : e + vs.length ≤ o.hlen + i) (hlast : lastHi o.l vs i < e) (hie : i ≤ e)
    (hsplit : ∀ z, lastHi o.l vs i + 1 ≤ z + i → z + i < e → Split o.l vs z i)
    (b : BVB) (hw : b.WF) (hs : b.size = o.last) (hp : P0 o vs (lastHi o.l vs i + 1 - i) b.bits) :
    ∃ b', setPtr0s o (lastHi o.l vs i + 1) e i b = .ok b' ∧ Wr b b' o.p0 o.p1 ∧ P0 o vs (e - i) b'.bits := by
  unfold setPtr0s
  obtain ⟨b', b1, b2, b3⟩ := setPtr0sLoop_spec k (e - i) i (by omega) (by omega) (e + 1)
    (ceilDiv (lastHi o.l vs i + 1 - i) (2 ^ logSampling0)) b hw hs (by omega) (by omega)
  refine ⟨b', b1, b2, ?_⟩
  intro p hp0 hpe
  rw [b3 p hp0 hpe]
  have hc := ceilDiv_le_iff (lastHi o.l vs i + 1 - i) p
  rw [show 2 ^ logSampling0 = 512 from rfl]
  by_cases h : ceilDiv (lastHi o.l vs i + 1 - i) 512 ≤ p
  · rw [if_pos h]
    have h' := hc.mp h
    exact ⟨i, hsplit _ (Nat.le_add_of_sub_le h') (Nat.add_lt_of_lt_sub hpe), rfl⟩
  · rw [if_neg h]
    exact hp p hp0 (Nat.lt_of_not_le (fun hle => h (hc.mpr hle)))

theorem setPtr1_spec {o : Off} {vs : List Nat} (k : OffOk o vs) (h : Valid o.univ vs) (i : Nat) (hi' : i < vs.length)
    (b : BVB) (hw : b.WF) (hs : b.size = o.last) (hp : P1 o vs i b.bits) :
    ∃ b', setPtr1 o i (hi o.l vs i) b = .ok b' ∧ Wr b b' o.p1 o.hb ∧ P1 o vs (i + 1) b'.bits := by
  obtain ⟨o1, o2, o3, o4⟩ := k.order
  unfold setPtr1
  rw [show 2 ^ logSampling1 = 256 from rfl]
  split
  · rename_i hc
    have hhi := k.hi_lt h hi'
    have ht := ptr_toNat k (hi o.l vs i) (by omega)
    have hroom := p1_room k (i / 256) (by omega) (by omega)
    obtain ⟨c, c1, c2, c3⟩ := setBits_wr b (o.p1 + (i / 256 - 1) * o.psize) (BitVec.ofNat 64 (hi o.l vs i)) o.psize hw
      (by omega) (by have := k.ps56; omega) ht.2
    refine ⟨c, c1, c2.mono (by omega) hroom, ?_⟩
    intro p hp0 hpi
    by_cases hpe : p = i / 256
    · subst hpe
      rw [c3, ht.1]
      congr 1; omega
    · rw [c2.value (by have := pred_disjoint p (i / 256) o.psize hp0 (by omega) hpe o.p1; omega)]
      exact hp p hp0 (by omega)
  · rename_i hc
    refine ⟨b, rfl, Wr.rfl' _ _ _, ?_⟩
    intro p hp0 hpi
    exact hp p hp0 (by omega)

theorem and_mask_toNat (x l : Nat) (hx : x < 2 ^ 64) (hl : l ≤ 64) : (BitVec.ofNat 64 x &&& maskW l).toNat = x % 2 ^ l := by
  rw [BitVec.toNat_and, maskW_toNat _ hl, BitVec.toNat_ofNat, Nat.mod_eq_of_lt hx, Nat.and_two_pow_sub_one_eq_mod]

theorem setLow_spec {o : Off} {vs : List Nat} (k : OffOk o vs) (h : Valid o.univ vs) (i : Nat) (hi' : i < vs.length)
    (b : BVB) (hw : b.WF) (hs : b.size = o.last) (hp : Low o vs i b.bits) :
    ∃ b', b.setBits (o.lo + i * o.l) (BitVec.ofNat 64 (vs.getD i 0) &&& maskW o.l) o.l = .ok b' ∧ Wr b b' o.lo o.last ∧
      Low o vs (i + 1) b'.bits := by
  have hr := low_room k i hi'
  have hl := k.l56
  have hu := h.le_u hi'
  have hsm := h.small
  have hm := and_mask_toNat (vs.getD i 0) o.l (by omega) (by omega)
  obtain ⟨c, c1, c2, c3⟩ := setBits_wr b (o.lo + i * o.l) (BitVec.ofNat 64 (vs.getD i 0) &&& maskW o.l) o.l hw
    (by omega) (by omega) (by rw [hm]; exact Nat.mod_lt _ (Nat.two_pow_pos _))
  refine ⟨c, c1, c2.mono (by omega) hr, ?_⟩
  intro j hj
  by_cases hji : j = i
  · subst hji; rw [c3, hm]
  · have h2 : (j + 1) * o.l ≤ i * o.l := Nat.mul_le_mul_right _ (by omega)
    rw [Nat.succ_mul] at h2
    rw [c2.value (by omega)]
    exact hp j (by omega)

theorem setHigh_spec {o : Off} {vs : List Nat} (k : OffOk o vs) (h : Valid o.univ vs) (i : Nat) (hi' : i < vs.length)
    (b : BVB) (hw : b.WF) (hs : b.size = o.last) (hp : High o vs i b.bits) :
    ∃ b', b.set (o.hb + hi o.l vs i) true = .ok b' ∧ Wr b b' o.hb o.lo ∧ High o vs (i + 1) b'.bits := by
  obtain ⟨o1, o2, o3, o4⟩ := k.order
  have hhi := k.hi_lt h hi'
  have hlo := k.lo
  obtain ⟨c, c1, c2, c3, c4⟩ := b.set_wf (o.hb + hi o.l vs i) true hw (by omega)
  refine ⟨c, c1, ⟨fun _ => c2, c3, ?_⟩, ?_⟩
  · intro j hj
    rw [c4, if_neg (by omega)]
  · intro q hq
    rw [c4]
    by_cases hqi : q = hi o.l vs i
    · rw [if_pos (by omega)]
      exact ⟨fun _ => ⟨i, by omega, hqi⟩, fun _ => rfl⟩
    · rw [if_neg (by omega), hp q hq]
      constructor
      · rintro ⟨j, hj, e⟩; exact ⟨j, by omega, e⟩
      · rintro ⟨j, hj, e⟩
        refine ⟨j, ?_, e⟩
        have : j ≠ i := fun hc => hqi (by rw [← hc]; exact e)
        omega

theorem P0.congr {o : Off} {vs : List Nat} {z : Nat} {b c : BVB} {x y : Nat} (k : OffOk o vs) (hz : z ≤ o.hlen - vs.length)
    (h : P0 o vs z b.bits) (w : Wr b c x y) (hx : o.p1 ≤ x) : P0 o vs z c.bits := by
  intro p hp hpz
  have := p0_room k p hp (by omega)
  rw [w.value (by omega)]
  exact h p hp hpz

theorem P1.congr {o : Off} {vs : List Nat} {i : Nat} {b c : BVB} {x y : Nat} (k : OffOk o vs) (hi : i ≤ vs.length)
    (h : P1 o vs i b.bits) (w : Wr b c x y) (hx : o.hb ≤ x ∨ y ≤ o.p1) : P1 o vs i c.bits := by
  intro p hp hpz
  have := p1_room k p hp (by omega)
  have : o.p1 ≤ o.p1 + (p - 1) * o.psize := Nat.le_add_right _ _
  rw [w.value (by omega)]
  exact h p hp hpz

theorem High.congr {o : Off} {vs : List Nat} {i : Nat} {b c : BVB} {x y : Nat} (k : OffOk o vs)
    (h : High o vs i b.bits) (w : Wr b c x y) (hx : o.lo ≤ x ∨ y ≤ o.hb) : High o vs i c.bits := by
  intro q hq
  have := k.lo
  rw [w.out _ (by omega)]
  exact h q hq

theorem Low.congr {o : Off} {vs : List Nat} {i : Nat} {b c : BVB} {x y : Nat}
    (h : Low o vs i b.bits) (w : Wr b c x y) (hx : y ≤ o.lo) : Low o vs i c.bits := by
  intro j hj
  have : o.lo ≤ o.lo + j * o.l := Nat.le_add_right _ _
  rw [w.value (by omega)]
  exact h j hj

theorem lastHi_succ (l : Nat) (vs : List Nat) (i : Nat) : lastHi l vs (i + 1) = hi l vs i := by
  unfold lastHi; simp

theorem buildLoop_spec {o : Off} {vs : List Nat} (k : OffOk o vs) (h : Valid o.univ vs) :
    ∀ (rest : List Nat) (i last : Nat) (b : BVB), rest = vs.drop i → i ≤ vs.length →
      (i ≠ 0 → last = vs.getD (i - 1) 0) → b.WF → b.size = o.last →
      High o vs i b.bits → Low o vs i b.bits → P1 o vs i b.bits → P0 o vs (lastHi o.l vs i + 1 - i) b.bits →
      ∃ b', buildLoop o rest i last (lastHi o.l vs i) b = .ok b' ∧ Wr b b' o.p0 o.last ∧
        High o vs vs.length b'.bits ∧ Low o vs vs.length b'.bits ∧ P1 o vs vs.length b'.bits ∧
        P0 o vs (o.hlen - vs.length) b'.bits := by
  obtain ⟨o1, o2, o3, o4⟩ := k.order
  have hhl := k.hlen
  have hg := Nat.zero_le (o.univ / 2 ^ o.l)
  intro rest
  induction rest with
  | nil =>
      intro i last b hrest hi' _ hw hs h1 h2 h3 h4
      have hin : i = vs.length := by
        have := congrArg List.length hrest
        simp at this; omega
      subst hin
      unfold buildLoop
      have hn : 0 < vs.length := List.length_pos_iff.mpr h.ne
      have hlh : lastHi o.l vs vs.length = hi o.l vs (vs.length - 1) := by
        unfold lastHi; rw [if_neg (by omega)]
      have hlt := k.hi_lt h (j := vs.length - 1) (by omega)
      rw [k.n]
      obtain ⟨b', b1, b2, b3⟩ := setPtr0s_spec k vs.length o.hlen (Nat.le_refl _) (by omega) (by omega) (by omega)
        (by
          intro z hz hz2
          refine ⟨Nat.le_refl _, ?_, by intro j h1 h2; omega⟩
          intro j hj
          rw [hlh] at hz
          have := Nat.div_le_div_right (c := 2 ^ o.l) (h.le (i := j) (j := vs.length - 1) (by omega) (by omega))
          unfold hi at hz
          omega) b hw hs h4
      refine ⟨b', b1, b2.mono (by omega) (by omega), h1.congr k b2 (by omega), h2.congr b2 (by omega),
        h3.congr k (by omega) b2 (by omega), b3⟩
  | cons v rest ih =>
      intro i last b hrest hi' hlast hw hs h1 h2 h3 h4
      have hil : i < vs.length := by
        have := congrArg List.length hrest
        simp at this; omega
      have hv : v = vs.getD i 0 := by
        have := congrArg List.head? hrest
        rw [List.head?_cons, List.head?_drop, List.getElem?_eq_getElem hil] at this
        rw [List.getD_eq_getElem?_getD, List.getElem?_eq_getElem hil]
        simpa using this
      have hrest' : rest = vs.drop (i + 1) := by
        have := congrArg List.tail hrest
        simpa using this
      unfold buildLoop
      rw [if_neg]
      · simp only
        have hh : v / 2 ^ o.l + i + 1 = hi o.l vs i := by rw [hv]; rfl
        rw [hh]
        have hlt := k.hi_lt h hil
        obtain ⟨c1, e1, w1, g1⟩ := setHigh_spec k h i hil b hw hs h1
        simp only [e1, M.ok_bind]
        obtain ⟨c2, e2, w2, g2⟩ := setLow_spec k h i hil c1 (w1.wf hw) (by rw [w1.size, hs]) (h2.congr w1 (by omega))
        rw [hv]
        simp only [e2, M.ok_bind]
        have s2 : Wr b c2 o.hb o.last := (w1.mono (by omega) (by omega)).trans (w2.mono (by omega) (by omega))
        obtain ⟨c3, e3, w3, g3⟩ := setPtr1_spec k h i hil c2 (s2.wf hw) (by rw [s2.size, hs])
          (h3.congr k (by omega) s2 (by omega))
        simp only [e3, M.ok_bind]
        have s3 : Wr b c3 o.p1 o.last := (s2.mono (by omega) (by omega)).trans (w3.mono (by omega) (by omega))
        have hlh : lastHi o.l vs i < hi o.l vs i := by
          unfold lastHi
          split
          · exact Nat.succ_pos _
          · exact CEF.hi_lt h o.l (by omega) hil
        have hiz : i ≤ hi o.l vs i := by
          have := Nat.zero_le (vs.getD i 0 / 2 ^ o.l)
          unfold hi; omega
        have hroom : hi o.l vs i + vs.length ≤ o.hlen + i := by
          have := Nat.div_le_div_right (c := 2 ^ o.l) (h.le_u hil)
          unfold hi; omega
        obtain ⟨c4, e4, w4, g4⟩ := setPtr0s_spec k i (hi o.l vs i) (by omega) hroom hlh hiz
          (by
            intro z hz hz2
            refine ⟨by omega, ?_, ?_⟩
            · intro j hj
              have := Nat.div_le_div_right (c := 2 ^ o.l) (h.le (i := j) (j := i - 1) (by omega) (by omega))
              unfold lastHi at hz
              rw [if_neg (by omega)] at hz
              unfold hi at hz
              omega
            · intro j hj hj2
              have := Nat.div_le_div_right (c := 2 ^ o.l) (h.le (i := i) (j := j) hj hj2)
              unfold hi at hz2
              omega)
          c3 (s3.wf hw) (by rw [s3.size, hs]) (h4.congr k (by omega) s3 (by omega))
        simp only [e4, M.ok_bind]
        have s4 : Wr b c4 o.p0 o.last := (s3.mono (by omega) (by omega)).trans (w4.mono (by omega) (by omega))
        have w34 : Wr c2 c4 o.p0 o.hb := (w3.mono (by omega) (by omega)).trans (w4.mono (by omega) (by omega))
        rw [← lastHi_succ o.l vs i]
        obtain ⟨b', r1, r2, r3⟩ := ih (i + 1) (vs.getD i 0) c4 hrest' (by omega) (by intro _; rfl) (s4.wf hw)
          (by rw [s4.size, hs])
          ((g1.congr k w2 (by omega)).congr k w34 (by omega))
          (g2.congr w34 (by omega))
          (g3.congr k (by omega) w4 (by omega))
          (by rw [lastHi_succ, show hi o.l vs i + 1 - (i + 1) = hi o.l vs i - i by omega]; exact g4)
        exact ⟨b', r1, s4.trans r2, r3⟩
      · rintro ⟨hc1, hc2⟩
        have := h.le (i := i - 1) (j := i) (by omega) hil
        rw [hlast hc1, hv] at hc2
        omega

/-- an Elias-Fano list stored in the bits from `base` on -/
structure Rep (bits : List W) (base u : Nat) (vs : List Nat) : Prop where
  valid : Valid u vs
  fits : (offsets base u vs.length).last ≤ 64 * bits.length
  high : High (offsets base u vs.length) vs vs.length bits
  low : Low (offsets base u vs.length) vs vs.length bits
  p1 : P1 (offsets base u vs.length) vs vs.length bits
  p0 : P0 (offsets base u vs.length) vs ((offsets base u vs.length).hlen - vs.length) bits

/-- only the bits of the list matter -/
theorem Rep.frame {bits bits' : List W} {base u : Nat} {vs : List Nat} (h : Rep bits base u vs)
    (hf : (offsets base u vs.length).last ≤ 64 * bits'.length)
    (he : ∀ i, base ≤ i → i < (offsets base u vs.length).last → bitAt bits' i = bitAt bits i) : Rep bits' base u vs := by
  have k := offsets_ok base u vs h.valid
  obtain ⟨o1, o2, o3, o4⟩ := k.order
  have hp0 : (offsets base u vs.length).p0 = base := rfl
  refine ⟨h.valid, hf, ?_, ?_, ?_, ?_⟩
  · intro q hq
    have := k.lo
    rw [he _ (by omega) (by omega)]
    exact h.high q hq
  · intro j hj
    have := low_room k j hj
    rw [← h.low j hj]
    apply valueAt_congr
    intro x hx
    exact he _ (by omega) (by omega)
  · intro p hp hpz
    have := p1_room k p hp hpz
    rw [← h.p1 p hp hpz]
    apply valueAt_congr
    intro x hx
    exact he _ (by omega) (by omega)
  · intro p hp hpz
    have := p0_room k p hp hpz
    obtain ⟨r, r1, r2⟩ := h.p0 p hp hpz
    refine ⟨r, r1, ?_⟩
    rw [← r2]
    apply valueAt_congr
    intro x hx
    exact he _ (by omega) (by omega)

theorem build_spec (b : BVB) (u : Nat) (vs : List Nat) (hw : b.WF) (h : Valid u vs) :
    ∃ b', build b u vs = .ok b' ∧ b'.WF ∧ b'.size = (offsets b.size u vs.length).last ∧ b.size ≤ b'.size ∧
      (∀ i, i < b.size → bitAt b'.bits i = bitAt b.bits i) ∧ Rep b'.bits b.size u vs := by
  have k := offsets_ok b.size u vs h
  obtain ⟨o1, o2, o3, o4⟩ := k.order
  have hp0 : (offsets b.size u vs.length).p0 = b.size := rfl
  have hn : 0 < vs.length := List.length_pos_iff.mpr h.ne
  unfold build
  rw [if_neg (by omega)]
  simp only
  generalize ho : offsets b.size u vs.length = o at *
  have hu : o.univ = u := by rw [← ho]; rfl
  have zw := b.zeroExtend_wf (o.last - b.size) hw
  have zs : (b.zeroExtend (o.last - b.size)).size = o.last := by
    simp only [BVB.zeroExtend]; omega
  have zb : ∀ i, bitAt (b.zeroExtend (o.last - b.size)).bits i = bitAt b.bits i := b.zeroExtend_bitAt _
  obtain ⟨b', r1, r2, r3, r4, r5, r6⟩ := buildLoop_spec k (by rw [hu]; exact h) vs 0 0 (b.zeroExtend (o.last - b.size))
    (by simp) (by omega) (by simp) zw zs
    (by
      intro q hq
      rw [zb, hw.pad _ (by omega)]
      exact ⟨fun hc => (by cases hc), fun ⟨j, hj, _⟩ => (by omega)⟩)
    (by intro j hj; omega) (by intro p hp hc; omega)
    (by intro p hp hc; simp only [lastHi, if_true] at hc; omega)
  have hlen := (r2.wf zw).len
  unfold wordsFor at hlen
  have hsz : b'.size = o.last := by rw [r2.size, zs]
  refine ⟨b', ?_, r2.wf zw, hsz, by omega, ?_, ?_⟩
  · rw [← r1]; rfl
  · intro i hi
    rw [r2.out i (by omega), zb]
  · subst ho
    exact ⟨h, by omega, r3, r4, r5, r6⟩

end AC.CEF
