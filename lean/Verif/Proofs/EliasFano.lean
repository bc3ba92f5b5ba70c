import Verif.Proofs.BitAppend
import Verif.Proofs.DArray
import Verif.Proofs.SeqSearch
/-! # Elias-Fano sequences -/
namespace AC

theorem BVB.set_wf (v : BVB) (pos : Nat) (b : Bool) (h : v.WF) (hp : pos < v.size) :
    ∃ r, v.set pos b = .ok r ∧ r.WF ∧ r.size = v.size ∧ ∀ i, bitAt r.bits i = if i = pos then b else bitAt v.bits i := by
  have hl := h.len
  unfold wordsFor at hl
  obtain ⟨r, r1, r2, r3, r4⟩ := v.set_spec pos b (by omega)
  refine ⟨r, r1, ⟨by rw [r3, r2]; exact h.len, ?_⟩, r2, r4⟩
  intro i hi
  rw [r4 i, if_neg (by omega), h.pad i (by omega)]

theorem cnt_set {f g : Nat → Bool} (p : Nat) (h : ∀ i, g i = if i = p then true else f i) (hf : f p = false) (n : Nat) :
    cnt g n = cnt f n + if p < n then 1 else 0 := by
  induction n with
  | zero => simp [cnt]
  | succ n ih =>
      rw [cnt_succ, cnt_succ, ih, h n]
      by_cases h1 : n = p
      · subst h1; simp [hf]
      · rw [if_neg h1]
        by_cases h2 : p < n
        · rw [if_pos h2, if_pos (by omega)]; omega
        · rw [if_neg h2, if_neg (by omega)]; omega

/-- the high bits after the values `ds`: the ones are at `high part + index` -/
structure EF.HighInv (l : Nat) (ds : List W) (b : BVB) : Prop where
  wf : b.WF
  sel : ∀ j (hj : j < ds.length), IsSelect (bitAt b.bits) j (ds[j].toNat / 2 ^ l + j)
  only : ∀ q, bitAt b.bits q = true → ∃ j, ∃ hj : j < ds.length, q = ds[j].toNat / 2 ^ l + j
  total : ∀ q, (∀ j (hj : j < ds.length), ds[j].toNat / 2 ^ l + j < q) → cnt (bitAt b.bits) q = ds.length

/-- the low bits after the values `ds` -/
structure EF.LowInv (l : Nat) (ds : List W) (b : BVB) : Prop where
  wf : b.WF
  size : b.size = ds.length * l
  bits : ∀ j (hj : j < ds.length) k, k < l → bitAt b.bits (j * l + k) = ds[j].getLsbD k

theorem shr_toNat (v : W) (l : Nat) : (v >>> l).toNat = v.toNat / 2 ^ l := by
  rw [BitVec.toNat_ushiftRight, Nat.shiftRight_eq_div_pow]

theorem EF.high_step (l : Nat) (ds : List W) (b : BVB) (v : W) (h : HighInv l ds b)
    (hs : ∀ d ∈ ds, d.toNat ≤ v.toNat) (hp : (v >>> l).toNat + ds.length < b.size) :
    ∃ b', b.set ((v >>> l).toNat + ds.length) true = .ok b' ∧ HighInv l (ds ++ [v]) b' ∧ b'.size = b.size := by
  obtain ⟨b', b1, b2, b3, b4⟩ := b.set_wf _ true h.wf hp
  refine ⟨b', b1, ?_, b3⟩
  rw [shr_toNat] at b4
  generalize hP : v.toNat / 2 ^ l + ds.length = P at b4
  have hlt : ∀ j (hj : j < ds.length), ds[j].toNat / 2 ^ l + j < P := by
    intro j hj
    have := Nat.div_le_div_right (c := 2 ^ l) (hs _ (List.getElem_mem hj))
    omega
  have hPf : bitAt b.bits P = false := by
    cases hb : bitAt b.bits P with
    | false => rfl
    | true =>
        obtain ⟨j, hj, e⟩ := h.only P hb
        have := hlt j hj; omega
  have hc := cnt_set P b4 hPf
  refine ⟨b2, ?_, ?_, ?_⟩
  · intro j hj
    rw [List.length_append, List.length_singleton] at hj
    by_cases hj2 : j < ds.length
    · rw [List.getElem_append_left hj2]
      have h1 := h.sel j hj2
      have h2 := hlt j hj2
      refine ⟨?_, ?_⟩
      · rw [b4, h1.1]; split <;> rfl
      · rw [hc, h1.2, if_neg (by omega), Nat.add_zero]
    · have : j = ds.length := by omega
      subst this
      rw [List.getElem_append_right (by omega)]
      simp only [Nat.sub_self, List.getElem_singleton]
      rw [hP]
      refine ⟨by rw [b4, if_pos rfl], ?_⟩
      rw [hc, if_neg (by omega), h.total P hlt, Nat.add_zero]
  · intro q hq
    rw [b4] at hq
    by_cases hqP : q = P
    · exact ⟨ds.length, by simp, by rw [List.getElem_append_right (by omega)]; simp; omega⟩
    · rw [if_neg hqP] at hq
      obtain ⟨j, hj, e⟩ := h.only q hq
      exact ⟨j, by simp; omega, by rw [List.getElem_append_left hj]; exact e⟩
  · intro q hq
    have h1 := hq ds.length (by simp)
    rw [List.getElem_append_right (by omega)] at h1
    simp only [Nat.sub_self, List.getElem_singleton] at h1
    rw [hP] at h1
    rw [hc, if_pos h1, List.length_append, List.length_singleton, h.total q]
    intro j hj
    have := hlt j hj; omega

theorem EF.low_step (l : Nat) (ds : List W) (b : BVB) (v : W) (h : LowInv l ds b) (hl : l < 64) :
    LowInv l (ds ++ [v]) (if l ≠ 0 then b.appendBits (v &&& maskW l) l else b) := by
  by_cases h0 : l = 0
  · subst h0
    rw [if_neg (by simp)]
    exact ⟨h.wf, by have := h.size; simpa using this, by intro j hj k hk; omega⟩
  · rw [if_pos h0]
    have hv : (v &&& maskW l).toNat < 2 ^ l := by
      apply lt_of_getLsbD
      intro j hj
      rw [BitVec.getLsbD_and, maskW_getLsbD _ _ (by omega), decide_eq_false (by omega)]; simp
    refine ⟨b.appendBits_wf _ _ h.wf (by omega) hv, ?_, ?_⟩
    · rw [BVB.appendBits_size, h.size, List.length_append, List.length_singleton, Nat.add_mul, Nat.one_mul]
    · intro j hj k hk
      rw [b.appendBits_bitAt _ _ h.wf (by omega) hv, h.size]
      rw [List.length_append, List.length_singleton] at hj
      by_cases hj2 : j < ds.length
      · have h1 : (j + 1) * l ≤ ds.length * l := Nat.mul_le_mul_right _ (by omega)
        rw [Nat.add_mul, Nat.one_mul] at h1
        rw [if_neg (by omega), h.bits j hj2 k hk, List.getElem_append_left hj2]
      · have : j = ds.length := by omega
        subst this
        rw [if_pos (by omega), List.getElem_append_right (by omega)]
        simp only [Nat.sub_self, List.getElem_singleton]
        rw [show ds.length * l + k - ds.length * l = k by omega, BitVec.getLsbD_and, maskW_getLsbD _ _ (by omega),
          decide_eq_true hk]; simp

theorem EF.compressLoop_spec (l : Nat) (hl : l < 64) (N : Nat) : ∀ (vs ds : List W) (last : W) (lowB highB : BVB),
    (ds ++ vs).Pairwise (fun a b => a.toNat ≤ b.toNat) → (ds ≠ [] → ds.getLastD 0 = last) →
    (∀ v ∈ vs, (v >>> l).toNat + (ds ++ vs).length ≤ N) → highB.size = N →
    HighInv l ds highB → LowInv l ds lowB →
    ∃ lowB' highB', compressLoop l ds.length last vs lowB highB = .ok (lowB', highB') ∧ highB'.size = N ∧
      HighInv l (ds ++ vs) highB' ∧ LowInv l (ds ++ vs) lowB' := by
  intro vs
  induction vs with
  | nil =>
      intro ds last lowB highB _ _ _ hN hh hlo
      exact ⟨lowB, highB, rfl, hN, by simpa using hh, by simpa using hlo⟩
  | cons v vs ih =>
      intro ds last lowB highB hs hlast hb hN hh hlo
      have hle : ∀ d ∈ ds, d.toNat ≤ v.toNat := by
        intro d hd
        exact (List.pairwise_append.mp hs).2.2 d hd v (by simp)
      unfold compressLoop
      rw [if_neg]
      · have := hb v (by simp)
        simp only [List.length_append, List.length_cons] at this
        obtain ⟨highB', b1, b2, b3⟩ := high_step l ds highB v hh hle (by omega)
        simp only [b1, M.ok_bind]
        have e : ds ++ v :: vs = (ds ++ [v]) ++ vs := by simp
        have := ih (ds ++ [v]) v (if l ≠ 0 then lowB.appendBits (v &&& maskW l) l else lowB) highB' (by rw [← e]; exact hs)
          (by intro _; simp)
          (by intro x hx; rw [← e]; exact hb x (by simp [hx])) (by omega) b2 (low_step l ds lowB v hlo hl)
        rw [List.length_append, List.length_singleton] at this
        rw [e]
        exact this
      · intro ⟨h1, h2⟩
        have hne : ds ≠ [] := by intro hc; simp [hc] at h1
        rw [← hlast hne] at h2
        have : ds.getLastD 0 ∈ ds := by
          rw [List.getLastD_eq_getLast?, List.getLast?_eq_some_getLast hne]; exact List.getLast_mem hne
        have := hle _ this
        omega

/-- an `ef_sequence` holding the values `vs` -/
structure EF.Rep (e : EF) (vs : List W) : Prop where
  ne : vs ≠ []
  l64 : e.l < 64
  size : e.size = vs.length
  low : ∀ j (hj : j < vs.length) k, k < e.l → bitAt e.low.bits (j * e.l + k) = vs[j].getLsbD k
  lowLen : vs.length * e.l ≤ 64 * e.low.bits.length
  high : ∀ j (hj : j < vs.length), IsSelect (bitAt e.high.bits) j (vs[j].toNat / 2 ^ e.l + j)
  highLen : e.high.size ≤ 64 * e.high.bits.length
  bound : ∀ j (hj : j < vs.length), vs[j].toNat / 2 ^ e.l + j < e.high.size
  total : cnt (bitAt e.high.bits) e.high.size = vs.length
  d1 : DA.Rep false e.d1 e.high
  pad : ∀ q, bitAt e.high.bits q = true → q < e.high.size

theorem seen_false (bits : List W) : seen false bits = bitAt bits := by
  funext i; simp [seen]

theorem EF.build_spec (vs : List W) (hne : vs ≠ []) (hs : vs.Pairwise (fun a b => a.toNat ≤ b.toNat)) :
    ∃ e, EF.build vs = .ok e ∧ e.Rep vs := by
  unfold EF.build
  rw [List.getLast?_eq_some_getLast hne]
  simp only
  generalize hu : vs.getLast hne = u
  have hle : ∀ v ∈ vs, v.toNat ≤ u.toNat := by
    intro v hv
    rw [← hu]
    have := List.dropLast_concat_getLast hne
    rw [← this] at hv hs
    rcases List.mem_append.mp hv with h | h
    · exact (List.pairwise_append.mp hs).2.2 v h _ (by simp)
    · simp at h; rw [h]; exact Nat.le_refl _
  unfold EF.compress
  simp only
  generalize hl : lowWidth vs.length u.toNat = l
  have hl64 : l < 64 := by
    rw [← hl]
    unfold lowWidth msbNat
    split
    · rename_i h
      have h1 : u.toNat / vs.length ≤ u.toNat := Nat.div_le_self _ _
      have h2 := u.isLt
      rw [Nat.log2_lt h.2]; omega
    · omega
  have hlen : 0 < vs.length := List.length_pos_iff.mpr hne
  obtain ⟨m1, m2, m3⟩ := BVB.mk'_spec (vs.length + (u >>> l).toNat + 1) false
  simp only [Bool.and_false] at m3
  have hmono : ∀ v ∈ vs, v.toNat / 2 ^ l ≤ u.toNat / 2 ^ l := fun v hv => Nat.div_le_div_right (hle v hv)
  obtain ⟨lowB, highB, c1, c2, c3, c4⟩ := compressLoop_spec l hl64 (vs.length + (u >>> l).toNat + 1) vs [] 0 BVB.empty
    (BVB.mk' (vs.length + (u >>> l).toNat + 1) false) (by simpa using hs) (by simp)
    (by
      intro v hv
      have := hmono v hv
      rw [shr_toNat, shr_toNat, List.nil_append]; omega)
    m2 ⟨m1, by intro j hj; simp at hj, (by intro q hq; rw [m3] at hq; cases hq),
      by intro q _; exact cnt_zero (fun i _ => m3 i)⟩
    ⟨BVB.empty_wf, by simp [BVB.empty], by intro j hj; simp at hj⟩
  rw [List.nil_append] at c3 c4
  rw [List.length_nil] at c1
  rw [c1]
  simp only [M.ok_bind]
  have hhl := c3.wf.len
  have hll := c4.wf.len
  unfold wordsFor at hhl hll
  have hHL : (BV.build highB 0).size ≤ 64 * (BV.build highB 0).bits.length := by
    simp only [BV.build]; omega
  obtain ⟨d, d1, d2⟩ := DA.build_spec false (BV.build highB 0) hHL
  rw [d1]
  simp only [M.ok_bind]
  have hbound : ∀ j (hj : j < vs.length), vs[j].toNat / 2 ^ l + j < highB.size := by
    intro j hj
    have := hmono _ (List.getElem_mem hj)
    rw [c2, shr_toNat]; omega
  refine ⟨_, rfl, ⟨hne, hl64, rfl, c4.bits, by simp only [BV.build]; rw [← c4.size]; omega, c3.sel, hHL, hbound,
    c3.total _ hbound, d2, ?_⟩⟩
  intro q hq
  obtain ⟨j, hj, e⟩ := c3.only q hq
  have := hbound j hj
  simp only [BV.build]; omega

theorem EF.value_eq (l : Nat) (v lo : W) (hl : l < 64) (hlo : ∀ k, k < 64 → lo.getLsbD k = (v.getLsbD k && decide (k < l))) :
    (BitVec.ofNat 64 (v.toNat / 2 ^ l) <<< l) ||| lo = v := by
  apply ext_getLsbD
  intro k hk
  rw [BitVec.getLsbD_or, BitVec.getLsbD_shiftLeft, hlo k hk]
  by_cases h : k < l
  · simp [h]
  · rw [decide_eq_true hk, decide_eq_false h, BitVec.getLsbD_ofNat, Nat.testBit_div_two_pow, BitVec.testBit_toNat,
      decide_eq_true (show k - l < 64 by omega), show k - l + l = k by omega]
    simp

theorem EF.select_spec {e : EF} {vs : List W} (h : e.Rep vs) (i : Nat) (hi : i < vs.length) :
    DA.select false e.d1 e.high i = .ok (vs[i].toNat / 2 ^ e.l + i) := by
  obtain ⟨q, q1, q2, q3⟩ := DA.select_spec h.d1 h.highLen i (by rw [seen_false, h.total]; exact hi)
  rw [seen_false] at q3
  rw [q1, q3.unique (h.high i hi)]

theorem EF.mul_bound {e : EF} {vs : List W} (h : e.Rep vs) (i : Nat) (hi : i < vs.length) :
    i * e.l + e.l ≤ 64 * e.low.bits.length := by
  have h1 : (i + 1) * e.l ≤ vs.length * e.l := Nat.mul_le_mul_right _ (by omega)
  rw [Nat.add_mul, Nat.one_mul] at h1
  have := h.lowLen
  omega

theorem EF.access_spec {e : EF} {vs : List W} (h : e.Rep vs) (i : Nat) (hi : i < vs.length) :
    e.access i = .ok vs[i].toNat := by
  have hl := h.l64
  unfold EF.access
  rw [EF.select_spec h i hi]
  simp only [M.ok_bind]
  obtain ⟨w, w1, w2⟩ := e.low.getBits_spec (i * e.l) e.l (by omega) (EF.mul_bound h i hi)
  rw [w1]
  simp only [M.ok_bind]
  rw [Nat.add_sub_cancel]
  rw [EF.value_eq e.l vs[i] w hl]
  intro k hk
  rw [← BitVec.testBit_toNat, w2, valueAt_testBit]
  by_cases hkl : k < e.l
  · rw [h.low i hi k hkl, decide_eq_true hkl]; simp
  · rw [decide_eq_false hkl]; simp

/-- state of an iterator positioned at `j` -/
structure EFI.Inv (e : EF) (vs : List W) (x : EFI) (j : Nat) : Prop where
  pos : x.pos = j
  high : ∀ hj : j < vs.length, x.high = vs[j].toNat / 2 ^ e.l + j
  it : ∀ hj : j < vs.length, x.it.Inv e.high (vs[j].toNat / 2 ^ e.l + j + 1)
  chunks : e.l ≠ 0 → x.chunks = 64 / e.l
  fits : e.l ≠ 0 → (x.avail + 1) * e.l ≤ 64
  many : e.l = 0 → vs.length ≤ x.avail + j
  buf : ∀ k, k < (x.avail + 1) * e.l → x.lowBuf.getLsbD k = bitAt e.low.bits (j * e.l + k)

theorem EF.chunk_bound (l : Nat) (h0 : l ≠ 0) (hl : l < 64) : (64 / l - 1 + 1) * l ≤ 64 ∧ 1 ≤ 64 / l := by
  have h1 : 1 ≤ 64 / l := (Nat.one_le_div_iff (by omega)).mpr (by omega)
  have h2 := Nat.div_mul_le_self 64 l
  rw [Nat.sub_add_cancel h1]
  exact ⟨h2, h1⟩

theorem EF.at_spec {e : EF} {vs : List W} (h : e.Rep vs) (j : Nat) (hj : j < vs.length) :
    ∃ it, e.at' j = .ok it ∧ it.Inv e vs j := by
  have hl := h.l64
  have hpos : e.d1.positions = vs.length := by
    have := h.d1.pos
    rw [seen_false, h.total] at this; exact this
  unfold EF.at' EF.univ
  rw [h.size, EF.access_spec h (vs.length - 1) (by omega)]
  simp only [M.ok_bind]
  have hsel := h.high j hj
  have hb := h.bound j hj
  have hhl := h.highLen
  obtain ⟨u0, a1, a2, a3⟩ := UI.mk'_spec e.high (vs[j].toNat / 2 ^ e.l + j) (by omega)
  obtain ⟨u1, b1, b2, b3⟩ := UI.next_spec e.high u0 _ (vs[j].toNat / 2 ^ e.l + j) a3 (by omega) (by omega) hsel.1
    (by intro i h1 h2; omega)
  have hlow : ∃ buf chunks avail, e.lowInit j = .ok (buf, chunks, avail) ∧ (e.l ≠ 0 → chunks = 64 / e.l) ∧
      (e.l ≠ 0 → (avail + 1) * e.l ≤ 64) ∧ (e.l = 0 → vs.length ≤ avail + j) ∧
      (∀ k, k < (avail + 1) * e.l → buf.getLsbD k = bitAt e.low.bits (j * e.l + k)) := by
    unfold EF.lowInit
    by_cases h0 : e.l = 0
    · rw [if_neg (by simp [h0])]
      exact ⟨_, _, _, rfl, fun hc => absurd h0 hc, fun hc => absurd h0 hc, fun _ => by omega, by intro k hk; simp [h0] at hk⟩
    · rw [if_pos h0]
      have := EF.mul_bound h j hj
      obtain ⟨w, w1, w2⟩ := e.low.getWord64_spec (j * e.l) (by omega)
      rw [w1]
      simp only [M.ok_bind]
      obtain ⟨c1, c2⟩ := EF.chunk_bound e.l h0 hl
      exact ⟨_, _, _, rfl, fun _ => rfl, fun _ => c1, fun hc => absurd hc h0, fun k hk => w2 k (by omega)⟩
  obtain ⟨buf, chunks, avail, l1, l2, l3, l4, l5⟩ := hlow
  rw [l1]
  simp only [M.ok_bind]
  rw [if_neg (by omega), EF.select_spec h j hj]
  simp only [M.ok_bind, a1, b1]
  exact ⟨_, rfl, ⟨rfl, fun _ => b2, fun _ => b3, l2, l3, l4, l5⟩⟩

theorem EF.value_spec {e : EF} {vs : List W} (h : e.Rep vs) (it : EFI) (j : Nat) (hj : j < vs.length) (hi : it.Inv e vs j) :
    e.value it = vs[j] := by
  have hl := h.l64
  unfold EF.value
  rw [hi.high hj, hi.pos, Nat.add_sub_cancel]
  apply EF.value_eq e.l vs[j] _ hl
  intro k hk
  rw [BitVec.getLsbD_and, maskW_getLsbD _ _ (by omega)]
  by_cases hkl : k < e.l
  · rw [hi.buf k (by rw [Nat.add_mul, Nat.one_mul]; omega), h.low j hj k hkl]
  · rw [decide_eq_false hkl]; simp

theorem EF.deref_spec {e : EF} {vs : List W} (h : e.Rep vs) (it : EFI) (j : Nat) (hj : j < vs.length) (hi : it.Inv e vs j) :
    ∃ it', e.deref it = .ok (vs[j].toNat, it') ∧ it'.Inv e vs j := by
  unfold EF.deref
  rw [h.size, hi.pos, if_neg (by omega), EF.value_spec h it j hj hi]
  exact ⟨_, rfl, ⟨rfl, hi.high, hi.it, hi.chunks, hi.fits, hi.many, hi.buf⟩⟩

theorem EF.high_gap {e : EF} {vs : List W} (h : e.Rep vs) (j : Nat) (hj : j + 1 < vs.length) :
    ∀ i, vs[j].toNat / 2 ^ e.l + j + 1 ≤ i → i < vs[j + 1].toNat / 2 ^ e.l + (j + 1) → bitAt e.high.bits i = false := by
  intro i h1 h2
  cases hb : bitAt e.high.bits i with
  | false => rfl
  | true =>
      have s1 := h.high j (by omega)
      have s2 := h.high (j + 1) hj
      have c1 := cnt_lt (bitAt e.high.bits) (show vs[j].toNat / 2 ^ e.l + j < i by omega) s1.1
      have c2 := cnt_lt (bitAt e.high.bits) h2 hb
      have := s1.2
      have := s2.2
      omega

theorem EF.high_mono {e : EF} {vs : List W} (h : e.Rep vs) (j : Nat) (hj : j + 1 < vs.length) :
    vs[j].toNat / 2 ^ e.l + j + 1 ≤ vs[j + 1].toNat / 2 ^ e.l + (j + 1) := by
  have s1 := h.high j (by omega)
  have s2 := h.high (j + 1) hj
  apply Nat.le_of_not_lt
  intro hlt
  have := cnt_mono (bitAt e.high.bits) (show vs[j + 1].toNat / 2 ^ e.l + (j + 1) ≤ vs[j].toNat / 2 ^ e.l + j by omega)
  rw [s1.2, s2.2] at this
  omega

theorem EF.inc_spec {e : EF} {vs : List W} (h : e.Rep vs) (it : EFI) (j : Nat) (hj : j < vs.length) (hi : it.Inv e vs j) :
    ∃ it', e.inc it = .ok it' ∧ (j + 1 < vs.length → it'.Inv e vs (j + 1)) := by
  have hl := h.l64
  unfold EF.inc
  rw [h.size, hi.pos]
  by_cases hlast : j + 1 = vs.length
  · rw [if_pos hlast]
    exact ⟨_, rfl, fun hc => by omega⟩
  · rw [if_neg hlast]
    have hj1 : j + 1 < vs.length := by omega
    have hb := h.bound (j + 1) hj1
    have hhl := h.highLen
    obtain ⟨u, u1, u2, u3⟩ := UI.next_spec e.high it.it _ (vs[j + 1].toNat / 2 ^ e.l + (j + 1)) (hi.it hj) (by omega)
      (EF.high_mono h j hj1) (h.high (j + 1) hj1).1 (EF.high_gap h j hj1)
    rw [u1]
    simp only [M.ok_bind]
    unfold EF.refill
    simp only
    by_cases ha : it.avail = 0
    · rw [if_pos ha]
      by_cases h0 : e.l = 0
      · have := hi.many h0; omega
      · have := EF.mul_bound h (j + 1) hj1
        obtain ⟨w, w1, w2⟩ := e.low.getWord64_spec ((j + 1) * e.l) (by omega)
        rw [w1]
        simp only [M.ok_bind]
        obtain ⟨c1, c2⟩ := EF.chunk_bound e.l h0 hl
        have hch := hi.chunks h0
        have h64 : 64 / e.l ≤ 64 := Nat.div_le_self _ _
        have hav : (it.chunks + 2 ^ 64 - 1) % 2 ^ 64 = 64 / e.l - 1 := by
          rw [hch, show 64 / e.l + 2 ^ 64 - 1 = 64 / e.l - 1 + 2 ^ 64 by omega, Nat.add_mod_right,
            Nat.mod_eq_of_lt (by omega)]
        refine ⟨_, rfl, fun _ => ⟨rfl, fun _ => u2, fun _ => u3, fun _ => hch, ?_, fun hc => absurd hc h0, ?_⟩⟩
        · intro _; simp only [hav]; exact c1
        · simp only [hav]
          intro k hk
          exact w2 k (by omega)
    · rw [if_neg ha]
      refine ⟨_, rfl, fun _ => ⟨rfl, fun _ => u2, fun _ => u3, hi.chunks, ?_, ?_, ?_⟩⟩
      · intro h0
        have := hi.fits h0
        simp only
        have h2 : (it.avail - 1 + 1) * e.l ≤ (it.avail + 1) * e.l := Nat.mul_le_mul_right _ (by omega)
        omega
      · intro h0
        have := hi.many h0
        simp only; omega
      · intro k hk
        simp only at hk ⊢
        rw [BitVec.getLsbD_ushiftRight]
        have h2 : (it.avail - 1 + 1) * e.l + e.l = (it.avail + 1) * e.l := by
          rw [show it.avail - 1 + 1 = it.avail by omega, Nat.add_mul, Nat.one_mul]
        rw [hi.buf _ (by omega), Nat.add_mul, Nat.one_mul]
        congr 1; omega

theorem EF.seq_rep {e : EF} {vs : List W} (h : e.Rep vs) : e.seq.Rep (vs.map BitVec.toNat) := by
  refine ⟨?_, ?_⟩
  · intro i hi
    rw [List.length_map] at hi
    rw [List.getElem_map]
    exact EF.access_spec h i hi
  · refine ⟨fun it i => it.Inv e vs i, fun it i => it.Inv e vs i, ?_, ?_, ?_⟩
    · intro i hi
      rw [List.length_map] at hi
      exact EF.at_spec h i hi
    · intro it i hi hI
      have hi' : i < vs.length := by rwa [List.length_map] at hi
      rw [List.getElem_map]
      exact EF.deref_spec h it i hi' hI
    · intro it i hi hJ
      rw [List.length_map] at hi ⊢
      exact EF.inc_spec h it i hi hJ

theorem EF.scan_spec {e : EF} {vs : List W} (h : e.Rep vs) : ∀ (n j : Nat) (it : EFI), j + n ≤ vs.length →
    (0 < n → it.Inv e vs j) → e.scan n it = .ok (((vs.drop j).take n).map BitVec.toNat) := by
  intro n
  induction n with
  | zero => intro j it _ _; simp [EF.scan]
  | succ n ih =>
      intro j it hn hi
      obtain ⟨it1, d1, d2⟩ := EF.deref_spec h it j (by omega) (hi (by omega))
      obtain ⟨it2, i1, i2⟩ := EF.inc_spec h it1 j (by omega) d2
      unfold EF.scan
      rw [d1]
      simp only [M.ok_bind, i1]
      rw [ih (j + 1) it2 (by omega) (fun h0 => i2 (by omega))]
      simp only [M.ok_bind]
      rw [List.drop_eq_getElem_cons (show j < vs.length by omega), List.take_succ_cons, List.map_cons]

end AC
