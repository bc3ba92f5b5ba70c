import Verif.Proofs.CompactVector
import Verif.Proofs.SmallApi
/-!
# C16: fixed-width vectors
-/
namespace AC.Props

/-- **C16**, random access with `operator[]` and enumeration from any position, for every width the builder accepts: the
value at every index is the one given, modulo `2^w`. Nothing outside the buffer is read. -/
theorem C16_read (vs : List W) (w : Nat) (after : W) (h1 : 1 ≤ w) (h64 : w ≤ 64) :
    ∃ c, CV.build vs w after = .ok c ∧ c.size = vs.length ∧
      (∀ i (hi : i < vs.length), ∃ x, c.get i = .ok x ∧ x.toNat = vs[i].toNat % 2 ^ w) ∧
      (∀ i n, i + n ≤ vs.length → ∃ xs, CVE.scan c n (CVE.mk' c i) = .ok xs ∧
        xs.map BitVec.toNat = ((vs.drop i).take n).map (fun v => v.toNat % 2 ^ w)) := by
  obtain ⟨c, c1, c2, _⟩ := CV.build_spec vs w after h1 h64
  exact ⟨c, c1, c2.size, fun i hi => CV.get_spec c2 i hi,
    fun i n hi => CVE.scan_spec c2 n _ i (CVE.mk'_inv c i) hi⟩

/-- **C16**, the unaligned 8-byte read of `access`, for every width up to 57 and every content of the word of memory that
follows the buffer -/
theorem C16_access (vs : List W) (w : Nat) (after : W) (h1 : 1 ≤ w) (h57 : w ≤ 57) :
    ∃ c, CV.build vs w after = .ok c ∧
      ∀ i (hi : i < vs.length), ∃ x, c.access i = .ok x ∧ x.toNat = vs[i].toNat % 2 ^ w := by
  obtain ⟨c, c1, c2, _⟩ := CV.build_spec vs w after h1 (by omega)
  exact ⟨c, c1, fun i hi => CV.access_spec c2 h57 i hi⟩

theorem max_mem_le (L : List Nat) (m : Nat) (h : L.max? = some m) : ∀ x ∈ L, x ≤ m := by
  have := (List.max?_eq_some_iff.mp h).2
  exact this

/-- **C16**, automatic width: every value comes back unchanged. At least one value has to be positive (otherwise the width
would be zero: `C16_auto_zero`), and none may be the largest 64-bit number (the width is computed from the maximum plus one). -/
theorem C16_auto (vs : List W) (after : W) (hpos : ∃ v ∈ vs, v ≠ 0) (hmax : ∀ v ∈ vs, v.toNat + 1 < 2 ^ 64) :
    ∃ c, CV.buildAuto vs after = .ok c ∧ c.size = vs.length ∧
      (∀ i (hi : i < vs.length), c.get i = .ok vs[i]) ∧
      CVE.scan c vs.length (CVE.mk' c 0) = .ok vs ∧
      ((∀ v ∈ vs, v.toNat < 2 ^ 57) → ∀ i (hi : i < vs.length), c.access i = .ok vs[i]) := by
  obtain ⟨v0, hv0, hv0'⟩ := hpos
  unfold CV.buildAuto
  have hne : vs.map BitVec.toNat ≠ [] := by intro h; simp at h; subst h; simp at hv0
  obtain ⟨m, hm⟩ : ∃ m, (vs.map BitVec.toNat).max? = some m := by
    cases h : (vs.map BitVec.toNat).max? with
    | none => exact absurd (List.max?_eq_none_iff.mp h) hne
    | some m => exact ⟨m, rfl⟩
  rw [hm]
  simp only
  obtain ⟨hmem, hle⟩ := List.max?_eq_some_iff.mp hm
  obtain ⟨vm, hvm, rfl⟩ := List.mem_map.mp hmem
  have hmlt := hmax vm hvm
  have hv0pos : 0 < v0.toNat := by
    rcases Nat.eq_zero_or_pos v0.toNat with h | h
    · exact absurd (BitVec.eq_of_toNat_eq (by simpa using h)) hv0'
    · exact h
  have hm0 : v0.toNat ≤ vm.toNat := hle _ (List.mem_map.mpr ⟨v0, hv0, rfl⟩)
  rw [Nat.mod_eq_of_lt hmlt]
  have w1 := ceilLog2_pos (vm.toNat + 1) (by omega)
  have w64 := ceilLog2_le (vm.toNat + 1) 64 (by omega)
  have wlt := lt_two_pow_ceilLog2 (vm.toNat + 1) (by omega)
  have hsmall : ∀ v ∈ vs, v.toNat % 2 ^ ceilLog2 (vm.toNat + 1) = v.toNat := by
    intro v hv
    have := hle _ (List.mem_map.mpr ⟨v, hv, rfl⟩)
    exact Nat.mod_eq_of_lt (by omega)
  obtain ⟨c, c1, c2, _⟩ := CV.build_spec vs _ after w1 w64
  refine ⟨c, c1, c2.size, ?_, ?_, ?_⟩
  · intro i hi
    obtain ⟨x, x1, x2⟩ := CV.get_spec c2 i hi
    rw [hsmall _ (List.getElem_mem hi)] at x2
    rw [x1, BitVec.eq_of_toNat_eq x2]
  · obtain ⟨xs, x1, x2⟩ := CVE.scan_spec c2 vs.length _ 0 (CVE.mk'_inv c 0) (by omega)
    rw [x1]
    congr 1
    rw [List.drop_zero, List.take_length, List.map_congr_left hsmall] at x2
    exact (List.map_inj_right (fun a b h => BitVec.eq_of_toNat_eq h)).mp x2
  · intro h57 i hi
    have := h57 vm hvm
    obtain ⟨x, x1, x2⟩ := CV.access_spec c2 (ceilLog2_le _ 57 (by omega)) i hi
    rw [hsmall _ (List.getElem_mem hi)] at x2
    rw [x1, BitVec.eq_of_toNat_eq x2]

/-- what is outside the guarantee of `C16_auto`: a vector of zeros cannot be built, the constructor throws -/
theorem C16_auto_zero (n : Nat) (after : W) : CV.buildAuto (List.replicate (n + 1) 0) after = .error .thrown := by
  have : ((List.replicate (n + 1) (0 : W)).map BitVec.toNat).max? = some 0 := by
    rw [List.max?_eq_some_iff]
    constructor
    · simp
    · intro b hb; simp at hb; omega
  unfold CV.buildAuto
  rw [this]
  exact CV.build_width0 _ _ _ (by left; simp [ceilLog2])

/-- the hypotheses are met by a vector whose values straddle words, followed by arbitrary memory -/
example : ∃ c, CV.buildAuto [5, 1023, 0, 77, 512, 1, 2, 3] 0xffffffffffffffff = .ok c ∧ c.width = 10 ∧
    c.get 6 = .ok 2 ∧ c.access 6 = .ok 2 := by
  obtain ⟨c, c1, c2, c3, c4, c5⟩ := C16_auto [5, 1023, 0, 77, 512, 1, 2, 3] 0xffffffffffffffff ⟨5, by decide, by decide⟩
    (by simp)
  refine ⟨c, c1, ?_, c3 6 (by decide), c5 (by simp) 6 (by decide)⟩
  have : CV.buildAuto [5, 1023, 0, 77, 512, 1, 2, 3] 0xffffffffffffffff =
    CV.build [5, 1023, 0, 77, 512, 1, 2, 3] 10 0xffffffffffffffff := by decide
  rw [this] at c1
  obtain ⟨c', d1, d2, _⟩ := CV.build_spec [5, 1023, 0, 77, 512, 1, 2, 3] 10 0xffffffffffffffff (by decide) (by decide)
  rw [d1] at c1
  cases c1
  exact d2.width

/-- the values after a sequence of assignments -/
def assign (vs : List W) (os : List (Nat × W)) : List W := os.foldl (fun l o => l.set o.1 o.2) vs

/-- **C16**, writing: a builder made for `n` values is filled in order (`fill`) or left as it is made (all zeros); then any
sequence of `set(i, v)` with `i < n` and `v` below `2^w` assigns exactly the values addressed, also those that straddle words,
and leaves the other ones as they were. -/
theorem C16_set (vs : List W) (n w : Nat) (after : W) (h1 : 1 ≤ w) (h64 : w ≤ 64) (os : List (Nat × W))
    (ho : ∀ o ∈ os, o.2.toNat < 2 ^ w) :
    ((∀ o ∈ os, o.1 < vs.length) → ∃ b0 b1 b2, CVB.mk' vs.length w = .ok b0 ∧ b0.fill vs = .ok b1 ∧ b1.sets os = .ok b2 ∧
      ∀ i (hi : i < (assign vs os).length), ∃ x, (b2.done after).get i = .ok x ∧
        x.toNat = (assign vs os)[i].toNat % 2 ^ w) ∧
    ((∀ o ∈ os, o.1 < n) → ∃ b0 b1, CVB.mk' n w = .ok b0 ∧ b0.sets os = .ok b1 ∧
      ∀ i (hi : i < (assign (List.replicate n 0) os).length), ∃ x, (b1.done after).get i = .ok x ∧
        x.toNat = (assign (List.replicate n 0) os)[i].toNat % 2 ^ w) := by
  refine ⟨?_, ?_⟩
  · intro hi
    obtain ⟨b0, e0, _⟩ := CVB.mk'_rep vs.length w after h1 h64
    obtain ⟨b1, e1, e2, e3⟩ := CVB.fill_rep vs w after h1 h64
    rw [e0] at e1
    have e1 : b0.fill vs = .ok b1 := e1
    subst e2
    obtain ⟨b2, f1, f2, f3⟩ := CVB.sets_spec after os b1 vs h1 h64 e3 (fun o h => ⟨hi o h, ho o h⟩)
    exact ⟨b0, b1, b2, e0, e1, f1, fun i hi => CV.get_spec f3 i hi⟩
  · intro hi
    obtain ⟨b1, e1, e2, e3⟩ := CVB.mk'_rep n w after h1 h64
    subst e2
    obtain ⟨b2, f1, f2, f3⟩ := CVB.sets_spec after os b1 (List.replicate n 0) h1 h64 e3
      (fun o h => ⟨by simpa using hi o h, ho o h⟩)
    exact ⟨b1, b2, e1, f1, fun i hi => CV.get_spec f3 i hi⟩

/-- the hypotheses are met by assignments that straddle words and that overwrite each other -/
example : (∀ o ∈ [(6, 1000), (0, 3), (6, 777)], (o : Nat × W).2.toNat < 2 ^ 10 ∧ o.1 < 8) ∧
    assign [5, 1023, 0, 77, 512, 1, 2, 3] [(6, 1000), (0, 3), (6, 777)] = [3, 1023, 0, 77, 512, 1, 777, 3] := by decide

/-- outside of the domain: a value that is too large for the width changes the one that follows -/
theorem C16_set_too_large : ∃ b0 b1, CVB.mk' 2 4 = .ok b0 ∧ b0.sets [(0, 0x11)] = .ok b1 ∧ (b1.done 0).get 1 = .ok 1 := by
  refine ⟨⟨2, 4, 0, 0, [0]⟩, ⟨2, 4, 0, 0, [0x11]⟩, by decide, by decide, by decide⟩

end AC.Props
