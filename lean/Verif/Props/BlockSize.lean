import Verif.Proofs.BlockSize
import Verif.Props.Type4
/-!
# C59: the block size of type 4
-/
namespace AC.Props
open AC Spec

/-- **C59**: an index of type 4 can be built from every number `c` between 0 and 1 (the `float` number is `c * 2^-149`), and it is one of the indexes
that the theorems about type 4 are about. Its blocks have as many postings as `c` says: with `U` one more than the largest document id,
all blocks but the last have at least `c * U` postings, up to a relative error of `2^-23` and one posting, and no block has as many
without its last term, up to the same relative error. -/
theorem C59_blocks {C : Coll} (hC : ValidColl C) (hw : Suits4 C) (std : StdLib) (mem : Nat → W) {c : Nat} (hc : 0 < c) (hc' : c ≤ 2 ^ 149) {U : Nat}
    (hU : ∀ r ∈ C, r.1 < U) (hU' : ∃ r ∈ C, r.1 + 1 = U) :
    ∃ x m B, Index4.buildC std c (Pre.run C) mem = .ok x ∧ Index4.build std m (Pre.run C) mem = .ok x ∧ IsBlocks C m B ∧
      (∀ b ∈ B.dropLast, U * c * (2 ^ 24 - 1) ^ 2 < (postings C b + 1) * 2 ^ 149 * 2 ^ 48) ∧
      (∀ b ∈ B, b.dropLast = [] ∨ postings C b.dropLast * 2 ^ 149 * 2 ^ 48 < U * c * (2 ^ 24 + 1) ^ 2) := by
  have hu : (Pre.run C).univ = U := by
    have F := hC.ready.files
    obtain ⟨r, hr, e⟩ := F.univ
    obtain ⟨r', hr', e'⟩ := hU'
    have h1 := hU r hr
    have h2 := F.lt_univ r' hr'
    omega
  obtain ⟨m, hm⟩ := blockSize_ok (u := U) hc hc'
  obtain ⟨_, _, b1, b2⟩ := blockSize_bounds hm
  obtain ⟨x, B, h1, hB, _⟩ := C06_exact std hC hw m mem
  refine ⟨x, m, B, ?_, h1, hB, ?_, ?_⟩
  · unfold Index4.buildC
    rw [hu, hm, M.ok_bind]
    exact h1
  · intro b hb
    refine Nat.lt_of_lt_of_le b2 ?_
    exact Nat.mul_le_mul_right _ (Nat.mul_le_mul_right _ (Nat.succ_le_succ (hB.full b hb)))
  · intro b hb
    rcases hB.least b hb with h | h
    · exact .inl h
    · refine .inr (Nat.lt_of_lt_of_le ?_ b1)
      exact Nat.mul_lt_mul_of_pos_right (Nat.mul_lt_mul_of_pos_right h (Nat.two_pow_pos _)) (Nat.two_pow_pos _)

/-- other numbers are refused -/
theorem C59_refused (std : StdLib) (F : Files) (mem : Nat → W) {c : Nat} (hc : c = 0 ∨ 2 ^ 149 < c) : Index4.buildC std c F mem = .error .thrown := by
  unfold Index4.buildC
  rw [blockSize_thrown hc, M.error_bind]

/-- the sample, with `c = 0.5` -/
example (std : StdLib) (mem : Nat → W) : ∃ x, Index4.buildC std (2 ^ 148) (Pre.run sampleColl) mem = .ok x := by
  obtain ⟨x, _, _, h, _⟩ := C59_blocks sampleColl_valid sampleColl_suits4 std mem (c := 2 ^ 148) (Nat.two_pow_pos _) (Nat.pow_le_pow_right (by decide) (by decide))
    (U := 8) (by decide) ⟨(7, [[98], [97, 98]]), by decide, rfl⟩
  exact ⟨x, h⟩

/-- the sample with `c = 0.5`: blocks of 4 postings, of which the first has the terms "ab" and "b" -/
example : blockSize 8 (2 ^ 148) = .ok 4 ∧ IsBlocks sampleColl 4 [[[97, 98], [98]], [[99]]] := by
  refine ⟨by decide +kernel, ?_⟩
  exact ⟨by decide, fun t => by rw [sampleColl_terms]; rfl, by decide, by decide, by decide⟩

end AC.Props
