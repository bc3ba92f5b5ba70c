import Verif.Proofs.UnsortedTopK
import Verif.Proofs.StdLib
/-!
# C14: the k smallest values of a range of an unsorted list
-/
namespace AC.Props
open AC

/-- C14: for every list of values (not all zero: `C14_build_zero`), every range `[a, b)` and every `k`, `topk` writes at the
beginning of the buffer the `k` smallest values of the range, with multiplicity and in increasing order, and returns how many
they are. Nothing is read or written outside of the structures and of the buffer. -/
theorem C14_topk (std : StdLib) (v : List Nat) (after1 after2 : W) (hlen : v.length < 2 ^ 30 - 1)
    (hsmall : ∀ x ∈ v, x < 2 ^ 32) (hpos : ∃ x ∈ v, x ≠ 0) :
    ∃ u, UL.build v after1 after2 = .ok u ∧ u.size = v.length ∧
      ∀ a b k (buf : List Nat), a ≤ b → b ≤ v.length → (1 ≤ k ∨ a = b) → min k (b - a) ≤ buf.length →
        ∃ buf', UL.topk std u a b k false buf = .ok (buf', min k (b - a)) ∧ buf'.length = buf.length ∧
          Spec.IsSortedPrefix ((v.drop a).take (b - a)) k (buf'.take (min k (b - a))) := by
  obtain ⟨u, u1, u2⟩ := UL.build_spec v after1 after2 hlen hsmall hpos
  refine ⟨u, u1, u2.size, ?_⟩
  intro a b k buf hab hb hk hbuf
  exact UL.topk_spec std u2 hab hb hk hbuf

/-- C14, with `unique`: the `k` smallest distinct values, in increasing order. Missing from the claim: ranges with at most `k`
elements, for which the parameter is ignored (`C14_unique_ignored`). -/
theorem C14_unique_partial (std : StdLib) (v : List Nat) (after1 after2 : W) (hlen : v.length < 2 ^ 30 - 1)
    (hsmall : ∀ x ∈ v, x < 2 ^ 32) (hpos : ∃ x ∈ v, x ≠ 0) :
    ∃ u, UL.build v after1 after2 = .ok u ∧
      ∀ a b k (buf : List Nat), a ≤ b → b ≤ v.length → 1 ≤ k → k < b - a → k ≤ buf.length →
        ∃ buf' n, UL.topk std u a b k true buf = .ok (buf', n) ∧ buf'.length = buf.length ∧ n ≤ k ∧
          Spec.IsTopK (fun x => x ∈ (v.drop a).take (b - a)) k (buf'.take n) := by
  obtain ⟨u, u1, u2⟩ := UL.build_spec v after1 after2 hlen hsmall hpos
  refine ⟨u, u1, ?_⟩
  intro a b k buf hab hb hk hkl hbuf
  obtain ⟨pos, p1, p2, p3, p4⟩ := UL.init_inv std u2 (show a < b by omega) hb
  unfold UL.topk
  simp only
  rw [if_neg (by omega), p1, M.ok_bind, p2, M.ok_bind, ← UL.range_slice v hb]
  exact UL.topkLoop_unique std u2 _ k (b - a + 1) _ buf [] 0 p3 hk hbuf (by simp) (by simp) (by omega)

/-- what is false of C14: for ranges with at most `k` elements `unique` changes nothing -/
theorem C14_unique_ignored (std : StdLib) (u : UL) (a b k : Nat) (buf : List Nat) (h : b - a ≤ k) :
    UL.topk std u a b k true buf = UL.topk std u a b k false buf := by
  unfold UL.topk
  simp only
  rw [if_pos h, if_pos h]

/-- a list for which the values returned with `unique` are not distinct -/
theorem C14_unique_false : ∃ (v : List Nat) (u : UL) (buf' : List Nat), UL.build v 0 0 = .ok u ∧
    UL.topk StdLib.bySorting u 0 2 2 true [0, 0] = .ok (buf', 2) ∧ ¬ (buf'.take 2).Pairwise (· < ·) := by
  obtain ⟨u, u1, u2, u3⟩ := C14_topk StdLib.bySorting [7, 7] 0 0 (by decide) (by decide) ⟨7, by decide, by decide⟩
  obtain ⟨buf', b1, b2, b3⟩ := u3 0 2 2 [0, 0] (by decide) (by decide) (by decide) (by decide)
  refine ⟨[7, 7], u, buf', u1, ?_, ?_⟩
  · rw [C14_unique_ignored _ _ _ _ _ _ (by decide)]; exact b1
  · have h2 : Spec.IsSortedPrefix [7, 7] 2 [7, 7] := ⟨[7, 7], List.Perm.refl _, by decide, rfl⟩
    have := Spec.IsSortedPrefix.unique b3 h2
    rw [show min 2 (2 - 0) = 2 from rfl] at this
    rw [this]
    decide

/-- what the callers have to ensure: with `k = 0`, or with `k` greater than the size of the buffer, and with more elements in the
range than in the buffer, `topk` writes past the end of the buffer -/
theorem C14_overflow (std : StdLib) (v : List Nat) (after1 after2 : W) (hlen : v.length < 2 ^ 30 - 1)
    (hsmall : ∀ x ∈ v, x < 2 ^ 32) (hpos : ∃ x ∈ v, x ≠ 0) :
    ∃ u, UL.build v after1 after2 = .ok u ∧
      ∀ a b k (buf : List Nat), a ≤ b → b ≤ v.length → (k = 0 ∨ buf.length < k) → buf.length < b - a →
        UL.topk std u a b k false buf = .error .oob := by
  obtain ⟨u, u1, u2⟩ := UL.build_spec v after1 after2 hlen hsmall hpos
  refine ⟨u, u1, ?_⟩
  exact fun a b k buf hab hb hk hl => UL.topk_overflow std u2 hab hb hk hl

/-- what is excluded by the hypotheses: a list of zeros cannot be built -/
theorem C14_build_zero (n : Nat) (after1 after2 : W) (hn : n < 2 ^ 30 - 2) :
    UL.build (List.replicate (n + 1) 0) after1 after2 = .error .thrown := UL.build_zero n after1 after2 hn

/-- a list with repeated values and a buffer of 4 elements: the 3 smallest values of a range of 6 -/
example : (UL.build [9, 4, 7, 1, 4, 4, 8, 2] 0 5 >>= fun u => UL.topk StdLib.bySorting u 1 7 3 false [0, 0, 0, 99]) =
    .ok ([1, 4, 4, 99], 3) := by decide +kernel

example : (UL.build [9, 4, 7, 1, 4, 4, 8, 2] 0 5 >>= fun u => UL.topk StdLib.bySorting u 1 7 3 true [0, 0, 0, 99]) =
    .ok ([1, 4, 7, 99], 3) := by decide +kernel

/-- the hypotheses of the theorems are met -/
example : [9, 4, 7, 1, 4, 4, 8, 2].length < 2 ^ 30 - 1 ∧ (∀ x ∈ [9, 4, 7, 1, 4, 4, 8, 2], x < 2 ^ 32) ∧
    ∃ x ∈ [9, 4, 7, 1, 4, 4, 8, 2], x ≠ 0 := by decide

end AC.Props
