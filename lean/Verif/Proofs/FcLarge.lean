import Verif.Proofs.FcLoss
/-!
# Dictionaries whose pointers do not hold the size of their text
-/
namespace AC
namespace FC

/-- the number of characters of the first `j` headers -/
def hsum (L : List (List Nat)) (j : Nat) : Nat := ((List.range j).map fun b => (L.getD (17 * b) []).length).sum

theorem hsum_zero (L : List (List Nat)) : hsum L 0 = 0 := rfl

theorem hsum_succ (L : List (List Nat)) (j : Nat) : hsum L (j + 1) = hsum L j + (L.getD (17 * j) []).length := by
  simp [hsum, List.range_succ]

theorem hsum_cons (h : List Nat) (input : List (List Nat)) (j : Nat) : hsum (h :: input) (j + 1) = h.length + hsum (input.drop 16) j := by
  induction j with
  | zero => simp [hsum]
  | succ j ih =>
      rw [hsum_succ, ih, hsum_succ, Nat.add_assoc]
      congr 3
      rw [List.getD_eq_getElem?_getD, List.getD_eq_getElem?_getD, List.getElem?_drop, show 17 * (j + 1) = (16 + 17 * j) + 1 by omega,
        List.getElem?_cons_succ]

/-- the pointers to the headers are the sizes of the headers, truncated -/
theorem buildLoop_ptrs (E : Elem) (lcpOf) (tl : Nat) (htl : tl ≤ 16) : ∀ (nb : Nat) (L : List (List Nat)) (d : FC) (b0 : Nat),
    (nb ≠ 0 → 17 * (nb - 1) + 1 + tl ≤ L.length) → d.ptrHeaders.length = b0 + 1 →
    ∃ d', buildLoop E lcpOf tl nb L d = .ok d' ∧ d'.size = d.size ∧ d.ptrHeaders <+: d'.ptrHeaders ∧ d'.ptrHeaders.length = b0 + nb + 1 ∧
      ∀ j < nb, d'.ptrHeaders[b0 + 1 + j]? = some ((d.headers.length + hsum L (j + 1)) % E.ptr)
  | 0, L, d, b0, h1, h2 => ⟨d, by simp [buildLoop], rfl, List.prefix_rfl, by omega, fun j hj => by omega⟩
  | nb + 1, [], d, b0, h1, h2 => by simp at h1
  | nb + 1, h :: input, d, b0, h1, h2 => by
      have h1' := h1 (by omega)
      simp only [List.length_cons, Nat.add_sub_cancel] at h1'
      simp only [buildLoop]
      have hsz : (if nb ≠ 0 then 16 else tl) ≤ input.length := by split <;> omega
      have hsz' : nb ≠ 0 → (if nb ≠ 0 then 16 else tl) = 16 := fun h => if_pos h
      generalize (if nb ≠ 0 then 16 else tl) = sz at *
      rw [buildBucket_eq _ _ _ _ _ _ hsz]
      simp only [M.ok_bind]
      obtain ⟨d', e1, e2, e3, e4, e5⟩ := buildLoop_ptrs E lcpOf tl htl nb (input.drop sz)
        { d with headers := d.headers ++ h, buckets := d.buckets ++ encode E lcpOf h (input.take sz),
                 ptrHeaders := d.ptrHeaders ++ [(d.headers ++ h).length % E.ptr],
                 ptrBuckets := d.ptrBuckets ++ [(d.buckets ++ encode E lcpOf h (input.take sz)).length % E.ptr] }
        (b0 + 1) (by intro hne; rw [hsz' hne, List.length_drop]; omega) (by simp [h2])
      refine ⟨d', e1, e2, List.IsPrefix.trans (List.prefix_append ..) e3, by omega, ?_⟩
      intro j hj
      rw [hsum_cons]
      rcases j with _ | j
      · rw [hsum_zero, Nat.add_zero]
        refine prefix_getElem? e3 ?_
        simp [← h2]
      · have := e5 j (by omega)
        rw [hsz' (by omega)] at this
        rw [show b0 + 1 + (j + 1) = b0 + 1 + 1 + j by omega, this, List.length_append, ← Nat.add_assoc]

/-- the first time the sum of the sizes reaches the number of values of a pointer -/
theorem first_over {L : List (List Nat)} {p : Nat} : ∀ {n : Nat}, 0 < p → p ≤ hsum L n → ∃ j < n, hsum L j < p ∧ p ≤ hsum L (j + 1)
  | 0, hp, h => by rw [hsum_zero] at h; omega
  | n + 1, hp, h => by
      by_cases h' : p ≤ hsum L n
      · obtain ⟨j, h1, h2⟩ := first_over hp h'
        exact ⟨j, by omega, h2⟩
      · exact ⟨n, by omega, by omega, h⟩

/-- when the headers take more than a pointer can hold, one of the headers ends before it starts -/
theorem build_large {E : Elem} {lcpOf} {L : List (List Nat)} {p : Nat} (he : E.ptr = p) (hlen : ∀ s ∈ L, s.length ≤ 128) (hp : 128 < p)
    (hbig : p ≤ hsum L ((L.length + 16) / 17)) :
    ∃ d, build E lcpOf L = .ok d ∧ d.size = L.length ∧ ∃ b, 17 * b < L.length ∧ d.header b = .error .oob := by
  subst he
  obtain ⟨d', h1, h2, h3, h4, h5⟩ := buildLoop_ptrs E lcpOf (tail L.length) (by simp only [tail]; split <;> omega) ((L.length + 16) / 17) L
    { size := L.length, ptrHeaders := [0], ptrBuckets := [0], headers := [], buckets := [] } 0
    (by intro h; simp only [tail]; split <;> omega) rfl
  obtain ⟨j, j1, j2, j3⟩ := first_over (by omega) hbig
  have hj : 17 * j < L.length := by omega
  have hs : hsum L (j + 1) ≤ hsum L j + 128 := by
    rw [hsum_succ, List.getD_eq_getElem?_getD, List.getElem?_eq_getElem hj, Option.getD_some]
    have := hlen _ (List.getElem_mem hj)
    omega
  have hb : d'.ptrHeaders[j]? = some (hsum L j) := by
    rcases j with _ | j
    · exact prefix_getElem? h3 rfl
    · have := h5 j (by omega)
      simp only [List.length_nil, Nat.zero_add, Nat.mod_eq_of_lt j2] at this
      rw [Nat.add_comm] at this
      exact this
  have he : d'.ptrHeaders[j + 1]? = some (hsum L (j + 1) - E.ptr) := by
    have := h5 j j1
    simp only [List.length_nil, Nat.zero_add] at this
    rw [Nat.add_comm j 1, this, Nat.add_comm 1 j, Nat.mod_eq_sub_mod j3, Nat.mod_eq_of_lt (by omega)]
  refine ⟨{ d' with buckets := d'.buckets ++ List.replicate (E.cap * E.width) 0 }, ?_, h2, j, hj, ?_⟩
  · simp only [build, h1, M.ok_bind]
  · have hlt : hsum L (j + 1) - E.ptr < hsum L j := by omega
    simp only [header, rd_of_getElem? hb, rd_of_getElem? he, M.ok_bind]
    rw [if_neg (by omega)]

end FC
end AC
