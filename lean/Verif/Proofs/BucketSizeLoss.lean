import Verif.Proofs.IntBucketSize
/-!
# Dictionaries whose number of strings is a multiple of the size of a full bucket, for any bucket size

The lemmas of Proofs/FcLoss.lean with a bucket size `B` instead of 16.
-/
namespace AC
namespace FC

theorem buildLoopB_append (B : Nat) (E : Elem) (lcpOf : List Nat → List Nat → Nat) (tl : Nat) :
    ∀ (nb : Nat) (A X : List (List Nat)) (d : FC), (nb ≠ 0 → (B + 1) * (nb - 1) + 1 + tl ≤ A.length) →
      buildLoopB B E lcpOf tl nb (A ++ X) d = buildLoopB B E lcpOf tl nb A d
  | 0, A, X, d, _ => by simp [buildLoopB]
  | nb + 1, [], X, d, h => by
      have := h (by omega)
      simp at this
  | nb + 1, a :: A, X, d, h => by
      have h' := h (by omega)
      simp only [List.length_cons, Nat.add_sub_cancel] at h'
      have hpred : nb ≠ 0 → (B + 1) * nb = (B + 1) * (nb - 1) + (B + 1) := by
        intro h0
        rw [← Nat.mul_succ]
        congr 1; omega
      simp only [List.cons_append, buildLoopB]
      have hsz : (if nb ≠ 0 then B else tl) ≤ A.length := by
        split
        · have := hpred (by assumption); omega
        · omega
      have hsz' : nb ≠ 0 → (B + 1) * (nb - 1) + 1 + tl ≤ A.length - (if nb ≠ 0 then B else tl) := by
        intro h; rw [if_pos h]; have := hpred h; omega
      generalize (if nb ≠ 0 then B else tl) = sz at *
      rw [buildBucket_append E lcpOf sz a A X _ hsz, buildBucket_eq _ _ _ _ _ _ hsz]
      simp only [Except.map, M.ok_bind]
      apply buildLoopB_append
      intro h; simp; exact hsz' h

theorem buildLoopB_size (B : Nat) (E : Elem) (lcpOf : List Nat → List Nat → Nat) (tl sz : Nat) :
    ∀ (nb : Nat) (A : List (List Nat)) (d : FC),
      buildLoopB B E lcpOf tl nb A { d with size := sz } =
        (buildLoopB B E lcpOf tl nb A d).map fun d => { d with size := sz }
  | 0, A, d => rfl
  | nb + 1, [], d => rfl
  | nb + 1, a :: A, d => by
      simp only [buildLoopB]
      cases buildBucket E lcpOf (if nb ≠ 0 then B else tl) a A d.buckets with
      | error e => rfl
      | ok r =>
          simp only [M.ok_bind]
          rw [← buildLoopB_size]

theorem tailB_mul (B q : Nat) : tailB B ((B + 1) * q) = 0 := by
  simp only [tailB]
  rw [Nat.mul_div_cancel_left _ (by omega), Nat.mul_comm q, Nat.sub_self]
  simp

theorem tailB_mul_one {B q : Nat} (hB : 0 < B) : tailB B ((B + 1) * q + 1) = 0 := by
  have h : ((B + 1) * q + 1) % (B + 1) = 1 := by
    rw [Nat.mul_add_mod, Nat.mod_eq_of_lt (by omega)]
  rw [tailB_eq (by omega), h]

/-- The dictionary built from `(B + 1) q` strings is, up to the stored size, the one built from all but the last `B`. -/
theorem buildB_mod {B : Nat} (hB : 0 < B) {E : Elem} {lcpOf : List Nat → List Nat → Nat} {L : List (List Nat)}
    (h : L.length % (B + 1) = 0) (hne : L ≠ []) :
    buildB B E lcpOf L = (buildB B E lcpOf (L.take (L.length - B))).map fun d => { d with size := L.length } := by
  have hpos : 0 < L.length := List.length_pos_iff.mpr hne
  have h1 : (L.take (L.length - B)).length = L.length - B := by simp
  obtain ⟨q, hq⟩ : ∃ q, L.length = (B + 1) * (q + 1) := by
    obtain ⟨q, hq⟩ := Nat.dvd_of_mod_eq_zero h
    rcases q with _ | q
    · rw [hq] at hpos; simp at hpos
    · exact ⟨q, hq⟩
  have hq' : L.length - B = (B + 1) * q + 1 := by rw [hq, Nat.mul_succ]; omega
  have htl : tailB B L.length = 0 := by rw [hq]; exact tailB_mul _ _
  have htl' : tailB B (L.length - B) = 0 := by rw [hq']; exact tailB_mul_one hB
  have hnb : (L.length + B) / (B + 1) = q + 1 := by
    rw [hq, Nat.mul_add_div (by omega), Nat.div_eq_of_lt (by omega)]
  have hnb' : (L.length - B + B) / (B + 1) = q + 1 := by
    rw [hq', Nat.add_assoc, Nat.add_comm 1 B, ← Nat.mul_succ, Nat.mul_div_cancel_left _ (by omega)]
  simp only [buildB, h1, htl, htl', hnb, hnb']
  have happ := fun d => buildLoopB_append B E lcpOf 0 (q + 1) (L.take (L.length - B))
    (L.drop (L.length - B)) d (by intro _; rw [h1, hq', Nat.add_sub_cancel]; omega)
  rw [List.take_append_drop] at happ
  rw [happ]
  rw [buildLoopB_size (d := { size := L.length - B, ptrHeaders := [0], ptrBuckets := [0], headers := [], buckets := [] })
    B E lcpOf 0 L.length]
  cases buildLoopB B E lcpOf 0 (q + 1) (L.take (L.length - B))
    { size := L.length - B, ptrHeaders := [0], ptrBuckets := [0], headers := [], buckets := [] } with
  | error e => rfl
  | ok r => rfl

theorem bucketSizeB_size {B : Nat} {d : FC} {n b : Nat} (h : tailB B n = tailB B d.size) :
    bucketSizeB B { d with size := n } b = bucketSizeB B d b := by
  simp only [bucketSizeB, h, nBuckets]
  rfl

theorem scanB_size {ρ : Type} {B : Nat} {E : Elem} {d : FC} {n : Nat} (h : tailB B n = tailB B d.size)
    (stop : Nat → List Nat → Option ρ) (hd : List Nat) (b : Nat) (buf : List Nat) :
    scanB B E { d with size := n } stop hd b buf = scanB B E d stop hd b buf := by
  have hl : ∀ k i cur buf, scanLoop E { d with size := n } stop k i cur buf = scanLoop E d stop k i cur buf := by
    intro k
    induction k with
    | zero => intros; rfl
    | succ k ih =>
        intro i cur buf
        simp only [scanLoop, ih]
        rfl
  simp only [scanB, bucketSizeB_size h, hl]

end FC

theorem FcDict.locateB_size {B : Nat} {d : FC} {n : Nat} (h : FC.tailB B n = FC.tailB B d.size) (t buf : Str) :
    FcDict.locateB B { d with size := n } t buf = FcDict.locateB B d t buf := by
  simp only [FcDict.locateB, FcDict.locateInB, FC.scanB_size h, FC.locateBucket_size]

end AC
