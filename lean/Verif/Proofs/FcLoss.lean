import Verif.Proofs.FcDictionary
/-!
# Dictionaries whose number of strings is a multiple of 17

The builder takes the last bucket of such a dictionary to consist of its header only.
-/
namespace AC
namespace FC

theorem buildBucket_append (E : Elem) (lcpOf : List Nat → List Nat → Nat) :
    ∀ (n : Nat) (prev : List Nat) (A X : List (List Nat)) (bk : List Nat), n ≤ A.length →
      buildBucket E lcpOf n prev (A ++ X) bk =
        (buildBucket E lcpOf n prev A bk).map fun r => (r.1 ++ X, r.2)
  | 0, _, A, X, bk, _ => rfl
  | n + 1, _, [], X, bk, h => by simp at h
  | n + 1, prev, a :: A, X, bk, h => by
      simp only [List.cons_append, buildBucket]
      exact buildBucket_append E lcpOf n a A X _ (by simpa using h)

theorem buildLoop_append (E : Elem) (lcpOf : List Nat → List Nat → Nat) (tl : Nat) :
    ∀ (nb : Nat) (A X : List (List Nat)) (d : FC), (nb ≠ 0 → 17 * (nb - 1) + 1 + tl ≤ A.length) →
      buildLoop E lcpOf tl nb (A ++ X) d = buildLoop E lcpOf tl nb A d
  | 0, A, X, d, _ => by simp [buildLoop]
  | nb + 1, [], X, d, h => by simp at h
  | nb + 1, a :: A, X, d, h => by
      have h' := h (by omega)
      simp only [List.length_cons, Nat.add_sub_cancel] at h'
      simp only [List.cons_append, buildLoop]
      have hsz : (if nb ≠ 0 then 16 else tl) ≤ A.length := by split <;> omega
      have hsz' : nb ≠ 0 → 17 * (nb - 1) + 1 + tl ≤ A.length - (if nb ≠ 0 then 16 else tl) := by
        intro h; rw [if_pos h]; omega
      generalize (if nb ≠ 0 then 16 else tl) = sz at *
      rw [buildBucket_append E lcpOf sz a A X _ hsz, buildBucket_eq _ _ _ _ _ _ hsz]
      simp only [Except.map, M.ok_bind]
      apply buildLoop_append
      intro h; simp; exact hsz' h

theorem buildLoop_size (E : Elem) (lcpOf : List Nat → List Nat → Nat) (tl sz : Nat) :
    ∀ (nb : Nat) (A : List (List Nat)) (d : FC),
      buildLoop E lcpOf tl nb A { d with size := sz } =
        (buildLoop E lcpOf tl nb A d).map fun d => { d with size := sz }
  | 0, A, d => rfl
  | nb + 1, [], d => rfl
  | nb + 1, a :: A, d => by
      simp only [buildLoop]
      cases buildBucket E lcpOf (if nb ≠ 0 then 16 else tl) a A d.buckets with
      | error e => rfl
      | ok r =>
          simp only [M.ok_bind]
          rw [← buildLoop_size]

/-- The dictionary built from `17 q` strings is, up to the stored size, the one built from all but the last 16. -/
theorem build_mod17 {E : Elem} {lcpOf : List Nat → List Nat → Nat} {L : List (List Nat)}
    (h : L.length % 17 = 0) (hne : L ≠ []) :
    build E lcpOf L = (build E lcpOf (L.take (L.length - 16))).map fun d => { d with size := L.length } := by
  have hpos : 0 < L.length := List.length_pos_iff.mpr hne
  have h1 : (L.take (L.length - 16)).length = L.length - 16 := by simp
  have htl : FC.tail L.length = 0 := by simp only [FC.tail]; split <;> omega
  have htl' : FC.tail (L.length - 16) = 0 := by simp only [FC.tail]; split <;> omega
  have hnb : (L.length - 16 + 16) / 17 = (L.length + 16) / 17 := by omega
  simp only [build, h1, htl, htl', hnb]
  have happ := fun d => buildLoop_append E lcpOf 0 ((L.length + 16) / 17) (L.take (L.length - 16))
    (L.drop (L.length - 16)) d (by intro _; simp; omega)
  rw [List.take_append_drop] at happ
  rw [happ]
  rw [buildLoop_size (d := { size := L.length - 16, ptrHeaders := [0], ptrBuckets := [0], headers := [], buckets := [] })
    E lcpOf 0 L.length]
  cases buildLoop E lcpOf 0 ((L.length + 16) / 17) (L.take (L.length - 16))
    { size := L.length - 16, ptrHeaders := [0], ptrBuckets := [0], headers := [], buckets := [] } with
  | error e => rfl
  | ok r => rfl

theorem bucketSize_size {d : FC} {n b : Nat} (h : FC.tail n = FC.tail d.size) :
    bucketSize { d with size := n } b = bucketSize d b := by
  simp only [bucketSize, h, nBuckets]
  rfl

theorem scan_size {ρ : Type} {E : Elem} {d : FC} {n : Nat} (h : FC.tail n = FC.tail d.size)
    (stop : Nat → List Nat → Option ρ) (hd : List Nat) (b : Nat) (buf : List Nat) :
    scan E { d with size := n } stop hd b buf = scan E d stop hd b buf := by
  have hl : ∀ k i cur buf, scanLoop E { d with size := n } stop k i cur buf = scanLoop E d stop k i cur buf := by
    intro k
    induction k with
    | zero => intros; rfl
    | succ k ih =>
        intro i cur buf
        simp only [scanLoop, ih]
        rfl
  simp only [scan, bucketSize_size h, hl]

theorem locateBucket_size {d : FC} {n : Nat} (f : List Nat → List Nat → Int) (t : List Nat) :
    locateBucket f { d with size := n } t = locateBucket f d t := by
  have hl : ∀ k s, locateBucketLoop f { d with size := n } t k s = locateBucketLoop f d t k s := by
    intro k
    induction k with
    | zero => intros; rfl
    | succ k ih =>
        intro s
        simp only [locateBucketLoop, ih]
        rfl
  simp only [locateBucket, hl]
  rfl

end FC

theorem FcDict.locate_size {d : FC} {n : Nat} (h : FC.tail n = FC.tail d.size) (t buf : Str) :
    FcDict.locate { d with size := n } t buf = FcDict.locate d t buf := by
  simp only [FcDict.locate, FcDict.locateIn, FC.scan_size h, FC.locateBucket_size]

end AC
