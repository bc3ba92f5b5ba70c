import Verif.Spec.Space
import Verif.Proofs.IntDictionary
import Verif.Proofs.FcDictionary
import Verif.Proofs.Visit
import Verif.Model.Sizes
/-!
# The sizes of front-coded dictionaries
-/
namespace AC
namespace FC

theorem lcp_common : ∀ a b : List Nat, lcp a b = Spec.common b a
  | [], b => by cases b <;> simp [lcp, Spec.common]
  | a :: as, [] => by simp [lcp, Spec.common]
  | a :: as, b :: bs => by
      have ih := lcp_common as bs
      unfold Spec.common at *
      rw [lcp]
      rw [List.zip_cons_cons]
      by_cases h : a = b
      · subst h
        rw [if_pos rfl, List.takeWhile_cons_of_pos (by simp), List.length_cons, ih]
      · rw [if_neg h, List.takeWhile_cons_of_neg (by simpa using fun h' => h h'.symm)]
        rfl

/-- the strings of one bucket, of which the first is not written here -/
def bucketBytes (c : Nat) : List Nat → List (List Nat) → Nat
  | _, [] => 0
  | prev, s :: ss => (2 + c * (s.length - Spec.common prev s)) + bucketBytes c s ss

theorem encode_length {E : Elem} {P} (g : Good E P) {lcpOf : List Nat → List Nat → Nat} : ∀ (ss : List (List Nat)) (prev : List Nat),
    (∀ i a b, (prev :: ss)[i]? = some a → (prev :: ss)[i + 1]? = some b → lcpOf b a = Spec.common a b) →
    (encode E lcpOf prev ss).length = bucketBytes E.width prev ss
  | [], _, _ => rfl
  | s :: ss, prev, h => by
      unfold encode bucketBytes
      rw [List.length_append, List.length_append, bytesOf_length g, List.length_drop, encode_length g ss s (fun i a b ha hb => h (i + 1) a b ha hb),
        h 0 prev s rfl rfl, Nat.mul_comm]
      simp only [List.length_append, List.length_singleton]

theorem coded_bucket (c : Nat) : ∀ (ss : List (List Nat)) (i : Nat) (prev : List Nat), i % 17 ≠ 0 →
    Spec.coded c i prev ss = bucketBytes c prev (ss.take (17 - i % 17)) +
      Spec.coded c (i + (17 - i % 17)) ((prev :: ss).getD (17 - i % 17) []) (ss.drop (17 - i % 17))
  | [], i, prev, _ => by simp [Spec.coded, bucketBytes]
  | s :: ss, i, prev, hi => by
      obtain ⟨k, hk⟩ : ∃ k, 17 - i % 17 = k + 1 := ⟨16 - i % 17, by omega⟩
      rw [hk, Spec.coded, if_neg hi, List.take_succ_cons, List.drop_succ_cons, bucketBytes, List.getD_cons_succ]
      by_cases hl : (i + 1) % 17 = 0
      · have : k = 0 := by omega
        subst this
        simp [bucketBytes]
      · have ih := coded_bucket c ss (i + 1) s hl
        rw [show 17 - (i + 1) % 17 = k by omega] at ih
        rw [ih, show i + 1 + k = i + (k + 1) by omega]
        omega

theorem coded_prev {c i : Nat} {p q : List Nat} {ss : List (List Nat)} (h : i % 17 = 0) : Spec.coded c i p ss = Spec.coded c i q ss := by
  cases ss with
  | nil => rfl
  | cons s ss => rw [Spec.coded, Spec.coded, if_pos h, if_pos h]

theorem coded_shift {c : Nat} : ∀ (ss : List (List Nat)) (i j : Nat) (p : List Nat), i % 17 = j % 17 → Spec.coded c i p ss = Spec.coded c j p ss
  | [], _, _, _, _ => rfl
  | s :: ss, i, j, p, h => by
      rw [Spec.coded, Spec.coded, coded_shift ss (i + 1) (j + 1) s (by omega), h]

theorem buildLoop_sizes {E : Elem} {P} (g : Good E P) {lcpOf : List Nat → List Nat → Nat} {tl : Nat} : ∀ (nb : Nat) (L : List (List Nat)) (d d' : FC),
    (∀ i a b, L[i]? = some a → L[i + 1]? = some b → lcpOf b a = Spec.common a b) →
    nb = (L.length + 16) / 17 → (nb ≠ 0 → L.length % 17 ≠ 0 ∧ tl = L.length % 17 - 1) → buildLoop E lcpOf tl nb L d = .ok d' →
    d'.ptrHeaders.length = d.ptrHeaders.length + nb ∧ d'.ptrBuckets.length = d.ptrBuckets.length + nb ∧
      E.width * d'.headers.length + d'.buckets.length = E.width * d.headers.length + d.buckets.length + Spec.coded E.width 0 [] L
  | 0, L, d, d', _, h1, _, h => by
      unfold buildLoop at h
      cases h
      have : L = [] := List.length_eq_zero_iff.mp (by omega)
      subst this
      exact ⟨rfl, rfl, rfl⟩
  | nb + 1, [], d, d', _, h1, h2, h => by simp at h1
  | nb + 1, s :: input, d, d', hc, h1, h2, h => by
      obtain ⟨hmod, htl⟩ := h2 (by omega)
      simp only [List.length_cons] at h1 hmod htl
      have hsz : (if nb ≠ 0 then 16 else tl) = min 16 input.length := by
        split <;> omega
      unfold buildLoop at h
      dsimp only at h
      rw [hsz, buildBucket_eq _ _ _ _ _ _ (by omega)] at h
      simp only [M.ok_bind] at h
      have hd : input.drop (min 16 input.length) = input.drop 16 := by
        by_cases hcc : 16 ≤ input.length
        · rw [Nat.min_eq_left hcc]
        · rw [Nat.min_eq_right (by omega), List.drop_eq_nil_of_le (by omega), List.drop_eq_nil_of_le (by omega)]
      have ht : input.take (min 16 input.length) = input.take 16 := by
        by_cases hcc : 16 ≤ input.length
        · rw [Nat.min_eq_left hcc]
        · rw [Nat.min_eq_right (by omega), List.take_of_length_le (by omega), List.take_of_length_le (by omega)]
      rw [hd, ht] at h
      obtain ⟨r1, r2, r3⟩ := buildLoop_sizes g nb (input.drop 16) _ d'
        (fun i a b ha hb => by
          rw [List.getElem?_drop] at ha hb
          exact hc (16 + i + 1) a b (by simpa using ha) (by rw [List.getElem?_cons_succ]; exact hb))
        (by rw [List.length_drop]; omega) (by intro hne; rw [List.length_drop]; omega) h
      dsimp only at r1 r2 r3
      rw [List.length_append, List.length_singleton] at r1 r2
      refine ⟨by omega, by omega, ?_⟩
      rw [r3, List.length_append, List.length_append, encode_length g (input.take 16) s ?_]
      · rw [Spec.coded, if_pos (by omega), coded_bucket E.width input 1 s (by omega)]
        rw [show 17 - (0 + 1) % 17 = 16 by rfl, coded_shift _ (0 + 1 + 16) 0 _ (by omega)]
        rw [coded_prev (p := (s :: input).getD 16 []) (q := []) (by omega), Nat.mul_add]
        omega
      · intro i a b ha hb
        cases i with
        | zero =>
            rw [List.getElem?_cons_zero] at ha
            rw [List.getElem?_cons_succ, List.getElem?_take] at hb
            split at hb
            · exact hc 0 a b (by simpa using ha) (by simpa using hb)
            · cases hb
        | succ i =>
            rw [List.getElem?_cons_succ, List.getElem?_take] at ha hb
            split at ha
            · split at hb
              · exact hc (i + 1) a b (by simpa using ha) (by simpa using hb)
              · cases hb
            · cases ha

/-- everything in a dictionary -/
theorem build_bytes {E : Elem} {P} (g : Good E P) {lcpOf : List Nat → List Nat → Nat} {L : List (List Nat)} {d : FC} (p : Nat)
    (hc : ∀ i a b, L[i]? = some a → L[i + 1]? = some b → lcpOf b a = Spec.common a b) (hn : L.length % 17 ≠ 0)
    (h : build E lcpOf L = .ok d) :
    d.bytes p E.width = 40 + 2 * p * ((L.length + 16) / 17 + 1) + E.cap * E.width + Spec.coded E.width 0 [] L := by
  unfold build at h
  obtain ⟨d', h1, h⟩ := bind_ok h
  cases h
  obtain ⟨r1, r2, r3⟩ := buildLoop_sizes g _ L _ d' hc rfl (fun _ => ⟨hn, tail_eq hn⟩) h1
  simp only [List.length_singleton, List.length_nil] at r1 r2 r3
  unfold bytes vecBytes
  dsimp only
  rw [r1, r2, List.length_append, List.length_replicate, Nat.mul_comm d'.headers.length]
  rw [Nat.add_comm 1, Nat.mul_comm 2 p, Nat.mul_assoc, Nat.mul_comm p, Nat.mul_assoc, Nat.mul_comm 2]
  generalize ((L.length + 16) / 17 + 1) * p = X
  omega

theorem coded_le (c : Nat) : ∀ (ss : List (List Nat)) (i : Nat) (p : List Nat), Spec.coded c i p ss ≤ 2 * ss.length + c * (ss.map List.length).sum
  | [], _, _ => by simp [Spec.coded]
  | s :: ss, i, p => by
      have := coded_le c ss (i + 1) s
      rw [Spec.coded, List.map_cons, List.sum_cons, List.length_cons, Nat.mul_add c]
      have h2 : c * (s.length - Spec.common p s) ≤ c * s.length := Nat.mul_le_mul_left _ (by omega)
      split <;> omega

end FC
end AC
