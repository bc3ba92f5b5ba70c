import Verif.Proofs.BucketSizeLoss
import Verif.Proofs.LossyDict
/-!
# Extracting a string that the dictionary does not have, for any bucket size
-/
namespace AC
namespace FC

theorem buildBucket_short {E : Elem} {lcpOf : List Nat → List Nat → Nat} : ∀ (n : Nat) (prev : List Nat) (A : List (List Nat)) (bk : List Nat),
    A.length < n → buildBucket E lcpOf n prev A bk = .error .oob
  | 0, _, A, _, h => by omega
  | n + 1, prev, [], bk, h => rfl
  | n + 1, prev, a :: A, bk, h => buildBucket_short n a A _ (by simpa using h)

/-- The strings of the last bucket are at the end of the buckets. -/
theorem buildLoopB_last {B : Nat} {E : Elem} {P} (g : Good E P) (lcpOf : List Nat → List Nat → Nat) (tl : Nat) :
    ∀ (nb : Nat) (L : List (List Nat)) (d d' : FC) (b0 : Nat), d.ptrBuckets.length = b0 + 1 →
      d.ptrBuckets[b0]? = some (d.buckets.length % E.ptr) → buildLoopB B E lcpOf tl (nb + 1) L d = .ok d' →
      (∃ A h, L[(B + 1) * nb]? = some h ∧ d'.buckets = A ++ encode E lcpOf h ((L.drop ((B + 1) * nb + 1)).take tl) ∧
        d'.ptrBuckets[b0 + nb]? = some (A.length % E.ptr)) ∧ d'.buckets.length ≤ d.buckets.length + weight E L
  | 0, [], d, d', b0, _, _, h => by simp [buildLoopB] at h
  | 0, s :: L, d, d', b0, hl, hp, h => by
      unfold buildLoopB at h
      dsimp only at h
      rw [if_neg (by omega)] at h
      by_cases hlen : tl ≤ L.length
      · rw [buildBucket_eq _ _ _ _ _ _ hlen, M.ok_bind] at h
        simp only [buildLoopB] at h
        cases h
        refine ⟨⟨d.buckets, s, by simp, by simp, ?_⟩, ?_⟩
        · dsimp only
          rw [List.getElem?_append_left (by omega)]
          exact hp
        · have e1 := encode_length_le g lcpOf (L.take tl) s
          have e2 := weight_append E (L.take tl) (L.drop tl)
          rw [List.take_append_drop] at e2
          rw [weight_cons]
          simp only [List.length_append]
          omega
      · rw [buildBucket_short _ _ _ _ (by omega), M.error_bind] at h
        cases h
  | nb + 1, [], d, d', b0, _, _, h => by simp [buildLoopB] at h
  | nb + 1, s :: L, d, d', b0, hl, hp, h => by
      unfold buildLoopB at h
      dsimp only at h
      rw [if_pos (by omega)] at h
      by_cases hlen : B ≤ L.length
      · rw [buildBucket_eq _ _ _ _ _ _ hlen, M.ok_bind] at h
        dsimp only at h
        obtain ⟨⟨A, x, h1, h2, h3⟩, h4⟩ := buildLoopB_last (B := B) g lcpOf tl nb _ _ d' (b0 + 1) (by simp [hl]) (by simp [← hl]) h
        refine ⟨⟨A, x, ?_, ?_, ?_⟩, ?_⟩
        · rw [List.getElem?_drop] at h1
          rw [← h1, show (B + 1) * (nb + 1) = (B + (B + 1) * nb) + 1 by rw [Nat.mul_succ]; omega, List.getElem?_cons_succ]
        · rw [h2, List.drop_drop, show (B + 1) * (nb + 1) + 1 = (B + ((B + 1) * nb + 1)) + 1 by rw [Nat.mul_succ]; omega, List.drop_succ_cons]
        · rw [← h3]; congr 1; omega
        · have e1 := encode_length_le g lcpOf (L.take B) s
          have e2 := weight_append E (L.take B) (L.drop B)
          rw [List.take_append_drop] at e2
          rw [weight_cons]
          simp only [List.length_append] at h4
          omega
      · rw [buildBucket_short _ _ _ _ (by omega), M.error_bind] at h
        cases h

/-- Decoding more strings than there are reads past the end. -/
theorem extractLoop_past {E : Elem} {P} (g : Good E P) {lcpOf} {d : FC} {Z : List Nat} {base m : Nat}
    (hZ : Z.length = E.cap * E.width) (hm : m ≤ E.cap) :
    ∀ (k : Nat) (A prev : List Nat) (ss : List (List Nat)) (out : List Nat) (len : Nat),
    d.buckets = A ++ encode E lcpOf prev ss ++ Z → ChainOk lcpOf prev ss →
    (∀ s ∈ ss, s.length ≤ m ∧ ∀ c ∈ s, P c) → (out.drop base).take prev.length = prev →
    base + m + E.cap ≤ out.length → ss.length < k → extractLoop E d k A.length out base len = .error .oob
  | 0, A, prev, ss, out, len, hd, hc, hP, ho, hcap, hk => by omega
  | k + 1, A, prev, [], out, len, hd, hc, hP, ho, hcap, hk => by
      apply error_of (extractLoop_oobOnly _ _ _ _ _ _ _)
      intro x hx
      unfold extractLoop decode at hx
      obtain ⟨q, hq, hx⟩ := bind_ok hx
      obtain ⟨_, _, hq⟩ := bind_ok hq
      obtain ⟨_, _, hq⟩ := bind_ok hq
      obtain ⟨cs, hcs, hq⟩ := bind_ok hq
      unfold readElems at hcs
      rw [if_neg (by rw [hd]; simp [encode, hZ])] at hcs
      cases hcs
  | k + 1, A, prev, s1 :: ss, out, len, hd, hc, hP, ho, hcap, hk => by
      obtain ⟨hlen, hPs⟩ := hP s1 (by simp)
      obtain ⟨out1, e1, e2, e3, e4, A', e5, e6⟩ := decode_spec g hd (by omega) hPs (by omega) hc.1 ho (by have := hc.1.1; omega)
      simp only [extractLoop, e1, M.ok_bind]
      rw [← e6]
      exact extractLoop_past g hZ hm k A' s1 ss out1 _ e5 hc.2
        (fun s hs => hP s (List.mem_cons_of_mem _ hs)) e4 (by omega) (by simpa using hk)

/-- Extracting beyond the last string reads out of bounds. -/
def PastB (B : Nat) (E : Elem) (m : Nat) (d : FC) (n : Nat) : Prop :=
  ∀ i, n ≤ i → ∀ (out : List Nat) (base : Nat), base + m + E.cap ≤ out.length →
    extractAt E d (i % (B + 1)) (i / (B + 1)) out base = .error .oob

theorem header_past {d : FC} {b : Nat} (h : d.nBuckets ≤ b) : d.header b = .error .oob := by
  unfold nBuckets at h
  apply error_of (header_oobOnly d b)
  intro x hx
  unfold header at hx
  obtain ⟨_, _, hx⟩ := bind_ok hx
  obtain ⟨_, h2, _⟩ := bind_ok hx
  unfold rd at h2
  rw [List.getElem?_eq_none (by omega)] at h2
  cases h2

theorem buildB_past {B : Nat} {E : Elem} {P} (g : Good E P) {m : Nat} (hm : m ≤ E.cap) {lcpOf} {L : List (List Nat)}
    (hn : L.length % (B + 1) ≠ 0) (hw : weight E L < E.ptr) (hP : ∀ s ∈ L, s.length ≤ m ∧ ∀ c ∈ s, P c)
    (hc : ConsecOk lcpOf L) {d : FC} (hd : buildB B E lcpOf L = .ok d) : PastB B E m d L.length := by
  obtain ⟨d0, hd0, R⟩ := buildB_rep (B := B) g hm hn hw hP hc
  rw [hd] at hd0
  cases hd0
  intro i hi out base hcap
  by_cases hb : d.nBuckets ≤ i / (B + 1)
  · unfold extractAt
    rw [header_past hb]; rfl
  · have hb' : (B + 1) * (i / (B + 1)) < L.length := (R.nb _).mp (by omega)
    have ei := Nat.div_add_mod i (B + 1)
    have eL := Nat.div_add_mod L.length (B + 1)
    have hml := Nat.mod_lt i (show B + 1 > 0 by omega)
    have hmL := Nat.mod_lt L.length (show B + 1 > 0 by omega)
    have hq : i / (B + 1) = L.length / (B + 1) := by
      have h1 : L.length / (B + 1) ≤ i / (B + 1) := Nat.div_le_div_right hi
      have h2 : i / (B + 1) ≤ L.length / (B + 1) := by
        rw [Nat.le_div_iff_mul_le (by omega), Nat.mul_comm]; omega
      omega
    rw [hq] at ei hb' ⊢
    have hnb : (L.length + B) / (B + 1) = L.length / (B + 1) + 1 := nb_split hn
    have hbuild := hd
    unfold buildB at hbuild
    dsimp only at hbuild
    rw [hnb] at hbuild
    obtain ⟨d1, hd1, hbuild⟩ := bind_ok hbuild
    cases hbuild
    obtain ⟨⟨A, h, h1, h2, h3⟩, h4⟩ := buildLoopB_last (B := B) g lcpOf _ _ _ _ _ 0 rfl rfl hd1
    rw [List.getElem?_eq_getElem hb'] at h1
    cases h1
    have hA : A.length < E.ptr := by
      have := congrArg List.length h2
      simp only [List.length_append, List.length_nil] at this h4
      omega
    rw [Nat.mod_eq_of_lt hA, Nat.zero_add] at h3
    have htl : tailB B L.length = L.length % (B + 1) - 1 := tailB_eq hn
    have hss : ((L.drop ((B + 1) * (L.length / (B + 1)) + 1)).take (tailB B L.length)) =
        (L.drop ((B + 1) * (L.length / (B + 1)) + 1)).take B := by
      rw [List.take_of_length_le (by rw [List.length_drop, htl]; omega), List.take_of_length_le (by rw [List.length_drop]; omega)]
    rw [hss] at h2
    have hchain : ChainOk lcpOf L[(B + 1) * (L.length / (B + 1))] ((L.drop ((B + 1) * (L.length / (B + 1)) + 1)).take B) := by
      apply chainOk_of
      rw [chunkB_eq hb']
      intro i x y hx hy
      rw [List.getElem?_take] at hx hy
      split at hx <;> split at hy <;> try contradiction
      rw [List.getElem?_drop] at hx hy
      exact hc ((B + 1) * _ + i) x y hx (by rw [← hy]; congr 1)
    have hmem : ∀ s ∈ L[(B + 1) * (L.length / (B + 1))] :: ((L.drop ((B + 1) * (L.length / (B + 1)) + 1)).take B), s.length ≤ m ∧ ∀ c ∈ s, P c := by
      intro s hs
      rw [chunkB_eq hb'] at hs
      exact hP s (List.mem_of_mem_drop (List.mem_of_mem_take hs))
    unfold extractAt
    rw [R.hdr _ hb', M.ok_bind]
    have hhl := (hmem _ (List.mem_cons_self ..)).1
    generalize hh : L[(B + 1) * (L.length / (B + 1))] = h at *
    have hmc := memcpy_ok (dst := out) (doff := base) (src := h) (soff := 0) (n := h.length)
      (by omega) (by omega)
    rw [hmc, M.ok_bind]
    dsimp only
    rw [rd_of_getElem? h3, M.ok_bind]
    refine extractLoop_past g (Z := List.replicate (E.cap * E.width) 0) (by simp) hm _ A h _ _ _
      (by rw [h2]) hchain (fun s hs => hmem s (List.mem_cons_of_mem _ hs)) ?_ ?_ ?_
    · simp only [List.drop_zero, List.take_length]
      rw [List.append_assoc, List.drop_append_of_le_length (by simp; omega), List.drop_of_length_le (by simp; omega)]
      simp
    · simp; omega
    · rw [List.length_take, List.length_drop]; omega

end FC
end AC
