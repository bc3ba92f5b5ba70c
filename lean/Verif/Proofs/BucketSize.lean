import Verif.Proofs.FcSearch
import Verif.Model.BucketSize
/-!
# Front-coded dictionaries of any bucket size: building and the bucket of a string

The lemmas of Proofs/FrontCoding.lean and Proofs/FcSearch.lean with a bucket size `B` instead of 16.
-/
namespace AC
namespace FC

/-! ## The default bucket size -/

theorem buildLoopB_16 (E : Elem) (lcpOf : List Nat → List Nat → Nat) (tl : Nat) :
    ∀ (nb : Nat) (L : List (List Nat)) (d : FC), buildLoopB 16 E lcpOf tl nb L d = buildLoop E lcpOf tl nb L d
  | 0, _, _ => rfl
  | _ + 1, [], _ => rfl
  | nb + 1, h :: L, d => by
      simp only [buildLoopB, buildLoop]
      congr 1
      funext r
      exact buildLoopB_16 E lcpOf tl nb r.1 _

theorem buildB_16 (E : Elem) (lcpOf : List Nat → List Nat → Nat) (L : List (List Nat)) :
    buildB 16 E lcpOf L = build E lcpOf L := by
  simp only [buildB, build, buildLoopB_16]
  rfl

/-! ## Arithmetic -/

theorem mulB_lt {B i j : Nat} (h : i < j) : (B + 1) * i + (B + 1) ≤ (B + 1) * j := by
  rw [← Nat.mul_succ]; exact Nat.mul_le_mul_left _ h

theorem mulB_le {B i j : Nat} (h : i ≤ j) : (B + 1) * i ≤ (B + 1) * j := Nat.mul_le_mul_left _ h

theorem mulB_lt_iff {B i j : Nat} : (B + 1) * i < (B + 1) * j ↔ i < j := by
  constructor
  · intro h
    apply Nat.lt_of_not_le
    intro hc
    have := mulB_le (B := B) hc
    omega
  · intro h
    have := mulB_lt (B := B) h
    omega

/-- the number of buckets, in terms of the starts of the buckets -/
theorem nb_iff (B n j : Nat) : j < (n + B) / (B + 1) ↔ (B + 1) * j < n := by
  rw [← Nat.succ_le_iff, Nat.le_div_iff_mul_le (by omega), Nat.mul_comm, Nat.mul_succ]
  omega

theorem tailB_eq {B n : Nat} (h : n % (B + 1) ≠ 0) : tailB B n = n % (B + 1) - 1 := by
  have e := Nat.div_add_mod n (B + 1)
  rw [Nat.mul_comm] at e
  simp only [tailB]
  split <;> omega

theorem nb_split {B n : Nat} (h : n % (B + 1) ≠ 0) :
    (n + B) / (B + 1) = n / (B + 1) + 1 := by
  have e := Nat.div_add_mod n (B + 1)
  have hlt := Nat.mod_lt n (show B + 1 > 0 by omega)
  apply Nat.le_antisymm
  · rw [← Nat.not_lt, nb_iff, Nat.mul_succ]; omega
  · rw [Nat.succ_le_iff, nb_iff]; omega

/-! ## Building -/

theorem buildLoopB_spec {B : Nat} {E : Elem} {P} (g : Good E P) (lcpOf) (tl : Nat) :
    ∀ (nb : Nat) (L : List (List Nat)) (d : FC) (b0 : Nat),
    (nb ≠ 0 → L.length = (B + 1) * (nb - 1) + tl + 1 ∧ tl ≤ B) →
    d.ptrHeaders.length = b0 + 1 → d.ptrHeaders[b0]? = some d.headers.length →
    d.ptrBuckets.length = b0 + 1 → d.ptrBuckets[b0]? = some d.buckets.length →
    d.headers.length + weight E L < E.ptr → d.buckets.length + weight E L < E.ptr →
    ∃ d', buildLoopB B E lcpOf tl nb L d = .ok d' ∧ Ext d d' ∧ d'.ptrHeaders.length = b0 + nb + 1 ∧
      ∀ j < nb, ∀ h, L[(B + 1) * j]? = some h →
        Holds E lcpOf 0 d' (b0 + j) h ((L.drop ((B + 1) * j + 1)).take B)
  | 0, L, d, b0, h2, h3, h4, h5, h6, h7, h8 => by
      refine ⟨d, rfl, .refl d, by omega, ?_⟩
      intro j hj; omega
  | nb + 1, [], d, b0, h2, h3, h4, h5, h6, h7, h8 => by
      have := h2 (by omega)
      simp at this
  | nb + 1, h :: input, d, b0, h2, h3, h4, h5, h6, h7, h8 => by
      obtain ⟨hlen0, htl⟩ := h2 (by omega)
      simp only [List.length_cons, Nat.add_sub_cancel] at hlen0
      have hpred : nb ≠ 0 → (B + 1) * nb = (B + 1) * (nb - 1) + (B + 1) := by
        intro h0
        rw [← Nat.mul_succ]
        congr 1; omega
      have hsz : (if nb ≠ 0 then B else tl) = min B input.length := by
        by_cases h0 : nb = 0
        · subst h0; simp at hlen0 ⊢; omega
        · rw [if_pos h0]
          have := hpred h0
          omega
      simp only [buildLoopB, hsz]
      rw [buildBucket_eq _ _ _ _ _ _ (by omega)]
      simp only [M.ok_bind]
      have hget : input.take (min B input.length) = input.take B := by
        by_cases hc : B ≤ input.length
        · rw [Nat.min_eq_left hc]
        · rw [Nat.min_eq_right (by omega), List.take_of_length_le (by omega), List.take_of_length_le (by omega)]
      rw [hget]
      have hw1 : (encode E lcpOf h (input.take B)).length + weight E (input.drop (min B input.length)) ≤ weight E input := by
        have h1 := encode_length_le g lcpOf (input.take B) h
        have h2 := weight_append E (input.take (min B input.length)) (input.drop (min B input.length))
        rw [List.take_append_drop, hget] at h2
        omega
      have hw2 : h.length ≤ h.length * E.width := Nat.le_mul_of_pos_right _ g.wpos
      rw [weight_cons] at h7 h8
      rw [Nat.mod_eq_of_lt (show (d.headers ++ h).length < E.ptr by rw [List.length_append]; omega),
        Nat.mod_eq_of_lt (show (d.buckets ++ encode E lcpOf h (input.take B)).length < E.ptr by rw [List.length_append]; omega)]
      obtain ⟨d', hd', hext, hlen, hall⟩ := buildLoopB_spec (B := B) g lcpOf tl nb (input.drop (min B input.length))
        { d with headers := d.headers ++ h, buckets := d.buckets ++ encode E lcpOf h (input.take B),
                 ptrHeaders := d.ptrHeaders ++ [(d.headers ++ h).length],
                 ptrBuckets := d.ptrBuckets ++ [(d.buckets ++ encode E lcpOf h (input.take B)).length] }
        (b0 + 1) (by intro hne; rw [List.length_drop]; have := hpred hne; omega)
        (by simp [h3]) (by simp [← h3]) (by simp [h5]) (by simp [← h5])
        (by rw [List.length_append]; omega) (by rw [List.length_append]; omega)
      refine ⟨d', hd', ?_, by omega, ?_⟩
      · refine Ext.trans ?_ hext
        exact ⟨rfl, List.prefix_append .., List.prefix_append .., List.prefix_append .., List.prefix_append ..⟩
      · intro j hj h' hh'
        rcases j with _ | j
        · simp only [Nat.mul_zero, List.getElem?_cons_zero, Option.some.injEq] at hh'
          subst hh'
          refine Holds.ext ?_ hext
          refine ⟨⟨d.headers, [], by simp, ?_, ?_⟩, ⟨d.buckets, [], by simp, ?_, by simp⟩⟩
          · simpa using prefix_getElem? (List.prefix_append _ _) h4
          · simp [← h3]
          · simpa using prefix_getElem? (List.prefix_append _ _) h6
        · have hge : B ≤ input.length := by
            have := (List.getElem?_eq_some_iff.mp hh').1
            rw [Nat.mul_succ, List.length_cons] at this; omega
          have := hall j (by omega) h' (by
            rw [List.getElem?_drop, Nat.min_eq_left hge, ← hh']
            rw [show (B + 1) * (j + 1) = (B + (B + 1) * j) + 1 by rw [Nat.mul_succ]; omega, List.getElem?_cons_succ])
          rw [List.drop_drop, Nat.min_eq_left hge] at this
          rw [show b0 + (j + 1) = b0 + 1 + j by omega]
          rw [show (B + 1) * (j + 1) + 1 = (B + ((B + 1) * j + 1)) + 1 by rw [Nat.mul_succ]; omega, List.drop_succ_cons]
          exact this

/-- The builder succeeds and every bucket holds its strings, if the number of strings is not a multiple of `B + 1` and
pointers can hold their sizes. -/
theorem buildB_spec {B : Nat} {E : Elem} {P} (g : Good E P) {lcpOf} {L : List (List Nat)} (hn : L.length % (B + 1) ≠ 0)
    (hw : weight E L < E.ptr) :
    ∃ d, buildB B E lcpOf L = .ok d ∧ d.size = L.length ∧ d.nBuckets = (L.length + B) / (B + 1) ∧
      ∀ b < d.nBuckets, ∀ h, L[(B + 1) * b]? = some h →
        Holds E lcpOf (E.cap * E.width) d b h ((L.drop ((B + 1) * b + 1)).take B) := by
  have e := Nat.div_add_mod L.length (B + 1)
  have hlt := Nat.mod_lt L.length (show B + 1 > 0 by omega)
  obtain ⟨d', hd', hext, hlen, hall⟩ := buildLoopB_spec (B := B) g lcpOf (tailB B L.length) ((L.length + B) / (B + 1)) L
    { size := L.length, ptrHeaders := [0], ptrBuckets := [0], headers := [], buckets := [] } 0
    (by
      intro _
      rw [tailB_eq hn, nb_split hn, Nat.add_sub_cancel]
      generalize (B + 1) * (L.length / (B + 1)) = x at *
      generalize L.length % (B + 1) = y at *
      omega) rfl rfl rfl rfl
    (by simpa using hw) (by simpa using hw)
  refine ⟨{ d' with buckets := d'.buckets ++ List.replicate (E.cap * E.width) 0 }, ?_, ?_, ?_, ?_⟩
  · simp only [buildB, hd', M.ok_bind]
  · simpa using hext.size
  · simp only [nBuckets]; rw [hlen, Nat.zero_add, Nat.add_sub_cancel]
  · intro b hb h hh
    have hb' : b < (L.length + B) / (B + 1) := by simp only [nBuckets] at hb; rwa [hlen, Nat.zero_add, Nat.add_sub_cancel] at hb
    obtain ⟨H1, ⟨A, C, e1, e2, e3⟩⟩ := hall b hb' h hh
    rw [Nat.zero_add] at *
    refine ⟨H1, ⟨A, C ++ List.replicate (E.cap * E.width) 0, ?_, e2, ?_⟩⟩
    · simp [e1]
    · simp

theorem scanB_spec {ρ : Type} {B : Nat} {E : Elem} {P} (g : Good E P) {lcpOf} {d : FC} {b m : Nat}
    {h : List Nat} {ss : List (List Nat)}
    (H : Holds E lcpOf (E.cap * E.width) d b h ss) (hm : m ≤ E.cap) (hc : ChainOk lcpOf h ss)
    (hP : ∀ s ∈ h :: ss, s.length ≤ m ∧ ∀ c ∈ s, P c) (stop : Nat → List Nat → Option ρ)
    (hbs : bucketSizeB B d b = ss.length) (buf : List Nat) (hcap : m + E.cap ≤ buf.length) :
    ∃ buf', scanB B E d stop h b buf = .ok (firstSome stop 1 ss, buf') ∧ buf'.length = buf.length := by
  obtain ⟨_, A, C, e1, e2, e3⟩ := H
  have hhl : h.length ≤ m := (hP h (by simp)).1
  have hmc := memcpy_ok (dst := buf) (doff := 0) (src := h) (soff := 0) (n := h.length)
    (by omega) (by omega)
  obtain ⟨out', f1, f2⟩ := scanLoop_spec g e3 hm stop ss 1 A h
    (buf.take 0 ++ (h.drop 0).take h.length ++ buf.drop (0 + h.length)) e1 hc
    (fun s hs => hP s (List.mem_cons_of_mem _ hs)) (by simp) (by simp; omega)
  refine ⟨out', ?_, ?_⟩
  · simp only [scanB, hmc, rd_of_getElem? e2, M.ok_bind, hbs]
    exact f1
  · rw [f2]; simp; omega

/-- `d` represents the list of strings `L` in buckets of size `B`: what each primitive returns. -/
structure RepB (B : Nat) (E : Elem) (m : Nat) (d : FC) (L : List (List Nat)) : Prop where
  pos : 0 < L.length
  size : d.size = L.length
  nb : ∀ j, j < d.nBuckets ↔ (B + 1) * j < L.length
  bsz : ∀ b, (B + 1) * b < L.length → bucketSizeB B d b = ((L.drop ((B + 1) * b + 1)).take B).length
  hdr : ∀ b (h : (B + 1) * b < L.length), d.header b = .ok L[(B + 1) * b]
  scan : ∀ {ρ : Type} (stop : Nat → List Nat → Option ρ) (b : Nat) (h : (B + 1) * b < L.length)
    (buf : List Nat), m + E.cap ≤ buf.length →
    ∃ buf', scanB B E d stop L[(B + 1) * b] b buf = .ok (firstSome stop 1 ((L.drop ((B + 1) * b + 1)).take B), buf') ∧
      buf'.length = buf.length
  extract : ∀ i (h : i < L.length) (out : List Nat) (base : Nat), base + m + E.cap ≤ out.length →
    ∃ out', extractAt E d (i % (B + 1)) (i / (B + 1)) out base = .ok (out', L[i].length) ∧
      out'.length = out.length ∧ out'.take base = out.take base ∧
      (out'.drop base).take L[i].length = L[i]

theorem chunkB_eq {B : Nat} {L : List (List Nat)} {b : Nat} (h : (B + 1) * b < L.length) :
    L[(B + 1) * b] :: (L.drop ((B + 1) * b + 1)).take B = (L.drop ((B + 1) * b)).take (B + 1) := by
  rw [List.drop_eq_getElem_cons h, List.take_succ_cons]

theorem buildB_rep {B : Nat} {E : Elem} {P} (g : Good E P) {m : Nat} (hm : m ≤ E.cap) {lcpOf} {L : List (List Nat)}
    (hn : L.length % (B + 1) ≠ 0) (hw : weight E L < E.ptr) (hP : ∀ s ∈ L, s.length ≤ m ∧ ∀ c ∈ s, P c)
    (hc : ConsecOk lcpOf L) :
    ∃ d, buildB B E lcpOf L = .ok d ∧ RepB B E m d L := by
  obtain ⟨d, hd, hsize, hnb, hall⟩ := buildB_spec (B := B) g (lcpOf := lcpOf) hn hw
  have hlt : ∀ j, j < d.nBuckets ↔ (B + 1) * j < L.length := by intro j; rw [hnb]; exact nb_iff _ _ _
  have H : ∀ b (h : (B + 1) * b < L.length), Holds E lcpOf (E.cap * E.width) d b L[(B + 1) * b]
      ((L.drop ((B + 1) * b + 1)).take B) := by
    intro b h
    exact hall b ((hlt b).mpr h) _ (List.getElem?_eq_getElem h)
  have hchain : ∀ b (h : (B + 1) * b < L.length), ChainOk lcpOf L[(B + 1) * b] ((L.drop ((B + 1) * b + 1)).take B) := by
    intro b h
    apply chainOk_of
    rw [chunkB_eq h]
    intro i x y hx hy
    rw [List.getElem?_take] at hx hy
    split at hx <;> split at hy <;> try contradiction
    rw [List.getElem?_drop] at hx hy
    exact hc ((B + 1) * b + i) x y hx (by rw [← hy]; congr 1)
  have hPc : ∀ b (h : (B + 1) * b < L.length), ∀ s ∈ L[(B + 1) * b] :: (L.drop ((B + 1) * b + 1)).take B,
      s.length ≤ m ∧ ∀ c ∈ s, P c := by
    intro b h s hs
    rw [chunkB_eq h] at hs
    exact hP s (List.mem_of_mem_drop (List.mem_of_mem_take hs))
  have hbsz : ∀ b, (B + 1) * b < L.length → bucketSizeB B d b = ((L.drop ((B + 1) * b + 1)).take B).length := by
    intro b h
    have e := Nat.div_add_mod L.length (B + 1)
    have hm := Nat.mod_lt L.length (show B + 1 > 0 by omega)
    simp only [bucketSizeB, hsize, tailB_eq hn, hnb, nb_split hn, List.length_take, List.length_drop, Nat.add_sub_cancel]
    have hb := (hlt b).mpr h
    rw [hnb, nb_split hn] at hb
    by_cases hlast : b = L.length / (B + 1)
    · rw [if_neg (by simpa using hlast), hlast]; omega
    · rw [if_pos hlast]
      have := mulB_lt (B := B) (show b < L.length / (B + 1) by omega)
      omega
  have hdm : ∀ i, i < L.length → (B + 1) * (i / (B + 1)) + i % (B + 1) = i ∧ i % (B + 1) < B + 1 := fun i _ =>
    ⟨Nat.div_add_mod i (B + 1), Nat.mod_lt i (by omega)⟩
  refine ⟨d, hd, ⟨Nat.pos_of_ne_zero (by intro h0; rw [h0] at hn; simp at hn), hsize, hlt, hbsz,
    fun b h => header_of_holds (H b h), ?_, ?_⟩⟩
  · intro ρ stop b h buf hbuf
    exact scanB_spec g (H b h) hm (hchain b h) (hPc b h) stop (hbsz b h) buf hbuf
  · intro i h out base hcap
    obtain ⟨h1, h2⟩ := hdm i h
    have hb : (B + 1) * (i / (B + 1)) < L.length := by omega
    refine extractAt_spec g (H _ hb) hm (hchain _ hb) (hPc _ hb) out hcap ?_
    rw [chunkB_eq hb, List.getElem?_take, if_pos h2, List.getElem?_drop, h1]
    exact List.getElem?_eq_getElem h

/-- `locate_bucket` returns the bucket whose header is the last one not greater than `t` (the first bucket if there is
none), and whether its header is `t`. -/
theorem locateBucketB_spec {B : Nat} {cmpFn} {E m} {d : FC} {L : List (List Nat)} {t : List Nat}
    (R : RepB B E m d L) (hs : StrictSorted L) (hc : ∀ s ∈ L, CmpOk cmpFn s t) :
    ∃ found b, ∃ hb : (B + 1) * b < L.length,
      locateBucket cmpFn d t = .ok (found, L[(B + 1) * b], b) ∧
      (found = true → L[(B + 1) * b] = t) ∧
      (found = false → (L[(B + 1) * b] < t ∨ (b = 0 ∧ t < L[(B + 1) * b])) ∧
        ∀ j (hj : (B + 1) * j < L.length), b < j → t < L[(B + 1) * j]) := by
  have hpos := R.pos
  let H : Nat → List Nat := fun j => (L[(B + 1) * j]?).getD []
  have hH : ∀ j (hj : (B + 1) * j < L.length), H j = L[(B + 1) * j] := by
    intro j hj; simp [H, hj]
  have hlt := R.nb
  have hnb0 : 0 < d.nBuckets := (hlt 0).mpr (by simpa using hpos)
  obtain ⟨found, s', e1, e2, e3⟩ := locateBucketLoop_spec (cmpFn := cmpFn) (d := d) (t := t) (H := H)
    (nb := d.nBuckets)
    (fun j hj => by rw [hH j ((hlt j).mp hj)]; exact R.hdr j ((hlt j).mp hj))
    (fun j hj => by rw [hH j ((hlt j).mp hj)]; exact hc _ (List.getElem_mem _))
    (fun i j hij hj => by
      rw [hH j ((hlt j).mp hj), hH i ((hlt i).mp (by omega))]
      exact sorted_lt hs (mulB_lt_iff.mpr hij) _)
    (d.nBuckets + 1) { lo := 0, hi := (d.nBuckets : Int) - 1, mi := 0, cmp := 0, h := [] }
    (by simp) (by simp; omega) (by simp) (by simp; omega) (by simp; omega)
    (by intro j hj hj'; simp at hj; omega) (by simp) (by simp)
  simp only [locateBucket, e1, M.ok_bind]
  cases found with
  | true =>
      obtain ⟨f1, f2, f3, f4⟩ := e2 rfl
      have hb : (B + 1) * s'.mi.toNat < L.length := (hlt _).mp (by omega)
      refine ⟨true, s'.mi.toNat, hb, ?_, ?_, by simp⟩
      · simp [f3, hH _ hb]
      · intro _; rw [← hH _ hb]; exact f4
  | false =>
      obtain ⟨f1, f2, f3, f4, f5, f6⟩ := e3 rfl
      simp only [Bool.false_eq_true, if_false]
      by_cases hcm : s'.cmp < 0
      · obtain ⟨g1, g2, g3⟩ := f6 hcm
        have hb : (B + 1) * s'.mi.toNat < L.length := (hlt _).mp (by omega)
        refine ⟨false, s'.mi.toNat, hb, ?_, by simp, ?_⟩
        · simp [hcm, g2, hH _ hb]
        · intro _
          refine ⟨Or.inl ?_, ?_⟩
          · rw [← hH _ hb]; exact f4 _ (by omega)
          · intro j hj hbj
            rw [← hH _ hj]; exact f5 j (by omega) ((hlt j).mpr hj)
      · rw [if_neg hcm]
        by_cases hm1 : s'.hi = -1
        · have hb : (B + 1) * 0 < L.length := by simpa using hpos
          refine ⟨false, 0, hb, ?_, by simp, ?_⟩
          · simp only [hm1, if_true, R.hdr 0 hb, M.ok_bind]
          · intro _
            refine ⟨Or.inr ⟨rfl, ?_⟩, ?_⟩
            · rw [← hH _ hb]; exact f5 0 (by omega) (by omega)
            · intro j hj hbj
              rw [← hH _ hj]; exact f5 j (by omega) ((hlt j).mpr hj)
        · have hb : (B + 1) * s'.hi.toNat < L.length := (hlt _).mp (by omega)
          refine ⟨false, s'.hi.toNat, hb, ?_, by simp, ?_⟩
          · simp only [hm1, if_false, R.hdr _ hb, M.ok_bind]
          · intro _
            refine ⟨Or.inl ?_, ?_⟩
            · rw [← hH _ hb]; exact f4 _ (by omega)
            · intro j hj hbj
              rw [← hH _ hj]; exact f5 j (by omega) ((hlt j).mpr hj)

theorem chunkB_getElem {B : Nat} {L : List (List Nat)} {b j : Nat} (h : j < ((L.drop ((B + 1) * b + 1)).take B).length) :
    ∃ h' : (B + 1) * b + 1 + j < L.length, ((L.drop ((B + 1) * b + 1)).take B)[j] = L[(B + 1) * b + 1 + j] := by
  simp only [List.length_take, List.length_drop] at h
  exact ⟨by omega, by simp⟩

end FC
end AC
