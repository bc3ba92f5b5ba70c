import Verif.Proofs.FrontCoding
/-!
# Searching in a front-coded dictionary: lemmas shared by the two dictionaries
-/
namespace AC
namespace FC

/-- `d` represents the list of strings `L`: what each primitive returns. -/
structure Rep (E : Elem) (m : Nat) (d : FC) (L : List (List Nat)) : Prop where
  pos : 0 < L.length
  size : d.size = L.length
  nb : d.nBuckets = (L.length + 16) / 17
  bsz : ∀ b, 17 * b < L.length → d.bucketSize b = ((L.drop (17 * b + 1)).take 16).length
  hdr : ∀ b (h : 17 * b < L.length), d.header b = .ok L[17 * b]
  scan : ∀ {ρ : Type} (stop : Nat → List Nat → Option ρ) (b : Nat) (h : 17 * b < L.length)
    (buf : List Nat), m + E.cap ≤ buf.length →
    ∃ buf', scan E d stop L[17 * b] b buf = .ok (firstSome stop 1 ((L.drop (17 * b + 1)).take 16), buf') ∧
      buf'.length = buf.length
  extract : ∀ i (h : i < L.length) (out : List Nat) (base : Nat), base + m + E.cap ≤ out.length →
    ∃ out', extractAt E d (i % 17) (i / 17) out base = .ok (out', L[i].length) ∧
      out'.length = out.length ∧ out'.take base = out.take base ∧
      (out'.drop base).take L[i].length = L[i]
  extractAny : ∀ i (h : i < L.length) (out : List Nat) (base : Nat),
    extractAt E d (i % 17) (i / 17) out base = .error .oob ∨
    ∃ out', extractAt E d (i % 17) (i / 17) out base = .ok (out', L[i].length) ∧ base ≤ out.length ∧
      out'.length = out.length ∧ out'.take base = out.take base ∧
      (out'.drop base).take L[i].length = L[i]

/-- consecutive strings have a valid common prefix length -/
def ConsecOk (lcpOf : List Nat → List Nat → Nat) (L : List (List Nat)) : Prop :=
  ∀ i a b, L[i]? = some a → L[i + 1]? = some b → LcpOk lcpOf b a

theorem chainOk_of {lcpOf : List Nat → List Nat → Nat} : ∀ (h : List Nat) (ss : List (List Nat)),
    ConsecOk lcpOf (h :: ss) → ChainOk lcpOf h ss
  | _, [], _ => trivial
  | h, s :: ss, H => ⟨H 0 h s rfl rfl, chainOk_of s ss (fun i a b ha hb => H (i + 1) a b (by simpa using ha) (by simpa using hb))⟩

theorem chunk_eq {L : List (List Nat)} {b : Nat} (h : 17 * b < L.length) :
    L[17 * b] :: (L.drop (17 * b + 1)).take 16 = (L.drop (17 * b)).take 17 := by
  rw [List.drop_eq_getElem_cons h, List.take_succ_cons]

theorem build_rep {E : Elem} {P} (g : Good E P) {m : Nat} (hm : m ≤ E.cap) {lcpOf} {L : List (List Nat)}
    (hn : L.length % 17 ≠ 0) (hw : weight E L < E.ptr) (hP : ∀ s ∈ L, s.length ≤ m ∧ ∀ c ∈ s, P c) (hc : ConsecOk lcpOf L) :
    ∃ d, build E lcpOf L = .ok d ∧ Rep E m d L := by
  obtain ⟨d, hd, hsize, hnb, hall⟩ := build_spec g (lcpOf := lcpOf) hn hw
  have hlt : ∀ b, 17 * b < L.length → b < d.nBuckets := by intro b hb; omega
  have H : ∀ b (h : 17 * b < L.length), Holds E lcpOf (E.cap * E.width) d b L[17 * b]
      ((L.drop (17 * b + 1)).take 16) := by
    intro b h
    exact hall b (hlt b h) _ (List.getElem?_eq_getElem h)
  have hchain : ∀ b (h : 17 * b < L.length), ChainOk lcpOf L[17 * b] ((L.drop (17 * b + 1)).take 16) := by
    intro b h
    apply chainOk_of
    rw [chunk_eq h]
    intro i x y hx hy
    rw [List.getElem?_take] at hx hy
    split at hx <;> split at hy <;> try contradiction
    rw [List.getElem?_drop] at hx hy
    exact hc (17 * b + i) x y hx (by rw [← hy]; congr 1)
  have hPc : ∀ b (h : 17 * b < L.length), ∀ s ∈ L[17 * b] :: (L.drop (17 * b + 1)).take 16,
      s.length ≤ m ∧ ∀ c ∈ s, P c := by
    intro b h s hs
    rw [chunk_eq h] at hs
    exact hP s (List.mem_of_mem_drop (List.mem_of_mem_take hs))
  have hbsz : ∀ b, 17 * b < L.length → d.bucketSize b = ((L.drop (17 * b + 1)).take 16).length := by
    intro b h
    simp only [bucketSize, hsize, tail_eq hn, hnb, List.length_take, List.length_drop]
    split <;> omega
  refine ⟨d, hd, ⟨by omega, hsize, hnb, hbsz, fun b h => header_of_holds (H b h), ?_, ?_, ?_⟩⟩
  · intro ρ stop b h buf hbuf
    exact scan_spec g (H b h) hm (hchain b h) (hPc b h) stop (hbsz b h) buf hbuf
  · intro i h out base hcap
    have hb : 17 * (i / 17) < L.length := by omega
    refine extractAt_spec g (H _ hb) hm (hchain _ hb) (hPc _ hb) out hcap ?_
    rw [chunk_eq hb, List.getElem?_take, if_pos (by omega), List.getElem?_drop,
      show 17 * (i / 17) + i % 17 = i by omega]
    exact List.getElem?_eq_getElem h
  · intro i h out base
    have hb : 17 * (i / 17) < L.length := by omega
    refine extractAt_any g (H _ hb) hm (hchain _ hb) (hPc _ hb) out ?_
    rw [chunk_eq hb, List.getElem?_take, if_pos (by omega), List.getElem?_drop,
      show 17 * (i / 17) + i % 17 = i by omega]
    exact List.getElem?_eq_getElem h

/-! ## Order -/

theorem lt_trans' {a b c : List Nat} (h : a < b) (h' : b < c) : a < c := List.lt_trans h h'
theorem lt_irrefl' (a : List Nat) : ¬ a < a := List.lt_irrefl a
theorem lt_asymm' {a b : List Nat} (h : a < b) : ¬ b < a := List.lt_asymm h

theorem lt_or_eq_or_gt : ∀ a b : List Nat, a < b ∨ a = b ∨ b < a
  | [], [] => by simp
  | [], _ :: _ => by simp
  | _ :: _, [] => by simp
  | a :: as, b :: bs => by
      rcases Nat.lt_trichotomy a b with h | h | h
      · left; simp [List.cons_lt_cons_iff, h]
      · subst h
        rcases lt_or_eq_or_gt as bs with h | h | h
        · left; simp [List.cons_lt_cons_iff, h]
        · right; left; rw [h]
        · right; right; simp [List.cons_lt_cons_iff, h]
      · right; right; simp [List.cons_lt_cons_iff, h]

theorem sorted_lt {L : List (List Nat)} (hs : StrictSorted L) {i j : Nat} (hij : i < j) (hj : j < L.length) :
    L[i] < L[j] := List.pairwise_iff_getElem.mp hs i j (by omega) hj hij

theorem sorted_inj {L : List (List Nat)} (hs : StrictSorted L) {i j : Nat} (hi : i < L.length)
    (hj : j < L.length) (h : L[i] = L[j]) : i = j := by
  rcases Nat.lt_trichotomy i j with h' | h' | h'
  · exact absurd (h ▸ sorted_lt hs h' hj) (lt_irrefl' _)
  · exact h'
  · exact absurd (h ▸ sorted_lt hs h' hi) (lt_irrefl' _)

/-- the sign of `cmp l t` is the lexicographic order of `l` and `t` -/
def CmpOk (cmpFn : List Nat → List Nat → Int) (l t : List Nat) : Prop :=
  (cmpFn l t < 0 ↔ l < t) ∧ (cmpFn l t = 0 ↔ l = t) ∧ (0 < cmpFn l t ↔ t < l)

theorem locateBucketLoop_spec {cmpFn} {d : FC} {t : List Nat} {H : Nat → List Nat} {nb : Nat}
    (hh : ∀ j < nb, d.header j = .ok (H j)) (hc : ∀ j < nb, CmpOk cmpFn (H j) t)
    (hmono : ∀ i j, i < j → j < nb → H i < H j) :
    ∀ (fuel : Nat) (s : BS), 0 ≤ s.lo → s.hi < nb → s.lo ≤ s.hi + 1 → s.hi - s.lo + 1 < fuel →
      (∀ j : Nat, (j : Int) < s.lo → H j < t) →
      (∀ j : Nat, (j : Int) > s.hi → j < nb → t < H j) →
      (s.cmp < 0 → s.mi = s.lo - 1 ∧ s.h = H s.mi.toNat ∧ 0 ≤ s.mi) →
      (0 ≤ s.cmp → s.lo = 0 ∨ s.lo ≤ s.hi ∨ 0 < s.cmp) →
      ∃ found s', locateBucketLoop cmpFn d t fuel s = .ok (found, s') ∧
        (found = true → 0 ≤ s'.mi ∧ s'.mi < nb ∧ s'.h = H s'.mi.toNat ∧ H s'.mi.toNat = t) ∧
        (found = false → s'.lo = s'.hi + 1 ∧ 0 ≤ s'.lo ∧ s'.hi < nb ∧
          (∀ j : Nat, (j : Int) < s'.lo → H j < t) ∧
          (∀ j : Nat, (j : Int) > s'.hi → j < nb → t < H j) ∧
          (s'.cmp < 0 → s'.mi = s'.hi ∧ s'.h = H s'.mi.toNat ∧ 0 ≤ s'.mi))
  | 0, s, h0, h1, h2, h3, _, _, _, _ => by omega
  | fuel + 1, s, h0, h1, h2, h3, hlo, hhi, hcm, hcm' => by
      unfold locateBucketLoop
      by_cases hle : s.lo ≤ s.hi
      · rw [if_pos hle]
        have hmi : ((s.lo + s.hi) / 2).toNat < nb := by omega
        have hmi0 : 0 ≤ (s.lo + s.hi) / 2 := by omega
        simp only [hh _ hmi, M.ok_bind]
        obtain ⟨c1, c2, c3⟩ := hc _ hmi
        generalize hm : (s.lo + s.hi) / 2 = mi at *
        have hb : s.lo ≤ mi ∧ mi ≤ s.hi := by omega
        generalize hcv : cmpFn (H mi.toNat) t = c at *
        by_cases g1 : c > 0
        · rw [if_pos g1]
          refine locateBucketLoop_spec hh hc hmono fuel _ h0 ?_ ?_ ?_ hlo ?_ ?_ ?_
          · simp; omega
          · simp; omega
          · simp; omega
          · intro j hj hjn
            simp at hj
            have ht := c3.mp g1
            by_cases e : j = mi.toNat
            · rw [e]; exact ht
            · exact lt_trans' ht (hmono _ _ (by omega) hjn)
          · simp; omega
          · simp; omega
        · rw [if_neg g1]
          by_cases g2 : c < 0
          · rw [if_pos g2]
            refine locateBucketLoop_spec hh hc hmono fuel _ ?_ h1 ?_ ?_ ?_ hhi ?_ ?_
            · simp; omega
            · simp; omega
            · simp; omega
            · intro j hj
              simp at hj
              have ht := c1.mp g2
              by_cases e : j = mi.toNat
              · rw [e]; exact ht
              · exact lt_trans' (hmono _ _ (by omega) hmi) ht
            · simp; omega
            · simp; omega
          · rw [if_neg g2]
            refine ⟨true, _, rfl, ?_, by simp⟩
            intro _
            exact ⟨hmi0, by simp; omega, rfl, c2.mp (by omega)⟩
      · rw [if_neg hle]
        refine ⟨false, s, rfl, by simp, ?_⟩
        intro _
        refine ⟨by omega, h0, h1, hlo, hhi, ?_⟩
        intro hlt
        obtain ⟨e1, e2, e3⟩ := hcm hlt
        exact ⟨by omega, e2, e3⟩

/-- `locate_bucket` returns the bucket whose header is the last one not greater than `t` (the first bucket if there is
none), and whether its header is `t`. -/
theorem locateBucket_spec {cmpFn} {E m} {d : FC} {L : List (List Nat)} {t : List Nat}
    (R : Rep E m d L) (hs : StrictSorted L) (hc : ∀ s ∈ L, CmpOk cmpFn s t) :
    ∃ found b, ∃ hb : 17 * b < L.length,
      locateBucket cmpFn d t = .ok (found, L[17 * b], b) ∧
      (found = true → L[17 * b] = t) ∧
      (found = false → (L[17 * b] < t ∨ (b = 0 ∧ t < L[17 * b])) ∧
        ∀ j (hj : 17 * j < L.length), b < j → t < L[17 * j]) := by
  have hnb := R.nb
  have hpos := R.pos
  let H : Nat → List Nat := fun j => (L[17 * j]?).getD []
  have hH : ∀ j (hj : 17 * j < L.length), H j = L[17 * j] := by
    intro j hj; simp [H, hj]
  have hlt : ∀ j, j < d.nBuckets ↔ 17 * j < L.length := by intro j; omega
  obtain ⟨found, s', e1, e2, e3⟩ := locateBucketLoop_spec (cmpFn := cmpFn) (d := d) (t := t) (H := H)
    (nb := d.nBuckets)
    (fun j hj => by rw [hH j ((hlt j).mp hj)]; exact R.hdr j ((hlt j).mp hj))
    (fun j hj => by rw [hH j ((hlt j).mp hj)]; exact hc _ (List.getElem_mem _))
    (fun i j hij hj => by
      rw [hH j ((hlt j).mp hj), hH i ((hlt i).mp (by omega))]
      exact sorted_lt hs (by omega) _)
    (d.nBuckets + 1) { lo := 0, hi := (d.nBuckets : Int) - 1, mi := 0, cmp := 0, h := [] }
    (by simp) (by simp; omega) (by simp) (by simp; omega) (by simp; omega)
    (by intro j hj hj'; simp at hj; omega) (by simp) (by simp)
  simp only [locateBucket, e1, M.ok_bind]
  cases found with
  | true =>
      obtain ⟨f1, f2, f3, f4⟩ := e2 rfl
      have hb : 17 * s'.mi.toNat < L.length := by omega
      refine ⟨true, s'.mi.toNat, hb, ?_, ?_, by simp⟩
      · simp [f3, hH _ hb]
      · intro _; rw [← hH _ hb]; exact f4
  | false =>
      obtain ⟨f1, f2, f3, f4, f5, f6⟩ := e3 rfl
      simp only [Bool.false_eq_true, if_false]
      by_cases hcm : s'.cmp < 0
      · obtain ⟨g1, g2, g3⟩ := f6 hcm
        have hb : 17 * s'.mi.toNat < L.length := by omega
        refine ⟨false, s'.mi.toNat, hb, ?_, by simp, ?_⟩
        · simp [hcm, g2, hH _ hb]
        · intro _
          refine ⟨Or.inl ?_, ?_⟩
          · rw [← hH _ hb]; exact f4 _ (by omega)
          · intro j hj hbj
            rw [← hH _ hj]; exact f5 j (by omega) (by omega)
      · rw [if_neg hcm]
        by_cases hm1 : s'.hi = -1
        · have hb : 17 * 0 < L.length := by omega
          refine ⟨false, 0, hb, ?_, by simp, ?_⟩
          · simp only [hm1, if_true, R.hdr 0 hb, M.ok_bind]
          · intro _
            refine ⟨Or.inr ⟨rfl, ?_⟩, ?_⟩
            · rw [← hH _ hb]; exact f5 0 (by omega) (by omega)
            · intro j hj hbj
              rw [← hH _ hj]; exact f5 j (by omega) (by omega)
        · have hb : 17 * s'.hi.toNat < L.length := by omega
          refine ⟨false, s'.hi.toNat, hb, ?_, by simp, ?_⟩
          · simp only [hm1, if_false, R.hdr _ hb, M.ok_bind]
          · intro _
            refine ⟨Or.inl ?_, ?_⟩
            · rw [← hH _ hb]; exact f4 _ (by omega)
            · intro j hj hbj
              rw [← hH _ hj]; exact f5 j (by omega) (by omega)

/-! ## Scans -/

theorem firstSome_none {ρ : Type} {stop : Nat → List Nat → Option ρ} : ∀ (ss : List (List Nat)) (i : Nat),
    (firstSome stop i ss = none ↔ ∀ j (h : j < ss.length), stop (i + j) ss[j] = none)
  | [], i => by simp [firstSome]
  | s :: ss, i => by
      simp only [firstSome]
      cases hst : stop i s with
      | some r =>
          simp only [reduceCtorEq, false_iff]
          intro h
          have := h 0 (by simp)
          simp [hst] at this
      | none =>
          simp only [firstSome_none ss (i + 1)]
          constructor
          · intro h j hj
            rcases j with _ | j
            · simpa using hst
            · have := h j (by simpa using hj)
              rw [show i + (j + 1) = i + 1 + j by omega]
              simpa using this
          · intro h j hj
            have := h (j + 1) (by simpa using hj)
            rw [show i + (j + 1) = i + 1 + j by omega] at this
            simpa using this

theorem firstSome_some {ρ : Type} {stop : Nat → List Nat → Option ρ} {r : ρ} : ∀ (ss : List (List Nat)) (i : Nat),
    firstSome stop i ss = some r ↔ ∃ j, ∃ h : j < ss.length, stop (i + j) ss[j] = some r ∧
      ∀ k (hk : k < j), stop (i + k) ss[k] = none
  | [], i => by simp [firstSome]
  | s :: ss, i => by
      simp only [firstSome]
      cases hst : stop i s with
      | some r' =>
          simp only [Option.some.injEq]
          constructor
          · intro h
            exact ⟨0, by simp, by simpa [h] using hst, by intro k hk; omega⟩
          · rintro ⟨j, hj, e1, e2⟩
            rcases j with _ | j
            · simp [hst] at e1; exact e1
            · have := e2 0 (by omega)
              simp [hst] at this
      | none =>
          simp only [firstSome_some ss (i + 1)]
          constructor
          · rintro ⟨j, hj, e1, e2⟩
            refine ⟨j + 1, by simpa using hj, ?_, ?_⟩
            · rw [show i + (j + 1) = i + 1 + j by omega]; simpa using e1
            · intro k hk
              rcases k with _ | k
              · simpa using hst
              · rw [show i + (k + 1) = i + 1 + k by omega]
                simpa using e2 k (by omega)
          · rintro ⟨j, hj, e1, e2⟩
            rcases j with _ | j
            · simp [hst] at e1
            · refine ⟨j, by simpa using hj, ?_, ?_⟩
              · rw [show i + (j + 1) = i + 1 + j by omega] at e1; simpa using e1
              · intro k hk
                have := e2 (k + 1) (by omega)
                rw [show i + (k + 1) = i + 1 + k by omega] at this
                simpa using this

end FC
end AC
