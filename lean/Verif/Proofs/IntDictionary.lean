import Verif.Proofs.FcLoss
import Verif.Model.IntDictionary
/-!
# Lemmas on the dictionary of completions
-/
namespace AC.IntDict
open FC FcDict

/-! ## Building -/

theorem lcpT_eq : ∀ {a b : Ids}, a ≠ b → (∀ x ∈ a, 0 < x) → (∀ x ∈ b, 0 < x) → lcpT a b = FC.lcp a b
  | [], [], h, _, _ => absurd rfl h
  | [], y :: b, _, _, hb => by
      have := hb y (by simp)
      simp [lcpT, FC.lcp]; omega
  | x :: a, [], _, ha, _ => by
      have := ha x (by simp)
      simp [lcpT, FC.lcp]; omega
  | x :: a, y :: b, h, ha, hb => by
      by_cases e : x = y
      · subst e
        have ih := lcpT_eq (a := a) (b := b) (by simpa using h) (fun z hz => ha z (by simp [hz]))
          (fun z hz => hb z (by simp [hz]))
        simp only [lcpT, FC.lcp, List.cons_append, if_true] at *
        rw [ih]
      · simp [lcpT, FC.lcp, e]

theorem consecOk {L : List Ids} (v : ValidIds L) : ConsecOk lcpT L := by
  intro i a b ha hb
  obtain ⟨hi, ha'⟩ := List.getElem?_eq_some_iff.mp ha
  obtain ⟨hj, hb'⟩ := List.getElem?_eq_some_iff.mp hb
  have hne : b ≠ a := by
    intro h
    have := sorted_lt v.sorted (show i < i + 1 by omega) hj
    rw [ha', hb', h] at this
    exact lt_irrefl' _ this
  have := lcp_ok b a
  unfold LcpOk at this ⊢
  rw [lcpT_eq hne (fun x hx => (v.elems b (List.mem_of_getElem? hb) x hx).1)
    (fun x hx => (v.elems a (List.mem_of_getElem? ha) x hx).1)]
  exact this

theorem weight_le {L : List Ids} (h : ∀ s ∈ L, s.length < 64) : weight Elem.u32 L ≤ 256 * L.length := by
  induction L with
  | nil => simp [weight]
  | cons s L ih =>
      have h1 := h s (List.mem_cons_self ..)
      have h2 := ih (fun s hs => h s (List.mem_cons_of_mem _ hs))
      rw [weight_cons, List.length_cons, show Elem.u32.width = 4 from rfl]
      omega

theorem weight_lt {L : List Ids} (v : ValidIds L) : weight Elem.u32 L < Elem.u32.ptr := by
  have h1 := weight_le v.len
  have h2 := v.count
  rw [show Elem.u32.ptr = 2 ^ 64 from rfl]
  omega

theorem build_fc_rep {L : List Ids} (v : ValidIds L) (hn : L.length % 17 ≠ 0) :
    ∃ d, FC.build Elem.u32 lcpT L = .ok d ∧ Rep Elem.u32 64 d L :=
  FC.build_rep good_u32 (Nat.le_refl _) hn (weight_lt v)
    (fun s hs => ⟨Nat.le_of_lt (v.len s hs), fun c hc => by have := v.elems s hs c hc; omega⟩) (consecOk v)

theorem cmpOk (t : Ids) (L : List Ids) : ∀ s ∈ L, CmpOk idsCompare s t := fun s _ => idsCompare_spec s t

/-! ## Exact lookup -/

theorem locate_mem {L : List Ids} (v : ValidIds L) {m : Nat} {d : FC} (R : Rep Elem.u32 m d L)
    {t : Ids} {i : Nat} (hi : i < L.length) (hti : L[i] = t) (buf : Ids) (hbuf : m + MAX_TERMS ≤ buf.length) :
    ∃ buf', locate d t buf = .ok (i, buf') ∧ buf'.length = buf.length := by
  obtain ⟨found, b, hb, e1, e2, e3⟩ := locateBucket_spec R v.sorted (cmpOk t L)
  simp only [locate, e1, M.ok_bind]
  cases found with
  | true =>
      have : 17 * b = i := sorted_inj v.sorted hb hi (by rw [e2 rfl, hti])
      exact ⟨buf, by simp [← this, Nat.mul_comm], rfl⟩
  | false =>
      obtain ⟨f1, f2⟩ := e3 rfl
      have hlt : L[17 * b] < t := by
        rcases f1 with h | ⟨rfl, h⟩
        · exact h
        · rcases Nat.eq_zero_or_pos i with rfl | hp
          · simp only [Nat.mul_zero] at h; rw [hti] at h; exact absurd h (lt_irrefl' _)
          · have := sorted_lt v.sorted (i := 17 * 0) (by omega) hi
            rw [hti] at this
            exact this
      have hbi : 17 * b < i := by
        apply Nat.lt_of_not_le
        intro hc
        rcases Nat.eq_or_lt_of_le hc with h | h
        · subst h; rw [hti] at hlt; exact lt_irrefl' _ hlt
        · have := sorted_lt v.sorted h hb
          rw [hti] at this
          exact lt_asymm' hlt this
      have hib : i < 17 * (b + 1) := by
        apply Nat.lt_of_not_le
        intro hc
        have h := f2 (b + 1) (by omega) (by omega)
        rcases Nat.eq_or_lt_of_le hc with h' | h'
        · subst h'; rw [hti] at h; exact lt_irrefl' _ h
        · have := sorted_lt v.sorted h' hi
          rw [hti] at this
          exact lt_asymm' h this
      obtain ⟨buf', g1, g2⟩ := R.scan (fun i s =>
        let cmp := idsCompare t s
        if cmp = 0 then some i else if cmp < 0 then some INVALID_TERM else none) b hb buf hbuf
      refine ⟨buf', ?_, g2⟩
      have hfs : firstSome (fun i s =>
        let cmp := idsCompare t s
        if cmp = 0 then some i else if cmp < 0 then some INVALID_TERM else none) 1
        ((L.drop (17 * b + 1)).take 16) = some (i - 17 * b) := by
        rw [firstSome_some]
        have hj : i - 17 * b - 1 < ((L.drop (17 * b + 1)).take 16).length := by simp; omega
        refine ⟨i - 17 * b - 1, hj, ?_, ?_⟩
        · obtain ⟨h', e⟩ := chunk_getElem hj
          have e' : L[17 * b + 1 + (i - 17 * b - 1)] = t := by
            rw [← hti]; congr 1; omega
          rw [e, e']
          have := (idsCompare_spec t t).2.1.mpr rfl
          simp only [this, if_true]
          congr 1; omega
        · intro k hk
          obtain ⟨h', e⟩ := chunk_getElem (Nat.lt_trans hk hj)
          rw [e]
          have hlt' : L[17 * b + 1 + k] < t := by
            rw [← hti]; exact sorted_lt v.sorted (by omega) hi
          have := (idsCompare_spec t _).2.2.mpr hlt'
          rw [if_neg (by omega), if_neg (by omega)]
      simp only [Bool.false_eq_true, if_false, locateIn, g1, hfs, M.ok_bind]
      rw [if_neg (by simp only [INVALID_TERM]; omega)]
      congr 2
      omega

/-! ## Prefix search -/

/-- the strings that are neither before `p ++ [b]` nor after all those with prefix `p ++ [e]` -/
theorem match_iff : ∀ {p : Ids} {b e : Nat} {s : Ids}, b ≤ e →
    (MatchIds p b e s ↔ ¬ s < p ++ [b] ∧ ¬ Gt (p ++ [e]) s)
  | [], b, e, [], _ => by simp [MatchIds]
  | [], b, e, y :: s, h => by
      simp only [MatchIds, Gt, List.nil_append, List.cons_prefix_cons, List.nil_prefix, and_true,
        List.cons_lt_cons_iff]
      constructor
      · rintro ⟨x, h1, h2, rfl⟩
        refine ⟨?_, ?_⟩
        · rintro (h | h)
          · omega
          · have := h.2; simp at this
        · rintro ⟨h3, h4⟩
          rcases h3 with h3 | h3
          · omega
          · exact h4 h3.1
      · rintro ⟨h1, h2⟩
        refine ⟨y, ?_, ?_, rfl⟩
        · apply Nat.le_of_not_lt; intro hc; exact h1 (Or.inl hc)
        · apply Nat.le_of_not_lt; intro hc
          exact h2 ⟨Or.inl hc, by omega⟩
  | x :: p, b, e, [], _ => by simp [MatchIds]
  | x :: p, b, e, y :: s, h => by
      have ih := match_iff (p := p) (s := s) h
      have e1 : MatchIds (x :: p) b e (y :: s) ↔ x = y ∧ MatchIds p b e s := by
        simp only [MatchIds, List.cons_append, List.cons_prefix_cons]
        constructor
        · rintro ⟨z, h1, h2, h3, h4⟩; exact ⟨h3, z, h1, h2, h4⟩
        · rintro ⟨h3, z, h1, h2, h4⟩; exact ⟨z, h1, h2, h3, h4⟩
      rw [e1, ih]
      simp only [Gt, List.cons_append, List.cons_lt_cons_iff, List.cons_prefix_cons]
      by_cases hxy : x = y
      · subst hxy; simp
      · simp only [hxy, false_and, not_false_eq_true, and_true, or_false, false_iff]
        have : ¬ y = x := fun e => hxy e.symm
        simp only [this, false_and, or_false]
        omega

/-- appending the largest id to a prefix does not change which strings are after it -/
theorem gt_snoc : ∀ {p s : Ids}, (∀ x ∈ s, x < INVALID_TERM) → (Gt (p ++ [INVALID_TERM]) s ↔ Gt p s)
  | [], [], _ => by simp [Gt]
  | [], y :: s, h => by
      have := h y (by simp)
      simp only [Gt, List.nil_append, List.cons_lt_cons_iff, List.cons_prefix_cons, List.nil_prefix, not_true,
        and_false, iff_false]
      rintro ⟨h1 | h1, h2⟩ <;> omega
  | x :: p, [], _ => by simp [Gt]
  | x :: p, y :: s, h => by
      have ih := gt_snoc (p := p) (s := s) (fun z hz => h z (by simp [hz]))
      simp only [Gt, List.cons_append, List.cons_lt_cons_iff, List.cons_prefix_cons] at ih ⊢
      by_cases hxy : x = y
      · subst hxy; simpa using ih
      · simp [hxy]

theorem rightBucketLoop_spec {d : FC} {t : Ids} {H : Nat → Ids} {nb : Nat}
    (hh : ∀ j < nb, d.header j = .ok (H j)) (hmono : ∀ i j, i ≤ j → j < nb → Gt t (H i) → Gt t (H j)) :
    ∀ (fuel : Nat) (s : BS), 0 ≤ s.lo → s.hi < nb → s.lo ≤ s.hi + 1 → s.hi - s.lo + 1 < fuel →
      (∀ j : Nat, (j : Int) < s.lo → 0 < s.lo → (j : Int) + 1 = s.lo → s.cmp < 0 → s.mi = j ∧ s.h = H j) →
      (s.cmp < 0 → 0 ≤ s.mi ∧ s.mi = s.lo - 1 ∧ s.h = H s.mi.toNat) →
      (∀ j : Nat, (j : Int) > s.hi → j < nb → Gt t (H j)) →
      ∃ s', rightBucketLoop d t fuel s = .ok s' ∧ s'.lo = s'.hi + 1 ∧ s.lo ≤ s'.lo ∧ s'.hi < nb ∧
        (∀ j : Nat, (j : Int) > s'.hi → j < nb → Gt t (H j)) ∧
        (s.lo < s'.lo → ¬ Gt t (H s'.hi.toNat)) ∧
        (s'.cmp < 0 → 0 ≤ s'.mi ∧ s'.mi = s'.hi ∧ s'.h = H s'.mi.toNat)
  | 0, s, h0, h1, h2, h3, _, _, _ => by omega
  | fuel + 1, s, h0, h1, h2, h3, hx, hcm, hhi => by
      unfold rightBucketLoop
      by_cases hle : s.lo ≤ s.hi
      · rw [if_pos hle]
        have hmi : ((s.lo + s.hi) / 2).toNat < nb := by omega
        have hmi0 : 0 ≤ (s.lo + s.hi) / 2 := by omega
        simp only [hh _ hmi, M.ok_bind]
        have hc := idsCompareN_spec (H ((s.lo + s.hi) / 2).toNat) t
        generalize hm : (s.lo + s.hi) / 2 = mi at *
        have hb : s.lo ≤ mi ∧ mi ≤ s.hi := by omega
        by_cases g1 : idsCompareN (H mi.toNat) t t.length > 0
        · rw [if_pos g1]
          have hg : Gt t (H mi.toNat) := hc.2.2.mp g1
          obtain ⟨s', r1, r2, r3, r4, r5, r6, r7⟩ := rightBucketLoop_spec hh hmono fuel
            { s with hi := mi - 1, mi := mi, cmp := idsCompareN (H mi.toNat) t t.length, h := H mi.toNat }
            h0 (by simp; omega) (by simp; omega) (by simp; omega)
            (by intro j _ _ _ hc'; simp at hc'; omega) (by simp; omega)
            (by intro j hj hjn; simp at hj; exact hmono mi.toNat j (by omega) hjn hg)
          exact ⟨s', r1, r2, r3, r4, r5, r6, r7⟩
        · rw [if_neg g1]
          have hg : ¬ Gt t (H mi.toNat) := fun h => g1 (hc.2.2.mpr h)
          obtain ⟨s', r1, r2, r3, r4, r5, r6, r7⟩ := rightBucketLoop_spec hh hmono fuel
            { s with lo := mi + 1, mi := mi, cmp := idsCompareN (H mi.toNat) t t.length, h := H mi.toNat }
            (by simp; omega) h1 (by simp; omega) (by simp; omega)
            (by intro j _ _ hj _; simp at hj; have : mi = j := by omega
                subst this; simp) (by intro _; simp; omega) hhi
          simp only at r3 r6
          refine ⟨s', r1, r2, by omega, r4, r5, ?_, r7⟩
          intro _
          by_cases he : mi + 1 < s'.lo
          · exact r6 he
          · have : s'.hi = mi := by omega
            rw [this]; exact hg
      · rw [if_neg hle]
        refine ⟨s, rfl, by omega, by omega, h1, hhi, by omega, ?_⟩
        intro h
        obtain ⟨a, b, c⟩ := hcm h
        exact ⟨a, by omega, c⟩

/-- The bucket `locate_right_bucket` returns when the header at the hint is not after `t`, or the hint is 0 -/
theorem locateRightBucket_spec {L : List Ids} (v : ValidIds L) {m : Nat} {d : FC} (R : Rep Elem.u32 m d L) {t : Ids}
    {hint : Nat} (hhint : 17 * hint < L.length) (hh0 : hint = 0 ∨ ¬ Gt t L[17 * hint]) :
    ∃ b, ∃ hb : 17 * b < L.length, locateRightBucket d t hint = .ok (L[17 * b], b) ∧ hint ≤ b ∧
      (∀ j (hj : 17 * j < L.length), b < j → Gt t L[17 * j]) ∧ (b = 0 ∨ ¬ Gt t L[17 * b]) := by
  have hnb := R.nb
  have hpos := R.pos
  let H : Nat → List Nat := fun j => (L[17 * j]?).getD []
  have hH : ∀ j (hj : 17 * j < L.length), H j = L[17 * j] := by
    intro j hj; simp [H, hj]
  have hlt : ∀ j, j < d.nBuckets ↔ 17 * j < L.length := by intro j; omega
  have hh : ∀ j < d.nBuckets, d.header j = .ok (H j) := fun j hj => by
    rw [hH j ((hlt j).mp hj)]; exact R.hdr j ((hlt j).mp hj)
  have gtup : ∀ i j, i ≤ j → j < d.nBuckets → Gt t (H i) → Gt t (H j) := by
    intro i j hij hj h
    rw [hH i ((hlt i).mp (by omega))] at h
    rw [hH j ((hlt j).mp hj)]
    exact Gt.mono_le v.sorted (by omega) _ h
  obtain ⟨s, e1, e2, e3, e4, e5, e6, e7⟩ := rightBucketLoop_spec hh gtup (d.nBuckets + 1)
    { lo := hint, hi := (d.nBuckets : Int) - 1, mi := 0, cmp := 0, h := [] }
    (by simp) (by simp; omega) (by simp; omega) (by simp; omega) (by simp) (by simp)
    (by intro j hj hj'; simp at hj; omega)
  simp only at e3 e6
  -- the case in which no header from the hint on qualifies
  have hstay : s.hi = hint - 1 → hint = 0 := by
    intro h
    rcases hh0 with h' | h'
    · exact h'
    · exact absurd (e5 hint (by omega) (by omega)) (by rw [hH _ hhint]; exact h')
  simp only [locateRightBucket, e1, M.ok_bind]
  by_cases hcm : s.cmp < 0
  · rw [if_pos hcm]
    obtain ⟨f1, f2, f3⟩ := e7 hcm
    have hb : 17 * s.mi.toNat < L.length := by omega
    refine ⟨s.mi.toNat, hb, by rw [f3, hH _ hb], ?_, ?_, ?_⟩
    · omega
    · intro j hj hlj; rw [← hH _ hj]; exact e5 j (by omega) (by omega)
    · by_cases hlo : (hint : Int) < s.lo
      · right; rw [← hH _ hb, f2]; exact e6 hlo
      · left; have := hstay (by omega); omega
  · rw [if_neg hcm]
    by_cases hm1 : s.hi = -1
    · have hb : 17 * 0 < L.length := by omega
      refine ⟨0, hb, by simp only [hm1, if_true, R.hdr 0 hb, M.ok_bind], ?_, ?_, Or.inl rfl⟩
      · omega
      · intro j hj hlj; rw [← hH _ hj]; exact e5 j (by omega) (by omega)
    · have hb : 17 * s.hi.toNat < L.length := by omega
      have hlo : (hint : Int) < s.lo := by
        apply Int.lt_of_not_ge
        intro hc
        have := hstay (by omega)
        omega
      refine ⟨s.hi.toNat, hb, by simp only [hm1, if_false, R.hdr _ hb, M.ok_bind], ?_, ?_, ?_⟩
      · omega
      · intro j hj hlj; rw [← hH _ hj]; exact e5 j (by omega) (by omega)
      · right; rw [← hH _ hb]; exact e6 hlo

/-- `left_locate` in the bucket of the begin of the range -/
theorem begin_spec {L : List Ids} (v : ValidIds L) {m : Nat} {d : FC} (R : Rep Elem.u32 m d L) {t : Ids}
    (buf : Ids) (hbuf : m + MAX_TERMS ≤ buf.length) :
    ∃ found b off buf', ∃ hb : 17 * b < L.length, locateBucket idsCompare d t = .ok (found, L[17 * b], b) ∧
      beginOffset d found t L[17 * b] b buf = .ok (off, buf') ∧ buf'.length = buf.length ∧
      (∀ i (hi : i < L.length), i < b * 17 + off → (i = 0 ∧ b = 0 ∧ t < L[i]) ∨ L[i] < t) ∧
      (∀ i (hi : i < L.length), b * 17 + off ≤ i → ¬ L[i] < t) ∧
      (b = 0 → L[17 * b] ≠ t → 0 < off) ∧ (b = 0 ∨ ¬ t < L[17 * b]) := by
  obtain ⟨found, b, hb, e1, e2, e3⟩ := locateBucket_spec R v.sorted (cmpOk t L)
  cases found with
  | true =>
      have heq := e2 rfl
      refine ⟨true, b, 0, buf, hb, e1, by simp [beginOffset], rfl, ?_, ?_, fun _ h => absurd heq h, ?_⟩
      · intro i hi hlt
        right; rw [← heq]; exact sorted_lt v.sorted (by omega) hb
      · intro i hi hle hlt
        rw [← heq] at hlt
        exact lt_irrefl' _ (lt_mono_le v.sorted (show 17 * b ≤ i by omega) hi hlt)
      · right; rw [heq]; exact lt_irrefl' _
  | false =>
      obtain ⟨f1, f2⟩ := e3 rfl
      obtain ⟨buf', g1, g2⟩ := R.scan (fun i s =>
        if idsCompareN s t t.length ≥ 0 then some i else none) b hb buf hbuf
      have hge : ∀ i (hi : i < L.length), (idsCompareN L[i] t t.length ≥ 0 ↔ ¬ L[i] < t) := by
        intro i hi
        have := (idsCompareN_spec L[i] t).1
        rw [← this]; omega
      have hlow : ∀ i (hi : i < L.length), i ≤ 17 * b → (i = 0 ∧ b = 0 ∧ t < L[i]) ∨ L[i] < t := by
        intro i hi hle
        rcases f1 with h | ⟨h0, h⟩
        · right; exact lt_mono_le v.sorted hle hb h
        · left; subst h0
          have : i = 0 := by omega
          subst this; exact ⟨rfl, rfl, h⟩
      have hlast : b = 0 ∨ ¬ t < L[17 * b] := by
        rcases f1 with h | ⟨h0, h⟩
        · right; exact lt_asymm' h
        · left; exact h0
      cases hfs : firstSome (fun i s => if idsCompareN s t t.length ≥ 0 then some i else none) 1
          ((L.drop (17 * b + 1)).take 16) with
      | none =>
          refine ⟨false, b, d.bucketSize b + 1, buf', hb, e1, ?_, g2, ?_, ?_, by omega, hlast⟩
          · simp [beginOffset, leftLocate, g1, hfs]
          · intro i hi hlt
            rw [R.bsz b hb] at hlt
            by_cases hle : i ≤ 17 * b
            · exact hlow i hi hle
            · right
              have hj : i - 17 * b - 1 < ((L.drop (17 * b + 1)).take 16).length := by omega
              have := (firstSome_none _ _).mp hfs _ hj
              obtain ⟨h', e⟩ := chunk_getElem hj
              have e' : L[17 * b + 1 + (i - 17 * b - 1)] = L[i] := by congr 1; omega
              rw [e, e'] at this
              apply Classical.not_not.mp
              intro hc
              rw [if_pos ((hge i hi).mpr hc)] at this
              cases this
          · intro i hi hle hlt
            rw [R.bsz b hb] at hle
            simp only [List.length_take, List.length_drop] at hle
            have := f2 (b + 1) (by omega) (by omega)
            exact lt_asymm' this (lt_mono_le v.sorted (show 17 * (b + 1) ≤ i by omega) hi hlt)
      | some o =>
          obtain ⟨j, hj, h1, h2⟩ := (firstSome_some _ _).mp hfs
          obtain ⟨h', e⟩ := chunk_getElem hj
          rw [e] at h1
          split at h1
          · rename_i hz
            cases h1
            refine ⟨false, b, 1 + j, buf', hb, e1, ?_, g2, ?_, ?_, by omega, hlast⟩
            · simp [beginOffset, leftLocate, g1, hfs]
            · intro i hi hlt
              by_cases hle : i ≤ 17 * b
              · exact hlow i hi hle
              · right
                have hk : i - 17 * b - 1 < j := by omega
                have := h2 _ hk
                obtain ⟨h'', e''⟩ := chunk_getElem (Nat.lt_trans hk hj)
                have e' : L[17 * b + 1 + (i - 17 * b - 1)] = L[i] := by congr 1; omega
                rw [e'', e'] at this
                apply Classical.not_not.mp
                intro hc
                rw [if_pos ((hge i hi).mpr hc)] at this
                cases this
            · intro i hi hle hlt
              exact (hge _ h').mp hz (lt_mono_le v.sorted (show 17 * b + 1 + j ≤ i by omega) hi hlt)
          · cases h1

/-- `right_locate` in the bucket of the end of the range -/
theorem end_spec {L : List Ids} (v : ValidIds L) {m : Nat} {d : FC} (R : Rep Elem.u32 m d L) {t : Ids} {b : Nat}
    (hb : 17 * b < L.length) (e2 : ∀ j (hj : 17 * j < L.length), b < j → Gt t L[17 * j])
    (buf : Ids) (hbuf : m + MAX_TERMS ≤ buf.length) :
    ∃ off buf', rightLocate d t L[17 * b] b buf = .ok (off, buf') ∧
      buf'.length = buf.length ∧ b * 17 + off < L.length ∧
      (∀ i (hi : i < L.length), b * 17 + off < i → Gt t L[i]) ∧
      (∀ i (hi : i < L.length), i ≤ b * 17 + off → 17 * b < i → ¬ Gt t L[i]) := by
  have hgt : ∀ i (hi : i < L.length), (idsCompareN L[i] t t.length > 0 ↔ Gt t L[i]) := fun i hi =>
    (idsCompareN_spec L[i] t).2.2
  obtain ⟨buf', g1, g2⟩ := R.scan (fun i s =>
    if idsCompareN s t t.length > 0 then some (i - 1) else none) b hb buf hbuf
  simp only [rightLocate, g1, M.ok_bind, R.bsz b hb]
  cases hfs : firstSome (fun i s => if idsCompareN s t t.length > 0 then some (i - 1) else none) 1
    ((L.drop (17 * b + 1)).take 16) with
  | none =>
      refine ⟨_, buf', rfl, by omega, ?_, ?_, ?_⟩
      · simp; omega
      · intro i hi hlt
        simp only [Option.getD_none, List.length_take, List.length_drop] at hlt
        exact Gt.mono_le v.sorted (show 17 * (b + 1) ≤ i by omega) hi (e2 (b + 1) (by omega) (by omega))
      · intro i hi hle hlt hg
        simp only [Option.getD_none] at hle
        have hj : i - 17 * b - 1 < ((L.drop (17 * b + 1)).take 16).length := by omega
        have := (firstSome_none _ _).mp hfs _ hj
        obtain ⟨h', e⟩ := chunk_getElem hj
        have e' : L[17 * b + 1 + (i - 17 * b - 1)] = L[i] := by congr 1; omega
        rw [e, e', if_pos ((hgt i hi).mpr hg)] at this
        cases this
  | some o =>
      obtain ⟨j, hj, h1, h2⟩ := (firstSome_some _ _).mp hfs
      obtain ⟨h', e⟩ := chunk_getElem hj
      rw [e] at h1
      split at h1
      · rename_i hz
        cases h1
        refine ⟨_, buf', rfl, by omega, ?_, ?_, ?_⟩
        · simp only [Option.getD_some]; omega
        · intro i hi hlt
          simp only [Option.getD_some] at hlt
          exact Gt.mono_le v.sorted (show 17 * b + 1 + j ≤ i by omega) hi ((hgt _ h').mp hz)
        · intro i hi hle hlt hg
          simp only [Option.getD_some] at hle
          have hk : i - 17 * b - 1 < j := by omega
          have := h2 _ hk
          obtain ⟨h'', e''⟩ := chunk_getElem (Nat.lt_trans hk hj)
          have e' : L[17 * b + 1 + (i - 17 * b - 1)] = L[i] := by congr 1; omega
          rw [e'', e', if_pos ((hgt i hi).mpr hg)] at this
          cases this
      · cases h1

/-- What `locate_prefix` computes: the range of the completions that start with `pfx` and a term in `[b, e]`, except
that the first completion does not count unless it is `pfx ++ [b]`. If the result is invalid and `b = e`, the caller's
`prefix` is left with an additional term. -/
theorem locatePrefix_exact {L : List Ids} (v : ValidIds L) {m : Nat} {d : FC} (R : Rep Elem.u32 m d L)
    {pfx : Ids} {b e : Nat} (hbe : b ≤ e) (he : e < 2 ^ 32) (buf : Ids) (hbuf : m + MAX_TERMS ≤ buf.length) :
    ∃ r pfx' buf', locatePrefix d pfx ⟨b, e⟩ buf = .ok (r, pfx', buf') ∧ buf'.length = buf.length ∧
      ((r = Range.invalid ∧ pfx' = (if b = e then pfx ++ [e] else pfx) ∧
        ∀ i (hi : i < L.length), MatchIds pfx b e L[i] → i = 0 ∧ L[i] ≠ pfx ++ [b]) ∨
       (r.b < r.e ∧ r.e ≤ L.length ∧ pfx' = pfx ∧ ∀ i (hi : i < L.length),
          (r.b ≤ i ∧ i < r.e) ↔ (MatchIds pfx b e L[i] ∧ ¬ (i = 0 ∧ L[i] ≠ pfx ++ [b])))) := by
  have hb32 : b % 2 ^ 32 = b := Nat.mod_eq_of_lt (by omega)
  have he32 : e % 2 ^ 32 = e := Nat.mod_eq_of_lt (by omega)
  obtain ⟨found, bb, off1, buf1, hbb, a1, a2, a3, a4, a5, a6, a7⟩ := begin_spec v R (t := pfx ++ [b]) buf hbuf
  simp only [locatePrefix, hb32, he32, a1, a2, M.ok_bind]
  -- the string used for the right end
  obtain ⟨t', ht', hgt'⟩ : ∃ t', (if b = e then pfx ++ [e] ++ [INVALID_TERM] else pfx ++ [e]) = t' ∧
      ∀ i (hi : i < L.length), Gt t' L[i] ↔ Gt (pfx ++ [e]) L[i] := by
    refine ⟨_, rfl, ?_⟩
    intro i hi
    by_cases hc : b = e
    · rw [if_pos hc]
      exact gt_snoc (fun x hx => by
        have := (v.elems _ (List.getElem_mem hi) x hx).2; simp only [INVALID_TERM]; omega)
    · rw [if_neg hc]
  have hdl : (if b = e then t'.dropLast.dropLast else t'.dropLast) = pfx ∧
      t'.dropLast = (if b = e then pfx ++ [e] else pfx) := by
    subst ht'
    by_cases hc : b = e
    · simp only [hc, if_true]
      rw [List.dropLast_concat]
      exact ⟨List.dropLast_concat, rfl⟩
    · simp [hc]
  rw [ht']
  have hbgt : ∀ i (hi : i < L.length), ¬ (pfx ++ [b]) < L[i] → ¬ Gt (pfx ++ [e]) L[i] := by
    intro i hi h hg
    apply h
    rcases Nat.eq_or_lt_of_le hbe with h' | h'
    · rw [h']; exact hg.1
    · refine lt_trans' ?_ hg.1
      exact List.append_left_lt (by simp [List.cons_lt_cons_iff, h'])
  obtain ⟨be, hbe', c1, c2, c3, c4⟩ := locateRightBucket_spec v R (t := t') hbb (by
    rcases a7 with h | h
    · exact Or.inl h
    · right; rw [hgt' _ hbb]; exact hbgt _ hbb h)
  obtain ⟨off2, buf2, d1, d2, d3, d4, d5⟩ := end_spec v R hbe' c3 buf1 (by rw [a3]; exact hbuf)
  rw [c1]
  simp only [M.ok_bind, d1]
  have hnotgt : ∀ i (hi : i < L.length), bb * 17 + off1 ≤ i → i ≤ be * 17 + off2 → ¬ Gt (pfx ++ [e]) L[i] := by
    intro i hi h1 h2 hg
    rw [← hgt' i hi] at hg
    by_cases hlt : 17 * be < i
    · exact d5 i hi h2 hlt hg
    · have hg' := Gt.mono_le v.sorted (show i ≤ 17 * be by omega) hbe' hg
      rcases c4 with h | h
      · subst h
        have hi0 : i = 0 := by omega
        subst hi0
        have hb0 : bb = 0 := by omega
        subst hb0
        have := a6 rfl (fun hc => by
          have h3 := (hgt' 0 hi).mp hg
          simp only [Nat.mul_zero] at hc
          refine hbgt 0 hi ?_ h3
          rw [hc]; exact lt_irrefl' _)
        omega
      · exact h hg'
  have hmatch : ∀ i (hi : i < L.length), MatchIds pfx b e L[i] ↔ ¬ L[i] < pfx ++ [b] ∧ ¬ Gt (pfx ++ [e]) L[i] :=
    fun i hi => match_iff hbe
  have hright : ∀ i (hi : i < L.length), MatchIds pfx b e L[i] → i ≤ be * 17 + off2 := by
    intro i hi hm
    apply Nat.le_of_not_lt
    intro hlt
    exact ((hmatch i hi).mp hm).2 ((hgt' i hi).mp (d4 i hi hlt))
  have hleft : ∀ i (hi : i < L.length), MatchIds pfx b e L[i] → i < bb * 17 + off1 →
      i = 0 ∧ L[i] ≠ pfx ++ [b] := by
    intro i hi hm hlt
    rcases a4 i hi hlt with ⟨h0, _, h⟩ | h
    · exact ⟨h0, fun hc => by rw [hc] at h; exact lt_irrefl' _ h⟩
    · exact absurd h ((hmatch i hi).mp hm).1
  by_cases hcmp : be * 17 + off2 < bb * 17 + off1
  · rw [if_pos hcmp]
    refine ⟨_, _, _, rfl, by omega, Or.inl ⟨rfl, hdl.2, ?_⟩⟩
    intro i hi hm
    exact hleft i hi hm (by have := hright i hi hm; omega)
  · rw [if_neg hcmp, hdl.1]
    refine ⟨_, _, _, rfl, by omega, Or.inr ⟨by simp only; omega, by simp only; omega, rfl, ?_⟩⟩
    intro i hi
    simp only
    constructor
    · rintro ⟨h1, h2⟩
      refine ⟨(hmatch i hi).mpr ⟨a5 i hi h1, hnotgt i hi h1 (by omega)⟩, ?_⟩
      rintro ⟨rfl, hne⟩
      have hb0 : bb = 0 := by omega
      subst hb0
      have := a6 rfl hne
      omega
    · rintro ⟨h1, h2⟩
      refine ⟨?_, by have := hright i hi h1; omega⟩
      apply Nat.le_of_not_lt
      intro hlt
      exact h2 (hleft i hi h1 hlt)

end AC.IntDict
