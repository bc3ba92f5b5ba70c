import Verif.Proofs.FcBucketSize
import Verif.Proofs.DocMap
/-!
# The dictionary of completions with any bucket size

The lemmas of Proofs/IntDictionary.lean and Proofs/DocMap.lean with a bucket size `B` instead of 16.
-/
namespace AC.IntDict
open FC FcDict

theorem buildB_fc_rep {B : Nat} {L : List Ids} (v : ValidIds L) (hn : L.length % (B + 1) ≠ 0) :
    ∃ d, FC.buildB B Elem.u32 lcpT L = .ok d ∧ RepB B Elem.u32 64 d L :=
  FC.buildB_rep good_u32 (Nat.le_refl _) hn (weight_lt v)
    (fun s hs => ⟨Nat.le_of_lt (v.len s hs), fun c hc => by have := v.elems s hs c hc; omega⟩) (consecOk v)

theorem locateB_mem {B : Nat} {L : List Ids} (v : ValidIds L) {m : Nat} {d : FC} (R : RepB B Elem.u32 m d L)
    {t : Ids} {i : Nat} (hi : i < L.length) (hti : L[i] = t) (buf : Ids) (hbuf : m + MAX_TERMS ≤ buf.length) :
    ∃ buf', locateB B d t buf = .ok (i, buf') ∧ buf'.length = buf.length := by
  obtain ⟨found, b, hb, e1, e2, e3⟩ := locateBucketB_spec R v.sorted (cmpOk t L)
  simp only [locateB, e1, M.ok_bind, Nat.mul_comm b]
  cases found with
  | true =>
      have : (B + 1) * b = i := sorted_inj v.sorted hb hi (by rw [e2 rfl, hti])
      exact ⟨buf, by simp [← this], rfl⟩
  | false =>
      obtain ⟨f1, f2⟩ := e3 rfl
      have hlt : L[(B + 1) * b] < t := by
        rcases f1 with h | ⟨rfl, h⟩
        · exact h
        · rcases Nat.eq_zero_or_pos i with rfl | hp
          · simp only [Nat.mul_zero] at h; rw [hti] at h; exact absurd h (lt_irrefl' _)
          · have := sorted_lt v.sorted (i := (B + 1) * 0) (by omega) hi
            rw [hti] at this
            exact this
      have hbi : (B + 1) * b < i := by
        apply Nat.lt_of_not_le
        intro hc
        rcases Nat.eq_or_lt_of_le hc with h | h
        · subst h; rw [hti] at hlt; exact lt_irrefl' _ hlt
        · have := sorted_lt v.sorted h hb
          rw [hti] at this
          exact lt_asymm' hlt this
      have hib : i < (B + 1) * (b + 1) := by
        apply Nat.lt_of_not_le
        intro hc
        have h := f2 (b + 1) (by omega) (by omega)
        rcases Nat.eq_or_lt_of_le hc with h' | h'
        · subst h'; rw [hti] at h; exact lt_irrefl' _ h
        · have := sorted_lt v.sorted h' hi
          rw [hti] at this
          exact lt_asymm' h this
      obtain ⟨buf', g1, g2⟩ := R.scan (fun i s =>
        let cmp := idsCompare t s
        if cmp = 0 then some i else if cmp < 0 then some INVALID_TERM else none) b hb buf hbuf
      refine ⟨buf', ?_, g2⟩
      have hfs : firstSome (fun i s =>
        let cmp := idsCompare t s
        if cmp = 0 then some i else if cmp < 0 then some INVALID_TERM else none) 1
        ((L.drop ((B + 1) * b + 1)).take B) = some (i - (B + 1) * b) := by
        rw [firstSome_some]
        have hj : i - (B + 1) * b - 1 < ((L.drop ((B + 1) * b + 1)).take B).length := by
          rw [Nat.mul_succ] at hib
          simp only [List.length_take, List.length_drop]; omega
        refine ⟨i - (B + 1) * b - 1, hj, ?_, ?_⟩
        · obtain ⟨h', e⟩ := chunkB_getElem hj
          have e' : L[(B + 1) * b + 1 + (i - (B + 1) * b - 1)] = t := by
            rw [← hti]; congr 1; omega
          rw [e, e']
          have := (idsCompare_spec t t).2.1.mpr rfl
          simp only [this, if_true]
          congr 1; omega
        · intro k hk
          obtain ⟨h', e⟩ := chunkB_getElem (Nat.lt_trans hk hj)
          rw [e]
          have hlt' : L[(B + 1) * b + 1 + k] < t := by
            rw [← hti]; exact sorted_lt v.sorted (by omega) hi
          have := (idsCompare_spec t _).2.2.mpr hlt'
          rw [if_neg (by omega), if_neg (by omega)]
      simp only [Bool.false_eq_true, if_false, locateInB, g1, hfs, M.ok_bind]
      rw [if_neg (by have := v.count; simp only [INVALID_TERM]; omega)]
      congr 2
      omega

/-- The bucket `locate_right_bucket` returns when the header at the hint is not after `t`, or the hint is 0 -/
theorem locateRightBucketB_spec {B : Nat} {L : List Ids} (v : ValidIds L) {m : Nat} {d : FC} (R : RepB B Elem.u32 m d L) {t : Ids}
    {hint : Nat} (hhint : (B + 1) * hint < L.length) (hh0 : hint = 0 ∨ ¬ Gt t L[(B + 1) * hint]) :
    ∃ b, ∃ hb : (B + 1) * b < L.length, locateRightBucket d t hint = .ok (L[(B + 1) * b], b) ∧ hint ≤ b ∧
      (∀ j (hj : (B + 1) * j < L.length), b < j → Gt t L[(B + 1) * j]) ∧ (b = 0 ∨ ¬ Gt t L[(B + 1) * b]) := by
  have hpos := R.pos
  let H : Nat → List Nat := fun j => (L[(B + 1) * j]?).getD []
  have hH : ∀ j (hj : (B + 1) * j < L.length), H j = L[(B + 1) * j] := by
    intro j hj; simp [H, hj]
  have hlt := R.nb
  have hnb0 : 0 < d.nBuckets := (hlt 0).mpr (by simpa using hpos)
  have hhint' := (hlt hint).mpr hhint
  have hh : ∀ j < d.nBuckets, d.header j = .ok (H j) := fun j hj => by
    rw [hH j ((hlt j).mp hj)]; exact R.hdr j ((hlt j).mp hj)
  have gtup : ∀ i j, i ≤ j → j < d.nBuckets → Gt t (H i) → Gt t (H j) := by
    intro i j hij hj h
    rw [hH i ((hlt i).mp (by omega))] at h
    rw [hH j ((hlt j).mp hj)]
    exact Gt.mono_le v.sorted (mulB_le hij) _ h
  obtain ⟨s, e1, e2, e3, e4, e5, e6, e7⟩ := rightBucketLoop_spec hh gtup (d.nBuckets + 1)
    { lo := hint, hi := (d.nBuckets : Int) - 1, mi := 0, cmp := 0, h := [] }
    (by simp) (by simp; omega) (by simp; omega) (by simp; omega) (by simp) (by simp)
    (by intro j hj hj'; simp at hj; omega)
  simp only at e3 e6
  -- the case in which no header from the hint on qualifies
  have hstay : s.hi = hint - 1 → hint = 0 := by
    intro h
    rcases hh0 with h' | h'
    · exact h'
    · exact absurd (e5 hint (by omega) (by omega)) (by rw [hH _ hhint]; exact h')
  simp only [locateRightBucket, e1, M.ok_bind]
  by_cases hcm : s.cmp < 0
  · rw [if_pos hcm]
    obtain ⟨f1, f2, f3⟩ := e7 hcm
    have hb : (B + 1) * s.mi.toNat < L.length := (hlt _).mp (by omega)
    refine ⟨s.mi.toNat, hb, by rw [f3, hH _ hb], ?_, ?_, ?_⟩
    · omega
    · intro j hj hlj; rw [← hH _ hj]; exact e5 j (by omega) ((hlt j).mpr hj)
    · by_cases hlo : (hint : Int) < s.lo
      · right; rw [← hH _ hb, f2]; exact e6 hlo
      · left; have := hstay (by omega); omega
  · rw [if_neg hcm]
    by_cases hm1 : s.hi = -1
    · have hb : (B + 1) * 0 < L.length := by omega
      refine ⟨0, hb, by simp only [hm1, if_true, R.hdr 0 hb, M.ok_bind], ?_, ?_, Or.inl rfl⟩
      · omega
      · intro j hj hlj; rw [← hH _ hj]; exact e5 j (by omega) ((hlt j).mpr hj)
    · have hb : (B + 1) * s.hi.toNat < L.length := (hlt _).mp (by omega)
      have hlo : (hint : Int) < s.lo := by
        apply Int.lt_of_not_ge
        intro hc
        have := hstay (by omega)
        omega
      refine ⟨s.hi.toNat, hb, by simp only [hm1, if_false, R.hdr _ hb, M.ok_bind], ?_, ?_, ?_⟩
      · omega
      · intro j hj hlj; rw [← hH _ hj]; exact e5 j (by omega) ((hlt j).mpr hj)
      · right; rw [← hH _ hb]; exact e6 hlo

/-- `left_locate` in the bucket of the begin of the range -/
theorem beginB_spec {B : Nat} {L : List Ids} (v : ValidIds L) {m : Nat} {d : FC} (R : RepB B Elem.u32 m d L) {t : Ids}
    (buf : Ids) (hbuf : m + MAX_TERMS ≤ buf.length) :
    ∃ found b off buf', ∃ hb : (B + 1) * b < L.length, locateBucket idsCompare d t = .ok (found, L[(B + 1) * b], b) ∧
      beginOffsetB B d found t L[(B + 1) * b] b buf = .ok (off, buf') ∧ buf'.length = buf.length ∧
      (∀ i (hi : i < L.length), i < (B + 1) * b + off → (i = 0 ∧ b = 0 ∧ t < L[i]) ∨ L[i] < t) ∧
      (∀ i (hi : i < L.length), (B + 1) * b + off ≤ i → ¬ L[i] < t) ∧
      (b = 0 → L[(B + 1) * b] ≠ t → 0 < off) ∧ (b = 0 ∨ ¬ t < L[(B + 1) * b]) := by
  obtain ⟨found, b, hb, e1, e2, e3⟩ := locateBucketB_spec R v.sorted (cmpOk t L)
  cases found with
  | true =>
      have heq := e2 rfl
      refine ⟨true, b, 0, buf, hb, e1, by simp [beginOffsetB], rfl, ?_, ?_, fun _ h => absurd heq h, ?_⟩
      · intro i hi hlt
        right; rw [← heq]; exact sorted_lt v.sorted (by omega) hb
      · intro i hi hle hlt
        rw [← heq] at hlt
        exact lt_irrefl' _ (lt_mono_le v.sorted (show (B + 1) * b ≤ i by omega) hi hlt)
      · right; rw [heq]; exact lt_irrefl' _
  | false =>
      obtain ⟨f1, f2⟩ := e3 rfl
      obtain ⟨buf', g1, g2⟩ := R.scan (fun i s =>
        if idsCompareN s t t.length ≥ 0 then some i else none) b hb buf hbuf
      have hge : ∀ i (hi : i < L.length), (idsCompareN L[i] t t.length ≥ 0 ↔ ¬ L[i] < t) := by
        intro i hi
        have := (idsCompareN_spec L[i] t).1
        rw [← this]; omega
      have hlow : ∀ i (hi : i < L.length), i ≤ (B + 1) * b → (i = 0 ∧ b = 0 ∧ t < L[i]) ∨ L[i] < t := by
        intro i hi hle
        rcases f1 with h | ⟨h0, h⟩
        · right; exact lt_mono_le v.sorted hle hb h
        · left; subst h0
          have : i = 0 := by omega
          subst this; exact ⟨rfl, rfl, h⟩
      have hlast : b = 0 ∨ ¬ t < L[(B + 1) * b] := by
        rcases f1 with h | ⟨h0, h⟩
        · right; exact lt_asymm' h
        · left; exact h0
      cases hfs : firstSome (fun i s => if idsCompareN s t t.length ≥ 0 then some i else none) 1
          ((L.drop ((B + 1) * b + 1)).take B) with
      | none =>
          refine ⟨false, b, bucketSizeB B d b + 1, buf', hb, e1, ?_, g2, ?_, ?_, by omega, hlast⟩
          · simp [beginOffsetB, leftLocateB, g1, hfs]
          · intro i hi hlt
            rw [R.bsz b hb] at hlt
            by_cases hle : i ≤ (B + 1) * b
            · exact hlow i hi hle
            · right
              have hj : i - (B + 1) * b - 1 < ((L.drop ((B + 1) * b + 1)).take B).length := by omega
              have := (firstSome_none _ _).mp hfs _ hj
              obtain ⟨h', e⟩ := chunkB_getElem hj
              have e' : L[(B + 1) * b + 1 + (i - (B + 1) * b - 1)] = L[i] := by congr 1; omega
              rw [e, e'] at this
              apply Classical.not_not.mp
              intro hc
              rw [if_pos ((hge i hi).mpr hc)] at this
              cases this
          · intro i hi hle hlt
            rw [R.bsz b hb] at hle
            simp only [List.length_take, List.length_drop] at hle
            have h17 : (B + 1) * (b + 1) ≤ i := by rw [Nat.mul_succ]; omega
            have := f2 (b + 1) (by omega) (by omega)
            exact lt_asymm' this (lt_mono_le v.sorted h17 hi hlt)
      | some o =>
          obtain ⟨j, hj, h1, h2⟩ := (firstSome_some _ _).mp hfs
          obtain ⟨h', e⟩ := chunkB_getElem hj
          rw [e] at h1
          split at h1
          · rename_i hz
            cases h1
            refine ⟨false, b, 1 + j, buf', hb, e1, ?_, g2, ?_, ?_, by omega, hlast⟩
            · simp [beginOffsetB, leftLocateB, g1, hfs]
            · intro i hi hlt
              by_cases hle : i ≤ (B + 1) * b
              · exact hlow i hi hle
              · right
                have hk : i - (B + 1) * b - 1 < j := by omega
                have := h2 _ hk
                obtain ⟨h'', e''⟩ := chunkB_getElem (Nat.lt_trans hk hj)
                have e' : L[(B + 1) * b + 1 + (i - (B + 1) * b - 1)] = L[i] := by congr 1; omega
                rw [e'', e'] at this
                apply Classical.not_not.mp
                intro hc
                rw [if_pos ((hge i hi).mpr hc)] at this
                cases this
            · intro i hi hle hlt
              exact (hge _ h').mp hz (lt_mono_le v.sorted (show (B + 1) * b + 1 + j ≤ i by omega) hi hlt)
          · cases h1

/-- `right_locate` in the bucket of the end of the range -/
theorem endB_spec {B : Nat} {L : List Ids} (v : ValidIds L) {m : Nat} {d : FC} (R : RepB B Elem.u32 m d L) {t : Ids} {b : Nat}
    (hb : (B + 1) * b < L.length) (e2 : ∀ j (hj : (B + 1) * j < L.length), b < j → Gt t L[(B + 1) * j])
    (buf : Ids) (hbuf : m + MAX_TERMS ≤ buf.length) :
    ∃ off buf', rightLocateB B d t L[(B + 1) * b] b buf = .ok (off, buf') ∧
      buf'.length = buf.length ∧ (B + 1) * b + off < L.length ∧
      (∀ i (hi : i < L.length), (B + 1) * b + off < i → Gt t L[i]) ∧
      (∀ i (hi : i < L.length), i ≤ (B + 1) * b + off → (B + 1) * b < i → ¬ Gt t L[i]) := by
  have hgt : ∀ i (hi : i < L.length), (idsCompareN L[i] t t.length > 0 ↔ Gt t L[i]) := fun i hi =>
    (idsCompareN_spec L[i] t).2.2
  obtain ⟨buf', g1, g2⟩ := R.scan (fun i s =>
    if idsCompareN s t t.length > 0 then some (i - 1) else none) b hb buf hbuf
  simp only [rightLocateB, g1, M.ok_bind, R.bsz b hb]
  cases hfs : firstSome (fun i s => if idsCompareN s t t.length > 0 then some (i - 1) else none) 1
    ((L.drop ((B + 1) * b + 1)).take B) with
  | none =>
      refine ⟨_, buf', rfl, by omega, ?_, ?_, ?_⟩
      · simp; omega
      · intro i hi hlt
        simp only [Option.getD_none, List.length_take, List.length_drop] at hlt
        have h17 : (B + 1) * (b + 1) ≤ i := by rw [Nat.mul_succ]; omega
        exact Gt.mono_le v.sorted h17 hi (e2 (b + 1) (by omega) (by omega))
      · intro i hi hle hlt hg
        simp only [Option.getD_none] at hle
        have hj : i - (B + 1) * b - 1 < ((L.drop ((B + 1) * b + 1)).take B).length := by omega
        have := (firstSome_none _ _).mp hfs _ hj
        obtain ⟨h', e⟩ := chunkB_getElem hj
        have e' : L[(B + 1) * b + 1 + (i - (B + 1) * b - 1)] = L[i] := by congr 1; omega
        rw [e, e', if_pos ((hgt i hi).mpr hg)] at this
        cases this
  | some o =>
      obtain ⟨j, hj, h1, h2⟩ := (firstSome_some _ _).mp hfs
      obtain ⟨h', e⟩ := chunkB_getElem hj
      rw [e] at h1
      split at h1
      · rename_i hz
        cases h1
        refine ⟨_, buf', rfl, by omega, ?_, ?_, ?_⟩
        · simp only [Option.getD_some]; omega
        · intro i hi hlt
          simp only [Option.getD_some] at hlt
          exact Gt.mono_le v.sorted (show (B + 1) * b + 1 + j ≤ i by omega) hi ((hgt _ h').mp hz)
        · intro i hi hle hlt hg
          simp only [Option.getD_some] at hle
          have hk : i - (B + 1) * b - 1 < j := by omega
          have := h2 _ hk
          obtain ⟨h'', e''⟩ := chunkB_getElem (Nat.lt_trans hk hj)
          have e' : L[(B + 1) * b + 1 + (i - (B + 1) * b - 1)] = L[i] := by congr 1; omega
          rw [e'', e', if_pos ((hgt i hi).mpr hg)] at this
          cases this
      · cases h1

/-- What `locate_prefix` computes: the range of the completions that start with `pfx` and a term in `[b, e]`, except
that the first completion does not count unless it is `pfx ++ [b]`. If the result is invalid and `b = e`, the caller's
`prefix` is left with an additional term. -/
theorem locatePrefixB_exact {B : Nat} {L : List Ids} (v : ValidIds L) {m : Nat} {d : FC} (R : RepB B Elem.u32 m d L)
    {pfx : Ids} {b e : Nat} (hbe : b ≤ e) (he : e < 2 ^ 32 - 1) (buf : Ids) (hbuf : m + MAX_TERMS ≤ buf.length) :
    ∃ r pfx' buf', locatePrefixB B d pfx ⟨b, e⟩ buf = .ok (r, pfx', buf') ∧ buf'.length = buf.length ∧
      ((r = Range.invalid ∧ pfx' = (if b = e then pfx ++ [e] else pfx) ∧
        ∀ i (hi : i < L.length), MatchIds pfx b e L[i] → i = 0 ∧ L[i] ≠ pfx ++ [b]) ∨
       (r.b < r.e ∧ r.e ≤ L.length ∧ pfx' = pfx ∧ ∀ i (hi : i < L.length),
          (r.b ≤ i ∧ i < r.e) ↔ (MatchIds pfx b e L[i] ∧ ¬ (i = 0 ∧ L[i] ≠ pfx ++ [b])))) := by
  have hb32 : b % 2 ^ 32 = b := Nat.mod_eq_of_lt (by omega)
  have he32 : e % 2 ^ 32 = e := Nat.mod_eq_of_lt (by omega)
  obtain ⟨found, bb, off1, buf1, hbb, a1, a2, a3, a4, a5, a6, a7⟩ := beginB_spec v R (t := pfx ++ [b]) buf hbuf
  simp only [locatePrefixB, hb32, he32, a1, a2, M.ok_bind, Nat.mul_comm _ (B + 1)]
  -- the string used for the right end
  obtain ⟨t', ht', hgt'⟩ : ∃ t', (if b = e then pfx ++ [e] ++ [INVALID_TERM] else pfx ++ [e]) = t' ∧
      ∀ i (hi : i < L.length), Gt t' L[i] ↔ Gt (pfx ++ [e]) L[i] := by
    refine ⟨_, rfl, ?_⟩
    intro i hi
    by_cases hc : b = e
    · rw [if_pos hc]
      exact gt_snoc (fun x hx => by
        have := (v.elems _ (List.getElem_mem hi) x hx).2; simp only [INVALID_TERM]; omega)
    · rw [if_neg hc]
  have hdl : (if b = e then t'.dropLast.dropLast else t'.dropLast) = pfx ∧
      t'.dropLast = (if b = e then pfx ++ [e] else pfx) := by
    subst ht'
    by_cases hc : b = e
    · simp only [hc, if_true]
      rw [List.dropLast_concat]
      exact ⟨List.dropLast_concat, rfl⟩
    · simp [hc]
  rw [ht']
  have hbgt : ∀ i (hi : i < L.length), ¬ (pfx ++ [b]) < L[i] → ¬ Gt (pfx ++ [e]) L[i] := by
    intro i hi h hg
    apply h
    rcases Nat.eq_or_lt_of_le hbe with h' | h'
    · rw [h']; exact hg.1
    · refine lt_trans' ?_ hg.1
      exact List.append_left_lt (by simp [List.cons_lt_cons_iff, h'])
  obtain ⟨be, hbe', c1, c2, c3, c4⟩ := locateRightBucketB_spec v R (t := t') hbb (by
    rcases a7 with h | h
    · exact Or.inl h
    · right; rw [hgt' _ hbb]; exact hbgt _ hbb h)
  obtain ⟨off2, buf2, d1, d2, d3, d4, d5⟩ := endB_spec v R hbe' c3 buf1 (by rw [a3]; exact hbuf)
  rw [c1]
  simp only [M.ok_bind, d1]
  have hnotgt : ∀ i (hi : i < L.length), (B + 1) * bb + off1 ≤ i → i ≤ (B + 1) * be + off2 → ¬ Gt (pfx ++ [e]) L[i] := by
    intro i hi h1 h2 hg
    rw [← hgt' i hi] at hg
    by_cases hlt : (B + 1) * be < i
    · exact d5 i hi h2 hlt hg
    · have hg' := Gt.mono_le v.sorted (show i ≤ (B + 1) * be by omega) hbe' hg
      rcases c4 with h | h
      · subst h
        have hi0 : i = 0 := by omega
        subst hi0
        have hb0 : bb = 0 := by
          apply Nat.eq_zero_of_not_pos
          intro hc
          have := mulB_lt (B := B) hc
          omega
        subst hb0
        have := a6 rfl (fun hc => by
          have h3 := (hgt' 0 hi).mp hg
          simp only [Nat.mul_zero] at hc
          refine hbgt 0 hi ?_ h3
          rw [hc]; exact lt_irrefl' _)
        omega
      · exact h hg'
  have hmatch : ∀ i (hi : i < L.length), MatchIds pfx b e L[i] ↔ ¬ L[i] < pfx ++ [b] ∧ ¬ Gt (pfx ++ [e]) L[i] :=
    fun i hi => match_iff hbe
  have hright : ∀ i (hi : i < L.length), MatchIds pfx b e L[i] → i ≤ (B + 1) * be + off2 := by
    intro i hi hm
    apply Nat.le_of_not_lt
    intro hlt
    exact ((hmatch i hi).mp hm).2 ((hgt' i hi).mp (d4 i hi hlt))
  have hleft : ∀ i (hi : i < L.length), MatchIds pfx b e L[i] → i < (B + 1) * bb + off1 →
      i = 0 ∧ L[i] ≠ pfx ++ [b] := by
    intro i hi hm hlt
    rcases a4 i hi hlt with ⟨h0, _, h⟩ | h
    · exact ⟨h0, fun hc => by rw [hc] at h; exact lt_irrefl' _ h⟩
    · exact absurd h ((hmatch i hi).mp hm).1
  by_cases hcmp : (B + 1) * be + off2 < (B + 1) * bb + off1
  · rw [if_pos hcmp]
    refine ⟨_, _, _, rfl, by omega, Or.inl ⟨rfl, hdl.2, ?_⟩⟩
    intro i hi hm
    exact hleft i hi hm (by have := hright i hi hm; omega)
  · rw [if_neg hcmp, hdl.1]
    refine ⟨_, _, _, rfl, by omega, Or.inr ⟨by simp only; omega, by simp only; omega, rfl, ?_⟩⟩
    intro i hi
    simp only
    constructor
    · rintro ⟨h1, h2⟩
      refine ⟨(hmatch i hi).mpr ⟨a5 i hi h1, hnotgt i hi h1 (by omega)⟩, ?_⟩
      rintro ⟨rfl, hne⟩
      have hb0 : bb = 0 := by
        apply Nat.eq_zero_of_not_pos
        intro hc
        have := mulB_lt (B := B) hc
        omega
      subst hb0
      have := a6 rfl hne
      omega
    · rintro ⟨h1, h2⟩
      refine ⟨?_, by have := hright i hi h1; omega⟩
      apply Nat.le_of_not_lt
      intro hlt
      exact h2 (hleft i hi h1 hlt)

theorem lexLoopB_eq {B : Nat} (tl : Nat) : ∀ (nb : Nat) (input : List (Nat × Ids)) (lex : Nat) (v : List Nat),
    (nb ≠ 0 → (B + 1) * (nb - 1) + 1 + tl ≤ input.length) →
    lexLoopB B tl nb input lex v = lexAll (input.take (if nb = 0 then 0 else (B + 1) * (nb - 1) + 1 + tl)) lex v
  | 0, input, lex, v, _ => by simp [lexLoopB, lexAll]
  | nb + 1, [], lex, v, h => by simp at h
  | nb + 1, r :: input, lex, v, h => by
      have h' := h (by omega)
      simp only [List.length_cons, Nat.add_sub_cancel] at h'
      have hpred : nb ≠ 0 → (B + 1) * nb = (B + 1) * (nb - 1) + (B + 1) := by
        intro h0
        rw [← Nat.mul_succ]
        congr 1; omega
      have e : (if nb + 1 = 0 then 0 else (B + 1) * (nb + 1 - 1) + 1 + tl) = ((B + 1) * nb + tl) + 1 := by
        rw [if_neg (by omega), Nat.add_sub_cancel]; omega
      rw [e, List.take_succ_cons]
      simp only [lexLoopB, lexAll]
      cases wr v r.1 lex with
      | error e => rfl
      | ok v' =>
          simp only [M.ok_bind]
          have hsz : (if nb ≠ 0 then B else tl) ≤ input.length := by
            split
            · have := hpred (by assumption); omega
            · omega
          rw [lexBucket_eq _ _ _ _ hsz]
          have hsplit : input.take ((B + 1) * nb + tl) = input.take (if nb ≠ 0 then B else tl) ++
              (input.drop (if nb ≠ 0 then B else tl)).take (if nb = 0 then 0 else (B + 1) * (nb - 1) + 1 + tl) := by
            by_cases h0 : nb = 0
            · subst h0; simp
            · rw [if_pos h0, if_neg h0, ← List.take_add]
              have := hpred h0
              congr 1; omega
          rw [hsplit, lexAll_append]
          cases lexAll (input.take (if nb ≠ 0 then B else tl)) (lex + 1) v' with
          | error e => rfl
          | ok v'' =>
              simp only [M.ok_bind]
              rw [lexLoopB_eq tl nb _ _ _ (by
                intro h0; rw [if_pos h0, List.length_drop]; have := hpred h0; omega)]
              congr 1
              rw [List.length_take, Nat.min_eq_left hsz]

/-- What the builder produces when the number of completions is not a multiple of 17 -/
theorem buildB_spec {B : Nat} {univ : Nat} {rs : List (Nat × Ids)} (v : ValidIds (rs.map (·.2)))
    (hu : ∀ r ∈ rs, r.1 < univ) (hd : (rs.map (·.1)).Nodup) (hn : rs.length % (B + 1) ≠ 0) :
    ∃ d m, buildB B univ rs = .ok (d, m) ∧ RepB B Elem.u32 64 d (rs.map (·.2)) ∧ m.length = univ ∧
      (∀ i (hi : i < rs.length), m[rs[i].1]? = some i) ∧
      (∀ j, j < univ → j ∉ rs.map (·.1) → m[j]? = some INVALID_TERM) := by
  obtain ⟨d, hd1, R⟩ := buildB_fc_rep v (by simpa using hn)
  have htl := FC.tailB_eq hn
  obtain ⟨m, e1, e2, e3, e4⟩ := lexAll_spec rs 0 (List.replicate univ INVALID_TERM)
    (by simpa using hu) hd
  have hdm := Nat.div_add_mod rs.length (B + 1)
  have hsp := FC.nb_split hn
  have hne : (rs.length + B) / (B + 1) ≠ 0 := by rw [hsp]; exact Nat.succ_ne_zero _
  have hsum : (B + 1) * ((rs.length + B) / (B + 1) - 1) + 1 + FC.tailB B rs.length = rs.length := by
    rw [hsp, htl, Nat.add_sub_cancel]
    generalize (B + 1) * (rs.length / (B + 1)) = x at *
    generalize rs.length % (B + 1) = y at *
    omega
  have hloop : lexLoopB B (FC.tailB B rs.length) ((rs.length + B) / (B + 1)) rs 0 (List.replicate univ INVALID_TERM)
      = .ok m := by
    rw [lexLoopB_eq _ _ _ _ _ (fun _ => Nat.le_of_eq hsum)]
    rw [List.take_of_length_le (by rw [if_neg hne, hsum]; exact Nat.le_refl _), e1]
  refine ⟨d, m, ?_, R, by simpa using e2, ?_, ?_⟩
  · simp only [buildB, hloop, M.ok_bind, hd1]
  · intro i hi; rw [e3 i hi]; simp
  · intro j hj hjn
    rw [e4 j hjn]; simp [hj]

end AC.IntDict
