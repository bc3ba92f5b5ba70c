import Verif.Proofs.FcSearch
import Verif.Proofs.Compare
import Verif.Model.FcDictionary
/-!
# Lemmas on the dictionary of terms
-/
namespace AC.FcDict
open FC

theorem weight_lt {L : List Str} (v : ValidTerms L) : weight Elem.byte L < Elem.byte.ptr := by
  have h := v.room
  simp only [weight, Elem.byte, Nat.mul_one]
  exact h

theorem build_rep {L : List Str} (v : ValidTerms L) {m : Nat} (hm : m ≤ MAX_CHARS) (hlen : ∀ s ∈ L, s.length ≤ m)
    (hn : L.length % 17 ≠ 0) : ∃ d, build L = .ok d ∧ Rep Elem.byte m d L :=
  FC.build_rep good_byte hm hn (weight_lt v)
    (fun s hs => ⟨hlen s hs, fun c hc => (v.text s hs c hc).2⟩) (fun _ a b _ _ => lcp_ok b a)

theorem cmpOk {L : List Str} (v : ValidTerms L) {t : Str} (ht : IsText t) : ∀ s ∈ L, CmpOk byteCompare s t :=
  fun s hs => strncmp_spec s t (v.text s hs) ht

theorem chunk_getElem {L : List (List Nat)} {b j : Nat} (h : j < ((L.drop (17 * b + 1)).take 16).length) :
    ∃ h' : 17 * b + 1 + j < L.length, ((L.drop (17 * b + 1)).take 16)[j] = L[17 * b + 1 + j] := by
  simp at h
  exact ⟨by omega, by simp⟩

theorem locate_mem {L : List Str} (v : ValidTerms L) {m : Nat} {d : FC} (R : Rep Elem.byte m d L)
    {t : Str} (ht : IsText t) {i : Nat} (hi : i < L.length) (hti : L[i] = t) (buf : Str)
    (hbuf : m + MAX_CHARS ≤ buf.length) :
    ∃ buf', locate d t buf = .ok (i + 1, buf') ∧ buf'.length = buf.length := by
  obtain ⟨found, b, hb, e1, e2, e3⟩ := locateBucket_spec R v.sorted (cmpOk v ht)
  simp only [locate, e1, M.ok_bind]
  cases found with
  | true =>
      have : 17 * b = i := sorted_inj v.sorted hb hi (by rw [e2 rfl, hti])
      exact ⟨buf, by simp [← this, Nat.mul_comm], rfl⟩
  | false =>
      obtain ⟨f1, f2⟩ := e3 rfl
      have hlt : L[17 * b] < t := by
        rcases f1 with h | ⟨rfl, h⟩
        · exact h
        · rcases Nat.eq_zero_or_pos i with rfl | hp
          · simp only [Nat.mul_zero] at h; rw [hti] at h; exact absurd h (lt_irrefl' _)
          · have := sorted_lt v.sorted (i := 17 * 0) (by omega) hi
            rw [hti] at this
            exact this
      have hbi : 17 * b < i := by
        apply Nat.lt_of_not_le
        intro hc
        rcases Nat.eq_or_lt_of_le hc with h | h
        · subst h; rw [hti] at hlt; exact lt_irrefl' _ hlt
        · have := sorted_lt v.sorted h hb
          rw [hti] at this
          exact lt_asymm' hlt this
      have hib : i < 17 * (b + 1) := by
        apply Nat.lt_of_not_le
        intro hc
        have h := f2 (b + 1) (by omega) (by omega)
        rcases Nat.eq_or_lt_of_le hc with h' | h'
        · subst h'; rw [hti] at h; exact lt_irrefl' _ h
        · have := sorted_lt v.sorted h' hi
          rw [hti] at this
          exact lt_asymm' h this
      obtain ⟨buf', g1, g2⟩ := R.scan (fun i s =>
        let cmp := byteCompare t s
        if cmp = 0 then some i else if cmp < 0 then some INVALID_TERM else none) b hb buf hbuf
      refine ⟨buf', ?_, g2⟩
      have hfs : firstSome (fun i s =>
        let cmp := byteCompare t s
        if cmp = 0 then some i else if cmp < 0 then some INVALID_TERM else none) 1
        ((L.drop (17 * b + 1)).take 16) = some (i - 17 * b) := by
        rw [firstSome_some]
        have hj : i - 17 * b - 1 < ((L.drop (17 * b + 1)).take 16).length := by simp; omega
        refine ⟨i - 17 * b - 1, hj, ?_, ?_⟩
        · obtain ⟨h', e⟩ := chunk_getElem hj
          have e' : L[17 * b + 1 + (i - 17 * b - 1)] = t := by
            rw [← hti]; congr 1; omega
          rw [e, e']
          have := (strncmp_spec t t ht ht).2.1.mpr rfl
          simp only [this, if_true]
          congr 1; omega
        · intro k hk
          obtain ⟨h', e⟩ := chunk_getElem (Nat.lt_trans hk hj)
          rw [e]
          have hlt' : L[17 * b + 1 + k] < t := by
            rw [← hti]; exact sorted_lt v.sorted (by omega) hi
          have := (strncmp_spec t _ ht (v.text _ (List.getElem_mem h'))).2.2.mpr hlt'
          rw [if_neg (by omega), if_neg (by omega)]
      simp only [Bool.false_eq_true, if_false, locateIn, g1, hfs, M.ok_bind, Option.getD_some]
      rw [if_neg (by simp only [INVALID_TERM]; omega)]
      congr 2
      omega

theorem locate_not_mem {L : List Str} (v : ValidTerms L) {m : Nat} {d : FC} (R : Rep Elem.byte m d L)
    {t : Str} (ht : IsText t) (hti : t ∉ L) (buf : Str)
    (hbuf : m + MAX_CHARS ≤ buf.length) :
    ∃ buf', locate d t buf = .ok (INVALID_TERM, buf') ∧ buf'.length = buf.length := by
  obtain ⟨found, b, hb, e1, e2, e3⟩ := locateBucket_spec R v.sorted (cmpOk v ht)
  simp only [locate, e1, M.ok_bind]
  cases found with
  | true => exact absurd (e2 rfl ▸ List.getElem_mem hb) hti
  | false =>
      obtain ⟨buf', g1, g2⟩ := R.scan (fun i s =>
        let cmp := byteCompare t s
        if cmp = 0 then some i else if cmp < 0 then some INVALID_TERM else none) b hb buf hbuf
      refine ⟨buf', ?_, g2⟩
      simp only [Bool.false_eq_true, if_false, locateIn, g1, M.ok_bind]
      cases hfs : firstSome (fun i s =>
        let cmp := byteCompare t s
        if cmp = 0 then some i else if cmp < 0 then some INVALID_TERM else none) 1
        ((L.drop (17 * b + 1)).take 16) with
      | none => simp
      | some r =>
          obtain ⟨j, hj, h1, _⟩ := (firstSome_some _ _).mp hfs
          obtain ⟨h', e⟩ := chunk_getElem hj
          rw [e] at h1
          have hne : byteCompare t L[17 * b + 1 + j] ≠ 0 := by
            intro hc
            have := (strncmp_spec t _ ht (v.text _ (List.getElem_mem h'))).2.1.mp hc
            exact hti (this ▸ List.getElem_mem h')
          simp only [hne, if_false] at h1
          split at h1
          · cases h1; simp
          · cases h1

/-! ## Prefix search -/

/-- `p` is less than every string it is a prefix of, ... : the strings starting with `p` are contiguous -/
theorem prefix_mid : ∀ {p s s' : List Nat}, p <+: s' → ¬ s < p → s < s' → p <+: s
  | [], s, s', _, _, _ => by simp
  | a :: p, [], s', _, h, _ => by simp at h
  | a :: p, b :: s, [], h, _, _ => by simp at h
  | a :: p, b :: s, c :: s', h, h', h'' => by
      rw [List.cons_prefix_cons] at h ⊢
      obtain ⟨rfl, h⟩ := h
      rw [List.cons_lt_cons_iff] at h' h''
      have hb : b = a := by omega
      subst hb
      refine ⟨rfl, prefix_mid h ?_ ?_⟩
      · intro hc; exact h' (Or.inr ⟨rfl, hc⟩)
      · rcases h'' with h | h
        · omega
        · exact h.2

theorem prefix_not_lt : ∀ {p s : List Nat}, p <+: s → ¬ s < p
  | [], s, _ => by simp
  | a :: p, [], h => by simp at h
  | a :: p, b :: s, h => by
      rw [List.cons_prefix_cons] at h
      obtain ⟨rfl, h⟩ := h
      rw [List.cons_lt_cons_iff]
      rintro (h' | ⟨_, h'⟩)
      · omega
      · exact prefix_not_lt h h'

/-- greater than all strings starting with `p` -/
def Gt (p s : List Nat) : Prop := p < s ∧ ¬ p <+: s

theorem class3 (p s : List Nat) : s < p ∨ p <+: s ∨ Gt p s := by
  rcases lt_or_eq_or_gt s p with h | h | h
  · exact Or.inl h
  · exact Or.inr (Or.inl (h ▸ List.prefix_rfl))
  · by_cases hp : p <+: s
    · exact Or.inr (Or.inl hp)
    · exact Or.inr (Or.inr ⟨h, hp⟩)

theorem Gt.mono {p s s' : List Nat} (h : Gt p s) (hs : s < s') : Gt p s' :=
  ⟨lt_trans' h.1 hs, fun hp => h.2 (prefix_mid hp (lt_asymm' h.1) hs)⟩

theorem Gt.mono_le {L : List Str} (hs : StrictSorted L) {p : Str} {i j : Nat} (hij : i ≤ j) (hj : j < L.length)
    (h : Gt p L[i]) : Gt p L[j] := by
  rcases Nat.eq_or_lt_of_le hij with h' | h'
  · subst h'; exact h
  · exact h.mono (sorted_lt hs h' hj)

theorem lt_mono_le {L : List Str} (hs : StrictSorted L) {p : Str} {i j : Nat} (hij : i ≤ j) (hj : j < L.length)
    (h : L[j] < p) : L[i] < p := by
  rcases Nat.eq_or_lt_of_le hij with h' | h'
  · subst h'; exact h
  · exact lt_trans' (sorted_lt hs h' hj) h

theorem bucketsLoop_spec {d : FC} {p : Str} {H : Nat → Str} {nb : Nat} (goLeft : Int → Bool)
    (hh : ∀ j < nb, d.header j = .ok (H j)) (Q : Nat → Prop)
    (hQ : ∀ j < nb, (goLeft (byteCompareN (H j) p p.length) = true ↔ Q j))
    (hmono : ∀ i j, i ≤ j → j < nb → Q i → Q j) :
    ∀ (fuel : Nat) (lo hi : Int), 0 ≤ lo → hi < nb → lo ≤ hi + 1 → hi - lo + 1 < fuel →
      (∀ j : Nat, (j : Int) < lo → ¬ Q j) → (∀ j : Nat, (j : Int) > hi → j < nb → Q j) →
      ∃ r : Nat, bucketsLoop d p goLeft fuel lo hi = .ok (r : Int) ∧ r ≤ nb ∧ lo ≤ r ∧
        (∀ j < r, ¬ Q j) ∧ (∀ j, r ≤ j → j < nb → Q j)
  | 0, lo, hi, h0, h1, h2, h3, _, _ => by omega
  | fuel + 1, lo, hi, h0, h1, h2, h3, hlo, hhi => by
      unfold bucketsLoop
      by_cases hle : lo ≤ hi
      · rw [if_pos hle]
        have hmi : ((lo + hi) / 2).toNat < nb := by omega
        simp only [hh _ hmi, M.ok_bind]
        have hq := hQ _ hmi
        generalize hm : (lo + hi) / 2 = mi at *
        by_cases hg : goLeft (byteCompareN (H mi.toNat) p p.length) = true
        · rw [if_pos hg]
          obtain ⟨r, g1, g2, g3, g4, g5⟩ := bucketsLoop_spec goLeft hh Q hQ hmono fuel lo (mi - 1)
            h0 (by omega) (by omega) (by omega) hlo (by
              intro j hj hjn
              exact hmono mi.toNat j (by omega) hjn (hq.mp hg))
          exact ⟨r, g1, g2, by omega, g4, g5⟩
        · rw [if_neg hg]
          obtain ⟨r, g1, g2, g3, g4, g5⟩ := bucketsLoop_spec goLeft hh Q hQ hmono fuel (mi + 1) hi
            (by omega) h1 (by omega) (by omega) (by
              intro j hj hQj
              exact hg (hq.mpr (hmono j mi.toNat (by omega) hmi hQj))) hhi
          exact ⟨r, g1, g2, by omega, g4, g5⟩
      · rw [if_neg hle]
        refine ⟨lo.toNat, by rw [show ((lo.toNat : Nat) : Int) = lo by omega], by omega, by omega, ?_, ?_⟩
        · intro j hj; exact hlo j (by omega)
        · intro j hj hjn; exact hhi j (by omega) hjn

theorem locateBuckets_spec {L : List Str} (v : ValidTerms L) {m : Nat} {d : FC} (R : Rep Elem.byte m d L)
    {p : Str} (hp : IsText p) :
    ∃ l r, locateBuckets d p = .ok (l, r) ∧ l ≤ r ∧ ∃ hl : 17 * l < L.length, ∃ hr : 17 * r < L.length,
      (∀ j (hj : 17 * j < L.length), r < j → Gt p L[17 * j]) ∧
      (l < r → ¬ Gt p L[17 * r]) ∧
      (L[17 * l] = p ∨ l = 0 ∨ L[17 * l] < p) ∧
      (∀ j (hj : 17 * j < L.length), l < j → ¬ L[17 * j] < p) := by
  have hnb := R.nb
  have hpos := R.pos
  let H : Nat → List Nat := fun j => (L[17 * j]?).getD []
  have hH : ∀ j (hj : 17 * j < L.length), H j = L[17 * j] := by
    intro j hj; simp [H, hj]
  have hlt : ∀ j, j < d.nBuckets ↔ 17 * j < L.length := by intro j; omega
  have hh : ∀ j < d.nBuckets, d.header j = .ok (H j) := fun j hj => by
    rw [hH j ((hlt j).mp hj)]; exact R.hdr j ((hlt j).mp hj)
  have hcmp : ∀ j < d.nBuckets, _ := fun j hj =>
    byteCompareN_spec (H j) p (by rw [hH j ((hlt j).mp hj)]; exact v.text _ (List.getElem_mem _)) hp
  have ltdown : ∀ i j, i ≤ j → j < d.nBuckets → H j < p → H i < p := by
    intro i j hij hj h
    rw [hH j ((hlt j).mp hj)] at h
    rw [hH i ((hlt i).mp (by omega))]
    exact lt_mono_le v.sorted (by omega) _ h
  have gtup : ∀ i j, i ≤ j → j < d.nBuckets → Gt p (H i) → Gt p (H j) := by
    intro i j hij hj h
    rw [hH i ((hlt i).mp (by omega))] at h
    rw [hH j ((hlt j).mp hj)]
    exact Gt.mono_le v.sorted (by omega) _ h
  obtain ⟨lo, e1, e2, _, e3, e4⟩ := bucketsLoop_spec (p := p) (fun cmp => decide (cmp ≥ 0)) hh (fun j => ¬ H j < p)
    (fun j hj => by rw [← (hcmp j hj).1]; simp)
    (fun i j hij hj h h' => h (ltdown i j hij hj h'))
    (d.nBuckets + 1) 0 ((d.nBuckets : Int) - 1) (by omega) (by omega) (by omega) (by omega)
    (by intro j hj; omega) (by intro j hj hj'; omega)
  have e3' : ∀ j < lo, H j < p := fun j hj => Classical.not_not.mp (e3 j hj)
  simp only [locateBuckets, e1, M.ok_bind, Int.toNat_natCast]
  by_cases hlonb : lo = d.nBuckets
  · rw [if_pos hlonb]
    have hb : 17 * (lo - 1) < L.length := by omega
    refine ⟨lo - 1, lo - 1, rfl, Nat.le_refl _, hb, hb, ?_, by omega, ?_, ?_⟩
    · intro j hj hlj; omega
    · right; right; rw [← hH _ hb]; exact e3' _ (by omega)
    · intro j hj hlj; omega
  · rw [if_neg hlonb]
    have hlo : 17 * lo < L.length := by omega
    obtain ⟨left, f1, f2, f3, f4⟩ : ∃ left, leftBucket d p lo = .ok left ∧ left < d.nBuckets ∧
        (H left = p ∨ left = 0 ∨ H left < p) ∧ (∀ j, left < j → j < d.nBuckets → ¬ H j < p) := by
      unfold leftBucket
      by_cases h0 : lo = 0
      · refine ⟨0, by simp [h0], by omega, Or.inr (Or.inl rfl), ?_⟩
        intro j hj hj'; exact e4 j (by omega) hj'
      · rw [if_neg h0, hh lo (by omega)]
        simp only [M.ok_bind]
        have hc := strncmp_spec (H lo) p (by rw [hH _ hlo]; exact v.text _ (List.getElem_mem _)) hp
        by_cases hc0 : byteCompare (H lo) p = 0
        · refine ⟨lo, by simp [hc0], by omega, Or.inl (hc.2.1.mp hc0), ?_⟩
          intro j hj hj'; exact e4 j (by omega) hj'
        · refine ⟨lo - 1, by simp [hc0], by omega, Or.inr (Or.inr (e3' _ (by omega))), ?_⟩
          intro j hj hj'; exact e4 j (by omega) hj'
    rw [f1]
    simp only [M.ok_bind]
    have hl : 17 * left < L.length := by omega
    have f3' : L[17 * left] = p ∨ left = 0 ∨ L[17 * left] < p := by rw [← hH _ hl]; exact f3
    have f4' : ∀ j (hj : 17 * j < L.length), left < j → ¬ L[17 * j] < p := by
      intro j hj hlj; rw [← hH _ hj]; exact f4 j hlj (by omega)
    by_cases hlast : left = d.nBuckets - 1
    · rw [if_pos hlast]
      exact ⟨left, left, rfl, Nat.le_refl _, hl, hl, by intro j hj hlj; omega, by omega, f3', f4'⟩
    · rw [if_neg hlast, hh (left + 1) (by omega)]
      simp only [M.ok_bind]
      have hc := hcmp (left + 1) (by omega)
      by_cases hgt : byteCompareN (H (left + 1)) p p.length > 0
      · rw [if_pos hgt]
        refine ⟨left, left, rfl, Nat.le_refl _, hl, hl, ?_, by omega, f3', f4'⟩
        intro j hj hlj
        rw [← hH _ hj]
        exact gtup (left + 1) j (by omega) (by omega) (hc.2.2.mp hgt)
      · rw [if_neg hgt]
        have hng : ¬ Gt p (H (left + 1)) := fun h => hgt (hc.2.2.mpr h)
        obtain ⟨lo2, g1, g2, g3, g4, g5⟩ := bucketsLoop_spec (p := p) (fun cmp => decide (cmp > 0)) hh
          (fun j => Gt p (H j))
          (fun j hj => by rw [decide_eq_true_iff]; exact (hcmp j hj).2.2)
          gtup
          (d.nBuckets + 1) left ((d.nBuckets : Int) - 1) (by omega) (by omega) (by omega) (by omega)
          (by intro j hj h; exact hng (gtup j (left + 1) (by omega) (by omega) h))
          (by intro j hj hj'; omega)
        rw [g1]
        simp only [M.ok_bind]
        have hlo2 : left + 1 < lo2 := by
          apply Nat.lt_of_not_le
          intro hc
          exact hng (g5 (left + 1) hc (by omega))
        have hr : 17 * (lo2 - 1) < L.length := by omega
        refine ⟨left, lo2 - 1, ?_, by omega, hl, hr, ?_, ?_, f3', f4'⟩
        · congr 2; omega
        · intro j hj hlj
          rw [← hH _ hj]; exact g5 j (by omega) (by omega)
        · intro _
          rw [← hH _ hr]; exact g4 _ (by omega)

/-- What `locate_prefix` computes: the range of the strings that start with `p`, except that the first string of the
dictionary is not counted unless `p` is empty or equal to it. -/
theorem locatePrefix_exact {L : List Str} (v : ValidTerms L) {m : Nat} {d : FC} (R : Rep Elem.byte m d L)
    {p : Str} (hp : IsText p) (buf : Str) (hbuf : m + MAX_CHARS ≤ buf.length) :
    ∃ r buf', locatePrefix d p buf = .ok (r, buf') ∧ buf'.length = buf.length ∧
      ((r = Range.invalid ∧ ∀ i (hi : i < L.length), p <+: L[i] → i = 0 ∧ p ≠ [] ∧ p ≠ L[i]) ∨
       (r.b ≤ r.e ∧ r.e < L.length ∧ ∀ i (hi : i < L.length),
          (r.b ≤ i ∧ i ≤ r.e) ↔ (p <+: L[i] ∧ ¬ (i = 0 ∧ p ≠ [] ∧ p ≠ L[i])))) := by
  have hpos := R.pos
  by_cases hp0 : p = []
  · subst hp0
    refine ⟨⟨0, d.size - 1⟩, buf, by simp [locatePrefix, R.size, Nat.ne_of_gt hpos], rfl, Or.inr ⟨?_, ?_, ?_⟩⟩
    · simp
    · simp [R.size]; omega
    · intro i hi; simp [R.size]; omega
  · have hpl : p.length ≠ 0 := by simpa using hp0
    obtain ⟨l, r, e1, hlr, hl, hr, e2, e3, e4, e5⟩ := locateBuckets_spec v R hp
    simp only [locatePrefix, if_neg hpl, e1, M.ok_bind, R.hdr l hl, R.hdr r hr]
    have hpre : ∀ i (hi : i < L.length), (byteCompareN L[i] p p.length = 0 ↔ p <+: L[i]) := fun i hi =>
      (byteCompareN_spec L[i] p (v.text _ (List.getElem_mem hi)) hp).2.1
    have hgt : ∀ i (hi : i < L.length), (byteCompareN L[i] p p.length > 0 ↔ Gt p L[i]) := fun i hi =>
      (byteCompareN_spec L[i] p (v.text _ (List.getElem_mem hi)) hp).2.2
    -- the left end
    obtain ⟨off1, buf1, a1, a2, a3, a4, a5⟩ : ∃ off1 buf1,
        beginOffset d p L[17 * l] l buf = .ok (off1, buf1) ∧
        buf1.length = buf.length ∧
        (∀ i (hi : i < L.length), i < l * 17 + off1 → p <+: L[i] → i = 0 ∧ p ≠ [] ∧ p ≠ L[i]) ∧
        (∀ i (hi : i < L.length), l * 17 + off1 ≤ i → ¬ L[i] < p) ∧
        (l = 0 → L[17 * l] ≠ p → 0 < off1) := by
      unfold beginOffset
      have hc := strncmp_spec L[17 * l] p (v.text _ (List.getElem_mem hl)) hp
      by_cases hc0 : byteCompare L[17 * l] p = 0
      · rw [if_neg (by simpa using hc0)]
        have heq := hc.2.1.mp hc0
        refine ⟨0, buf, rfl, rfl, ?_, ?_, fun _ h => absurd heq h⟩
        · intro i hi hlt hpi
          exact absurd (heq ▸ sorted_lt v.sorted (show i < 17 * l by omega) hl) (prefix_not_lt hpi)
        · intro i hi hle hlt
          rcases Nat.eq_or_lt_of_le (show 17 * l ≤ i by omega) with h | h
          · subst h; rw [heq] at hlt; exact lt_irrefl' _ hlt
          · have := sorted_lt v.sorted h hi
            rw [heq] at this
            exact lt_asymm' this hlt
      · rw [if_pos hc0]
        have hne : L[17 * l] ≠ p := fun h => hc0 (hc.2.1.mpr h)
        have hcase : l = 0 ∨ L[17 * l] < p := by
          rcases e4 with h | h
          · exact absurd h hne
          · exact h
        have hlow : ∀ i (hi : i < L.length), i ≤ 17 * l → p <+: L[i] → i = 0 ∧ p ≠ [] ∧ p ≠ L[i] := by
          intro i hi hle hpi
          rcases hcase with h | h
          · subst h
            have hi0 : i = 0 := by omega
            subst hi0
            exact ⟨rfl, hp0, fun h => hne h.symm⟩
          · exact absurd (lt_mono_le v.sorted hle hl h) (prefix_not_lt hpi)
        obtain ⟨buf', g1, g2⟩ := R.scan (fun i s =>
          if byteCompareN s p p.length = 0 then some i else none) l hl buf hbuf
        simp only [leftLocate, g1, M.ok_bind, R.bsz l hl]
        cases hfs : firstSome (fun i s => if byteCompareN s p p.length = 0 then some i else none) 1
          ((L.drop (17 * l + 1)).take 16) with
        | none =>
            refine ⟨_, buf', rfl, g2, ?_, ?_, ?_⟩
            · intro i hi hlt hpi
              simp only [Option.getD_none] at hlt
              by_cases hle : i ≤ 17 * l
              · exact hlow i hi hle hpi
              · have hj : i - 17 * l - 1 < ((L.drop (17 * l + 1)).take 16).length := by omega
                have := (firstSome_none _ _).mp hfs _ hj
                obtain ⟨h', e⟩ := chunk_getElem hj
                rw [e] at this
                have e' : L[17 * l + 1 + (i - 17 * l - 1)] = L[i] := by congr 1; omega
                rw [e'] at this
                rw [if_pos ((hpre i hi).mpr hpi)] at this
                cases this
            · intro i hi hle hlt
              simp only [Option.getD_none, List.length_take, List.length_drop] at hle
              have h17 : 17 * (l + 1) ≤ i := by omega
              exact e5 (l + 1) (by omega) (by omega) (lt_mono_le v.sorted h17 hi hlt)
            · intro _ _; simp
        | some o =>
            obtain ⟨j, hj, h1, h2⟩ := (firstSome_some _ _).mp hfs
            obtain ⟨h', e⟩ := chunk_getElem hj
            rw [e] at h1
            split at h1
            · rename_i hz
              cases h1
              refine ⟨_, buf', rfl, g2, ?_, ?_, ?_⟩
              · intro i hi hlt hpi
                simp only [Option.getD_some] at hlt
                by_cases hle : i ≤ 17 * l
                · exact hlow i hi hle hpi
                · have hk : i - 17 * l - 1 < j := by omega
                  have := h2 _ hk
                  obtain ⟨h'', e''⟩ := chunk_getElem (Nat.lt_trans hk hj)
                  rw [e''] at this
                  have e' : L[17 * l + 1 + (i - 17 * l - 1)] = L[i] := by congr 1; omega
                  rw [e', if_pos ((hpre i hi).mpr hpi)] at this
                  cases this
              · intro i hi hle hlt
                simp only [Option.getD_some] at hle
                have := lt_mono_le v.sorted (show 17 * l + 1 + j ≤ i by omega) hi hlt
                exact prefix_not_lt ((hpre _ h').mp hz) this
              · intro _ _; simp; omega
            · cases h1
    rw [a1]
    simp only [M.ok_bind]
    -- the right end
    obtain ⟨off2, buf2, b1, b2, b3, b4, b5⟩ : ∃ off2 buf2,
        rightLocate d p L[17 * r] r buf1 = .ok (off2, buf2) ∧
        buf2.length = buf.length ∧ r * 17 + off2 < L.length ∧
        (∀ i (hi : i < L.length), r * 17 + off2 < i → Gt p L[i]) ∧
        (∀ i (hi : i < L.length), i ≤ r * 17 + off2 → 17 * r < i → ¬ Gt p L[i]) := by
      obtain ⟨buf', g1, g2⟩ := R.scan (fun i s =>
        if byteCompareN s p p.length > 0 then some (i - 1) else none) r hr buf1 (by show m + MAX_CHARS ≤ _; omega)
      simp only [rightLocate, g1, M.ok_bind, R.bsz r hr]
      cases hfs : firstSome (fun i s => if byteCompareN s p p.length > 0 then some (i - 1) else none) 1
        ((L.drop (17 * r + 1)).take 16) with
      | none =>
          refine ⟨_, buf', rfl, by omega, ?_, ?_, ?_⟩
          · simp; omega
          · intro i hi hlt
            simp only [Option.getD_none, List.length_take, List.length_drop] at hlt
            exact Gt.mono_le v.sorted (show 17 * (r + 1) ≤ i by omega) hi (e2 (r + 1) (by omega) (by omega))
          · intro i hi hle hlt hg
            simp only [Option.getD_none] at hle
            have hj : i - 17 * r - 1 < ((L.drop (17 * r + 1)).take 16).length := by omega
            have := (firstSome_none _ _).mp hfs _ hj
            obtain ⟨h', e⟩ := chunk_getElem hj
            have e' : L[17 * r + 1 + (i - 17 * r - 1)] = L[i] := by congr 1; omega
            rw [e, e', if_pos ((hgt i hi).mpr hg)] at this
            cases this
      | some o =>
          obtain ⟨j, hj, h1, h2⟩ := (firstSome_some _ _).mp hfs
          obtain ⟨h', e⟩ := chunk_getElem hj
          rw [e] at h1
          split at h1
          · rename_i hz
            cases h1
            refine ⟨_, buf', rfl, by omega, ?_, ?_, ?_⟩
            · simp only [Option.getD_some]; omega
            · intro i hi hlt
              simp only [Option.getD_some] at hlt
              exact Gt.mono_le v.sorted (show 17 * r + 1 + j ≤ i by omega) hi ((hgt _ h').mp hz)
            · intro i hi hle hlt hg
              simp only [Option.getD_some] at hle
              have hk : i - 17 * r - 1 < j := by omega
              have := h2 _ hk
              obtain ⟨h'', e''⟩ := chunk_getElem (Nat.lt_trans hk hj)
              have e' : L[17 * r + 1 + (i - 17 * r - 1)] = L[i] := by congr 1; omega
              rw [e'', e', if_pos ((hgt i hi).mpr hg)] at this
              cases this
          · cases h1
    rw [b1]
    simp only [M.ok_bind]
    have hnotgt : ∀ i (hi : i < L.length), l * 17 + off1 ≤ i → i ≤ r * 17 + off2 → ¬ Gt p L[i] := by
      intro i hi h1 h2 hg
      by_cases hlt : 17 * r < i
      · exact b5 i hi h2 hlt hg
      · -- then the header of bucket r is greater, too
        have hg' := Gt.mono_le v.sorted (show i ≤ 17 * r by omega) hr hg
        by_cases hlr' : l < r
        · exact e3 hlr' hg'
        · have : l = r := by omega
          subst this
          rcases e4 with h | h | h
          · rw [h] at hg'; exact lt_irrefl' _ hg'.1
          · have := a5 h (fun hc => by rw [hc] at hg'; exact lt_irrefl' _ hg'.1)
            omega
          · exact lt_asymm' h hg'.1
    have hpre_gt : ∀ {s : Str}, p <+: s → ¬ Gt p s := fun h hg => hg.2 h
    by_cases hcmp : r * 17 + off2 < l * 17 + off1
    · rw [if_pos hcmp]
      refine ⟨_, buf2, rfl, b2, Or.inl ⟨rfl, ?_⟩⟩
      intro i hi hpi
      by_cases hlt : i < l * 17 + off1
      · exact a3 i hi hlt hpi
      · exact absurd (b4 i hi (by omega)) (hpre_gt hpi)
    · rw [if_neg hcmp]
      refine ⟨_, buf2, rfl, b2, Or.inr ⟨by simp only; omega, b3, ?_⟩⟩
      intro i hi
      constructor
      · rintro ⟨h1, h2⟩
        simp only at h1 h2
        refine ⟨?_, ?_⟩
        · rcases class3 p L[i] with h | h | h
          · exact absurd h (a4 i hi h1)
          · exact h
          · exact absurd h (hnotgt i hi h1 h2)
        · rintro ⟨rfl, _, hne⟩
          have hl0 : l = 0 := by omega
          subst hl0
          have := a5 rfl (fun h => hne h.symm)
          omega
      · rintro ⟨h1, h2⟩
        refine ⟨?_, ?_⟩
        · apply Nat.le_of_not_lt
          intro hlt
          exact h2 (a3 i hi hlt h1)
        · apply Nat.le_of_not_lt
          intro hlt
          exact hpre_gt h1 (b4 i hi hlt)

end AC.FcDict
