import Verif.Proofs.Threads
import Verif.Proofs.IntDictionary
import Verif.Props.Dictionary
import Verif.Props.Completions
/-!
# C40: lookups on a shared dictionary from several threads
-/
namespace AC.Props
open AC FC

/-- A thread that calls `locate(t)` runs the scan `c`: the search over the headers, which only reads, ends without an answer in the bucket of `c`. -/
def Runs (d : FC) (t : Str) (c : Scan) : Prop := ∃ h b, locateBucket byteCompare d t = .ok (false, h, b) ∧ c = FcDict.locateScan t h b

/-- **C40** without interleaving: while the other threads wait, wherever they are, `locate(t)` returns what it returns in a program with a
single thread, from the array as the others have left it.

Partial: the steps of other threads between those of the lookup are excluded; `C40_false` shows what they do. -/
theorem C40_alone_partial {d : FC} {t : Str} {calls : Nat → Scan} {k : Nat} (hr : Runs d t (calls k)) {w : World} (hk : w.pc k = .enter)
    {v : Nat} {buf : Str} (h : FcDict.locate d t w.decoded = .ok (v, buf)) :
    ∃ n r, World.run Elem.byte d calls (List.replicate n k) w = .ok ⟨fun j => if j = k then .done r else w.pc j, buf⟩ ∧
      FcDict.locateEnd (calls k).b r = v := by
  obtain ⟨hd, b, h1, h2⟩ := hr
  simp only [FcDict.locate, h1, M.ok_bind, Bool.false_eq_true, if_false, FcDict.locateIn] at h
  cases hs : scan Elem.byte d (calls k).stop (calls k).h (calls k).b w.decoded with
  | error e =>
      rw [h2] at hs
      simp only [FcDict.locateScan] at hs
      rw [hs] at h
      cases h
  | ok x =>
      obtain ⟨r, out⟩ := x
      obtain ⟨n, hn⟩ := Scan.go_scan hs
      rw [← hk] at hn
      refine ⟨n, r, ?_, ?_⟩
      · rw [World.run_alone k n hn]
        rw [h2] at hs
        simp only [FcDict.locateScan] at hs
        rw [hs] at h
        simp only [M.ok_bind] at h
        split at h <;> (cases h; rfl)
      · rw [h2] at hs ⊢
        simp only [FcDict.locateScan] at hs
        rw [hs] at h
        simp only [M.ok_bind] at h
        simp only [FcDict.locateScan, FcDict.locateEnd]
        split at h
        · cases h
          rename_i hc
          rw [if_pos hc]
        · cases h
          rename_i hc
          rw [if_neg hc]

/-- terms that are not headers are looked for in their bucket -/
theorem runs_of {L : List Str} (v : ValidTerms L) {d : FC} (R : Rep Elem.byte MAX_CHARS d L) {i : Nat} (hi : i < L.length) (h17 : i % 17 ≠ 0) :
    Runs d L[i] (FcDict.locateScan L[i] (L[17 * (i / 17)]'(by omega)) (i / 17)) := by
  have ht := v.text _ (List.getElem_mem hi)
  obtain ⟨found, b, hb, e1, e2, e3⟩ := locateBucket_spec R v.sorted (FcDict.cmpOk v ht)
  cases found with
  | true =>
      have := sorted_inj v.sorted hb hi (e2 rfl)
      omega
  | false =>
      obtain ⟨f1, f2⟩ := e3 rfl
      have h0 : 17 * (i / 17) < L.length := by omega
      have hbi : b = i / 17 := by
        have hle : ¬ i / 17 < b := by
          intro hc
          rcases f1 with f1 | ⟨f1, _⟩
          · exact lt_asymm' f1 (sorted_lt v.sorted (by omega) hb)
          · omega
        have hge : ¬ b < i / 17 := fun hc => lt_asymm' (f2 (i / 17) h0 hc) (sorted_lt v.sorted (by omega) hi)
        omega
      subst hbi
      exact ⟨_, _, e1, rfl⟩

theorem byteCompare_eq_zero {l r : Str} (hl : IsText l) (h : byteCompare l r = 0) : r = l := by
  have key : ∀ (n : Nat) (l r : Str), IsText l → n = l.length → n = r.length → strncmp n l r = 0 → r = l := by
    intro n
    induction n with
    | zero =>
        intro l r _ h1 h2 _
        rw [List.length_eq_zero_iff.mp h1.symm, List.length_eq_zero_iff.mp h2.symm]
    | succ n ih =>
        intro l r ht h1 h2 h3
        cases l with
        | nil => simp at h1
        | cons a l =>
            cases r with
            | nil => simp at h2
            | cons b r =>
                simp only [strncmp] at h3
                split at h3
                · omega
                · split at h3
                  · omega
                  · have ha := ht a (List.mem_cons_self ..)
                    split at h3
                    · omega
                    · have hab : a = b := by omega
                      subst hab
                      rw [ih l r (fun c hc => ht c (List.mem_cons_of_mem _ hc)) (by simpa using h1) (by simpa using h2) h3]
  unfold byteCompare at h
  simp only at h
  split at h
  · rename_i hc
    exact absurd h hc
  · rename_i hc
    have hlen : l.length = r.length := by omega
    rw [← hlen, Nat.min_self] at hc
    exact key l.length l r hl rfl hlen (by simpa using hc)

theorem prefix_of_take {x a b : List Nat} (h1 : x.take b.length = b.take x.length) (h2 : x = a) : a <+: b ∨ b <+: a := by
  subst h2
  rcases Nat.le_total x.length b.length with h | h
  · left
    rw [List.take_of_length_le h] at h1
    rw [h1]
    exact List.take_prefix ..
  · right
    rw [List.take_of_length_le (l := b) (by omega)] at h1
    rw [← h1]
    exact List.take_prefix ..

/-- **C40 is false**, for every dictionary of terms: two threads that look for terms which are not headers and none of which is a prefix of
the other can be scheduled so that the first one does not get the id of its term, which is `i + 1`. -/
theorem C40_false {L : List Str} (v : ValidTerms L) (hn : L.length % 17 ≠ 0) {i i' : Nat} (hi : i < L.length) (hi' : i' < L.length)
    (h17 : i % 17 ≠ 0) (h17' : i' % 17 ≠ 0) (hp : ¬ L[i] <+: L[i']) (hp' : ¬ L[i'] <+: L[i]) :
    ∃ d c c', FcDict.build L = .ok d ∧ Runs d L[i] c ∧ Runs d L[i'] c' ∧ ∀ calls, calls 0 = c → calls 1 = c' →
      ∀ buf : Str, buf.length = FcDict.bufSize →
        ∃ sched w r, World.run Elem.byte d calls sched ⟨fun _ => .enter, buf⟩ = .ok w ∧ w.pc 0 = .done r ∧ FcDict.locateEnd c.b r ≠ i + 1 := by
  obtain ⟨d, hd, R⟩ := FcDict.build_rep v (Nat.le_refl _) v.len hn
  refine ⟨d, _, _, hd, runs_of v R hi h17, runs_of v R hi' h17', ?_⟩
  intro calls hc hc' buf hbuf
  have hP : ∀ s ∈ L, s.length ≤ MAX_CHARS ∧ ∀ c ∈ s, c < 256 := fun s hs => ⟨v.len s hs, fun c hc => (v.text s hs c hc).2⟩
  have hb0 := bucket_of (c := calls 0) good_byte (Nat.le_refl MAX_CHARS) hn (FcDict.weight_lt v) hP (fun _ a b _ _ => lcp_ok b a) hd
    (show 17 * (i / 17) < L.length by omega) (by rw [hc]; rfl) (by rw [hc]; rfl)
  have hb1 := bucket_of (c := calls 1) good_byte (Nat.le_refl MAX_CHARS) hn (FcDict.weight_lt v) hP (fun _ a b _ _ => lcp_ok b a) hd
    (show 17 * (i' / 17) < L.length by omega) (by rw [hc']; rfl) (by rw [hc']; rfl)
  have hstop : ∀ {i : Nat} (hi : i < L.length) {h : Str} {b : Nat} (q : Nat) (hq : q < i % 17 - 1) (x : Str)
      (hx : x = L[17 * (i / 17) + 1 + q]'(by omega)), (FcDict.locateScan L[i] h b).stop (q + 1) x = none := by
    intro i hi h b q hq x hx
    have hlt : x < L[i] := by rw [hx]; exact sorted_lt v.sorted (by omega) hi
    have := (strncmp_spec L[i] x (v.text _ (List.getElem_mem hi)) (by rw [hx]; exact v.text _ (List.getElem_mem _))).2.2.mpr hlt
    simp only [FcDict.locateScan]
    rw [if_neg (by omega), if_neg (by omega)]
  have hget : ∀ {i q : Nat} (hq : q < ((L.drop (17 * (i / 17) + 1)).take 16).length), ((L.drop (17 * (i / 17) + 1)).take 16)[q] =
      L[17 * (i / 17) + 1 + q]'(by simp at hq; omega) := by
    intro i q hq
    exact (FcDict.chunk_getElem hq).2
  have hj : i % 17 - 1 < ((L.drop (17 * (i / 17) + 1)).take 16).length := by simp; omega
  have hj' : i' % 17 - 1 < ((L.drop (17 * (i' / 17) + 1)).take 16).length := by simp; omega
  have es : ((L.drop (17 * (i / 17) + 1)).take 16)[i % 17 - 1] = L[i] := by
    rw [hget hj]; congr 1; omega
  have es' : ((L.drop (17 * (i' / 17) + 1)).take 16)[i' % 17 - 1] = L[i'] := by
    rw [hget hj']; congr 1; omega
  obtain ⟨sched, w, r, w1, w2, w3⟩ := race (r0 := i % 17) good_byte (Nat.le_refl MAX_CHARS) hb0 hb1 hj hj'
    (by
      intro q hq
      rw [hc]
      exact hstop hi q hq _ (hget _))
    (by
      intro q hq
      rw [hc']
      exact hstop hi' q hq _ (hget _))
    (by
      intro x hx hxt
      rw [es'] at hxt
      rw [hc]
      simp only [FcDict.locateScan]
      split
      · rename_i hz
        have := byteCompare_eq_zero (v.text _ (List.getElem_mem hi)) hz
        rcases prefix_of_take hxt this with h | h
        · exact absurd h hp
        · exact absurd h hp'
      · split
        · simp only [INVALID_TERM, ne_eq, Option.some.injEq]; omega
        · simp)
    (by
      intro j x hj
      rw [hc]
      simp only [FcDict.locateScan]
      split
      · simp only [ne_eq, Option.some.injEq]; omega
      · split
        · simp only [INVALID_TERM, ne_eq, Option.some.injEq]; omega
        · simp)
    (by rw [hbuf]; decide : MAX_CHARS + Elem.byte.cap ≤ buf.length)
  refine ⟨sched, w, r, w1, w2, ?_⟩
  intro he
  apply w3
  simp only [FcDict.locateScan, FcDict.locateEnd] at he
  cases r with
  | none =>
      simp only [Option.getD_none, if_true, INVALID_TERM] at he
      have := v.count
      omega
  | some x =>
      simp only [Option.getD_some] at he
      split at he
      · have := v.count
        simp only [INVALID_TERM] at he
        omega
      · congr 1
        omega

/-- `"abd"` and `"ba"` in the sample dictionary -/
example : ValidTerms sampleTerms ∧ sampleTerms.length % 17 ≠ 0 ∧ sampleTerms[1]? = some [97, 98, 100] ∧ sampleTerms[4]? = some [98, 97] ∧
    ¬ [97, 98, 100] <+: [98, 97] ∧ ¬ [98, 97] <+: [97, 98, 100] := ⟨sampleTerms_valid, by decide, rfl, rfl, by decide, by decide⟩

/-! The dictionary of completions -/

theorem take_lt : ∀ {a p x : List Nat}, a < p → ¬ a <+: p → x.take a.length = a.take x.length → x < p := by
  intro a
  induction a with
  | nil => intro p x _ h _; exact absurd List.nil_prefix h
  | cons y a ih =>
      intro p x h hp hx
      cases p with
      | nil => cases h
      | cons z p =>
          cases x with
          | nil => exact List.nil_lt_cons ..
          | cons w x =>
              simp only [List.length_cons, List.take_succ_cons, List.cons.injEq] at hx
              obtain ⟨rfl, hx⟩ := hx
              rw [List.cons_lt_cons_iff] at h ⊢
              rcases h with h | ⟨rfl, h⟩
              · exact Or.inl h
              · exact Or.inr ⟨rfl, ih h (fun hc => hp (by simpa using hc)) hx⟩

/-- Two threads call `left_locate` for two completions: the first call of the search for the completions that begin with `L[i]`. Alone, the
first thread finds the completion itself, at position `i % 17` of its bucket. If the other completion is less and not a prefix of it, there
is a schedule for which it does not. -/
theorem C40_false_ids {L : List Ids} (v : ValidIds L) (hn : L.length % 17 ≠ 0) {i i' : Nat} (hi : i < L.length) (hi' : i' < L.length)
    (h17 : i % 17 ≠ 0) (h17' : i' % 17 ≠ 0) (hlt : L[i'] < L[i]) (hp : ¬ L[i'] <+: L[i]) {d : FC} (hd : FC.build Elem.u32 IntDict.lcpT L = .ok d)
    {calls : Nat → Scan} (hc : calls 0 = IntDict.leftScan L[i] (L[17 * (i / 17)]'(by omega)) (i / 17))
    (hc' : calls 1 = IntDict.leftScan L[i'] (L[17 * (i' / 17)]'(by omega)) (i' / 17)) {buf : Ids} (hbuf : buf.length = IntDict.bufSize) :
    (∃ buf', IntDict.leftLocate d L[i] (L[17 * (i / 17)]'(by omega)) (i / 17) buf = .ok (i % 17, buf')) ∧
      ∃ sched w r, World.run Elem.u32 d calls sched ⟨fun _ => .enter, buf⟩ = .ok w ∧ w.pc 0 = .done r ∧ r ≠ some (i % 17) := by
  obtain ⟨d', hd', R⟩ := IntDict.build_fc_rep v hn
  rw [hd] at hd'
  cases hd'
  have hP : ∀ s ∈ L, s.length ≤ 64 ∧ ∀ c ∈ s, c < 2 ^ 32 :=
    fun s hs => ⟨Nat.le_of_lt (v.len s hs), fun c hc => by have := v.elems s hs c hc; omega⟩
  have hb0 := bucket_of (c := calls 0) good_u32 (Nat.le_refl 64) hn (IntDict.weight_lt v) hP (IntDict.consecOk v) hd
    (show 17 * (i / 17) < L.length by omega) (by rw [hc]; rfl) (by rw [hc]; rfl)
  have hb1 := bucket_of (c := calls 1) good_u32 (Nat.le_refl 64) hn (IntDict.weight_lt v) hP (IntDict.consecOk v) hd
    (show 17 * (i' / 17) < L.length by omega) (by rw [hc']; rfl) (by rw [hc']; rfl)
  have hnone : ∀ {p x : Ids} {h : Ids} {b q : Nat}, x < p → (IntDict.leftScan p h b).stop q x = none := by
    intro p x h b q hx
    have := (idsCompareN_spec x p).1.mpr hx
    simp only [IntDict.leftScan]
    rw [if_neg (by omega)]
  have hget : ∀ {i q : Nat} (hq : q < ((L.drop (17 * (i / 17) + 1)).take 16).length), ((L.drop (17 * (i / 17) + 1)).take 16)[q] =
      L[17 * (i / 17) + 1 + q]'(by simp at hq; omega) := by
    intro i q hq
    exact (FcDict.chunk_getElem hq).2
  have hj : i % 17 - 1 < ((L.drop (17 * (i / 17) + 1)).take 16).length := by simp; omega
  have hj' : i' % 17 - 1 < ((L.drop (17 * (i' / 17) + 1)).take 16).length := by simp; omega
  have es : ((L.drop (17 * (i / 17) + 1)).take 16)[i % 17 - 1] = L[i] := by
    rw [hget hj]; congr 1; omega
  have es' : ((L.drop (17 * (i' / 17) + 1)).take 16)[i' % 17 - 1] = L[i'] := by
    rw [hget hj']; congr 1; omega
  constructor
  · obtain ⟨buf', h1, _⟩ := R.scan (IntDict.leftScan L[i] (L[17 * (i / 17)]'(by omega)) (i / 17)).stop (i / 17) (by omega) buf
      (by rw [hbuf]; decide)
    refine ⟨buf', ?_⟩
    have hfs : firstSome (IntDict.leftScan L[i] (L[17 * (i / 17)]'(by omega)) (i / 17)).stop 1 ((L.drop (17 * (i / 17) + 1)).take 16) = some (i % 17) := by
      rw [firstSome_some]
      refine ⟨i % 17 - 1, hj, ?_, ?_⟩
      · rw [es]
        have := (idsCompareN_spec L[i] L[i]).2.1.mpr List.prefix_rfl
        simp only [IntDict.leftScan]
        rw [if_pos (by omega)]
        congr 1
        omega
      · intro k hk
        rw [hget (Nat.lt_trans hk hj)]
        exact hnone (sorted_lt v.sorted (by omega) hi)
    rw [hfs] at h1
    simp only [IntDict.leftScan] at h1
    simp only [IntDict.leftLocate, h1, M.ok_bind, Option.getD_some]
  · exact race (r0 := i % 17) good_u32 (Nat.le_refl 64) hb0 hb1 hj hj'
      (by
        intro q hq
        rw [hc, hget]
        exact hnone (sorted_lt v.sorted (by omega) hi))
      (by
        intro q hq
        rw [hc', hget]
        exact hnone (sorted_lt v.sorted (by omega) hi'))
      (by
        intro x _ hxt
        rw [es'] at hxt
        rw [hc, hnone (take_lt hlt hp hxt)]
        simp)
      (by
        intro j x hj
        rw [hc]
        simp only [IntDict.leftScan]
        split
        · simp only [ne_eq, Option.some.injEq]; omega
        · simp)
      (by rw [hbuf]; decide : 64 + Elem.u32.cap ≤ buf.length)

/-- two completions of the sample -/
example : ValidIds (sampleRecords.map (·.2)) ∧ (sampleRecords.map (·.2)).length % 17 ≠ 0 ∧
    ∃ a b, (sampleRecords.map (·.2))[1]? = some a ∧ (sampleRecords.map (·.2))[4]? = some b ∧ a < b ∧ ¬ a <+: b :=
  ⟨sampleRecords_ok.1, by decide, _, _, rfl, rfl, by decide, by decide⟩

/-- What remains of **C40** with any number of threads and every schedule of their steps: no access outside the array or the dictionary, and
what `locate` returns is the "not found" id or the id of a term of the bucket of the term it looks for.

Partial: which of these ids it is depends on the schedule, see `C40_false`. -/
theorem C40_safe_partial {L : List Str} (v : ValidTerms L) (hn : L.length % 17 ≠ 0) :
    ∃ d, FcDict.build L = .ok d ∧ ∀ (texts : Nat → Str) (calls : Nat → Scan), (∀ k, IsText (texts k)) → (∀ k, Runs d (texts k) (calls k)) →
      ∀ (sched : List Nat) (buf : Str), buf.length = FcDict.bufSize →
        ∃ w, World.run Elem.byte d calls sched ⟨fun _ => .enter, buf⟩ = .ok w ∧ ∀ k r, w.pc k = .done r →
          FcDict.locateEnd (calls k).b r = INVALID_TERM ∨
            ∃ i, i < L.length ∧ i / 17 = (calls k).b ∧ FcDict.locateEnd (calls k).b r = i + 1 := by
  obtain ⟨d, hd, R⟩ := FcDict.build_rep v (Nat.le_refl _) v.len hn
  refine ⟨d, hd, ?_⟩
  intro texts calls ht hr sched buf hbuf
  have hP : ∀ s ∈ L, s.length ≤ MAX_CHARS ∧ ∀ c ∈ s, c < 256 := fun s hs => ⟨v.len s hs, fun c hc => (v.text s hs c hc).2⟩
  have hcb : ∀ k, ∃ hb : 17 * (calls k).b < L.length, (calls k).h = L[17 * (calls k).b] := by
    intro k
    obtain ⟨h, b, h1, h2⟩ := hr k
    obtain ⟨found, b', hb, e1, _⟩ := locateBucket_spec R v.sorted (FcDict.cmpOk v (ht k))
    rw [h1] at e1
    cases e1
    rw [h2]
    exact ⟨hb, rfl⟩
  have hB := fun k => bucket_of (c := calls k) good_byte (Nat.le_refl MAX_CHARS) hn (FcDict.weight_lt v) hP (fun _ a b _ _ => lcp_ok b a) hd (hcb k).1 (hcb k).2 rfl
  obtain ⟨w, h1, h2, _⟩ := run_ok good_byte (Nat.le_refl MAX_CHARS) hB sched (w := ⟨fun _ => .enter, buf⟩) (fun k => trivial)
    (by rw [hbuf]; decide : MAX_CHARS + Elem.byte.cap ≤ buf.length)
  refine ⟨w, h1, ?_⟩
  intro k r hk
  have h3 := h2 k
  rw [hk] at h3
  rcases h3 with rfl | ⟨i, x, i1, i2, i3⟩
  · left; simp [FcDict.locateEnd]
  · obtain ⟨h, b, _, g2⟩ := hr k
    obtain ⟨hb, _⟩ := hcb k
    rw [g2] at i3 i2 hb ⊢
    simp only [FcDict.locateScan] at i3 i2 hb ⊢
    simp only [List.length_take, List.length_drop] at i2
    split at i3
    · subst i3
      right
      have := v.count
      refine ⟨17 * b + i, by omega, by omega, ?_⟩
      simp only [FcDict.locateEnd, Option.getD_some]
      rw [if_neg (by simp only [INVALID_TERM]; omega)]
      omega
    · split at i3
      · subst i3; left; simp [FcDict.locateEnd]
      · subst i3; left; simp [FcDict.locateEnd]

/-- What remains of **C40** with any number of threads, every schedule of their steps and also when the steps are not atomic (the array may contain
anything when a step is taken): no access outside the array or the dictionary, and what `locate` returns is the "not found" id or the id of a
term of the bucket of the term it looks for.

Partial: which of these ids it is depends on the schedule, see `C40_false`. -/
theorem C40_torn_partial {L : List Str} (v : ValidTerms L) (hn : L.length % 17 ≠ 0) :
    ∃ d, FcDict.build L = .ok d ∧ ∀ (texts : Nat → Str) (calls : Nat → Scan), (∀ k, IsText (texts k)) → (∀ k, Runs d (texts k) (calls k)) →
      ∀ (sched : List (Nat × Str)) (buf : Str), (∀ a ∈ sched, a.2.length = FcDict.bufSize) →
        ∃ w, World.torn Elem.byte d calls sched ⟨fun _ => .enter, buf⟩ = .ok w ∧ ∀ k r, w.pc k = .done r →
          FcDict.locateEnd (calls k).b r = INVALID_TERM ∨
            ∃ i, i < L.length ∧ i / 17 = (calls k).b ∧ FcDict.locateEnd (calls k).b r = i + 1 := by
  obtain ⟨d, hd, R⟩ := FcDict.build_rep v (Nat.le_refl _) v.len hn
  refine ⟨d, hd, ?_⟩
  intro texts calls ht hr sched buf hbuf
  have hP : ∀ s ∈ L, s.length ≤ MAX_CHARS ∧ ∀ c ∈ s, c < 256 := fun s hs => ⟨v.len s hs, fun c hc => (v.text s hs c hc).2⟩
  have hcb : ∀ k, ∃ hb : 17 * (calls k).b < L.length, (calls k).h = L[17 * (calls k).b] := by
    intro k
    obtain ⟨h, b, h1, h2⟩ := hr k
    obtain ⟨found, b', hb, e1, _⟩ := locateBucket_spec R v.sorted (FcDict.cmpOk v (ht k))
    rw [h1] at e1
    cases e1
    rw [h2]
    exact ⟨hb, rfl⟩
  have hB := fun k => bucket_of (c := calls k) good_byte (Nat.le_refl MAX_CHARS) hn (FcDict.weight_lt v) hP (fun _ a b _ _ => lcp_ok b a) hd (hcb k).1 (hcb k).2 rfl
  obtain ⟨w, h1, h2⟩ := torn_ok good_byte (Nat.le_refl MAX_CHARS) hB sched (w := ⟨fun _ => .enter, buf⟩) (fun k => trivial)
    (by intro a ha; rw [hbuf a ha]; decide : ∀ a ∈ sched, MAX_CHARS + Elem.byte.cap ≤ a.2.length)
  refine ⟨w, h1, ?_⟩
  intro k r hk
  have h3 := h2 k
  rw [hk] at h3
  rcases h3 with rfl | ⟨i, x, i1, i2, i3⟩
  · left; simp [FcDict.locateEnd]
  · obtain ⟨h, b, _, g2⟩ := hr k
    obtain ⟨hb, _⟩ := hcb k
    rw [g2] at i3 i2 hb ⊢
    simp only [FcDict.locateScan] at i3 i2 hb ⊢
    simp only [List.length_take, List.length_drop] at i2
    split at i3
    · subst i3
      right
      have := v.count
      refine ⟨17 * b + i, by omega, by omega, ?_⟩
      simp only [FcDict.locateEnd, Option.getD_some]
      rw [if_neg (by simp only [INVALID_TERM]; omega)]
      omega
    · split at i3
      · subst i3; left; simp [FcDict.locateEnd]
      · subst i3; left; simp [FcDict.locateEnd]

/-- The same for `left_locate` of the dictionary of completions: the answer is "none" or a position in the bucket. -/
theorem C40_torn_ids_partial {L : List Ids} (v : ValidIds L) (hn : L.length % 17 ≠ 0) {d : FC} (hd : FC.build Elem.u32 IntDict.lcpT L = .ok d)
    {calls : Nat → Scan} (hc : ∀ k, ∃ (p : Ids) (b : Nat) (hb : 17 * b < L.length), calls k = IntDict.leftScan p L[17 * b] b)
    (sched : List (Nat × Ids)) (buf : Ids) (hbuf : ∀ a ∈ sched, a.2.length = IntDict.bufSize) :
    ∃ w, World.torn Elem.u32 d calls sched ⟨fun _ => .enter, buf⟩ = .ok w ∧ ∀ k r, w.pc k = .done r →
      r = none ∨ ∃ j, r = some j ∧ 1 ≤ j ∧ j < 17 ∧ 17 * (calls k).b + j < L.length := by
  have hP : ∀ s ∈ L, s.length ≤ 64 ∧ ∀ c ∈ s, c < 2 ^ 32 :=
    fun s hs => ⟨Nat.le_of_lt (v.len s hs), fun c hc => by have := v.elems s hs c hc; omega⟩
  have hcb : ∀ k, ∃ hb : 17 * (calls k).b < L.length, (calls k).h = L[17 * (calls k).b] := by
    intro k
    obtain ⟨p, b, hb, e⟩ := hc k
    rw [e]
    exact ⟨hb, rfl⟩
  have hB := fun k => bucket_of (c := calls k) good_u32 (Nat.le_refl 64) hn (IntDict.weight_lt v) hP (IntDict.consecOk v) hd (hcb k).1 (hcb k).2 rfl
  obtain ⟨w, h1, h2⟩ := torn_ok good_u32 (Nat.le_refl 64) hB sched (w := ⟨fun _ => .enter, buf⟩) (fun k => trivial)
    (by intro a ha; rw [hbuf a ha]; decide : ∀ a ∈ sched, 64 + Elem.u32.cap ≤ a.2.length)
  refine ⟨w, h1, ?_⟩
  intro k r hk
  have h3 := h2 k
  rw [hk] at h3
  rcases h3 with rfl | ⟨i, x, i1, i2, i3⟩
  · exact .inl rfl
  · obtain ⟨p, b, hb, e⟩ := hc k
    rw [e] at i2 i3 ⊢
    simp only [IntDict.leftScan] at i2 i3 ⊢
    simp only [List.length_take, List.length_drop] at i2
    split at i3
    · subst i3
      exact .inr ⟨i, rfl, by omega, by omega, by omega⟩
    · exact .inl i3.symm

/-- a thread that looks for a term of the sample which is not a header -/
example : ∃ d, FcDict.build sampleTerms = .ok d ∧ ∀ i (hi : i < sampleTerms.length), i % 17 ≠ 0 →
    Runs d sampleTerms[i] (FcDict.locateScan sampleTerms[i] (sampleTerms[17 * (i / 17)]'(by omega)) (i / 17)) := by
  obtain ⟨d, hd, R⟩ := FcDict.build_rep sampleTerms_valid (Nat.le_refl _) sampleTerms_valid.len (by decide)
  exact ⟨d, hd, fun i hi h => runs_of sampleTerms_valid R hi h⟩

end AC.Props
