import Verif.Proofs.DebugDict
import Verif.Props.Dictionary
import Verif.Props.Completions
/-!
# C85: the dictionaries, built with assertions
-/
namespace AC.Props
open AC FC

/-- with the stated size, the assertion of `extract` holds for every id if the size is not a multiple of 17 -/
theorem bucketSize_ge {d : FC} {n i : Nat} (hs : d.size = n) (hb : d.nBuckets = (n + 16) / 17) (hn : n % 17 ≠ 0) (hi : i < n) :
    i % 17 ≤ d.bucketSize (i / 17) := by
  unfold bucketSize tail
  rw [hs, hb]
  dsimp only
  split
  · omega
  · split <;> omega

/-- otherwise it fails for the last 16 -/
theorem bucketSize_lt {d : FC} {n i : Nat} (hs : d.size = n) (hb : d.nBuckets = (n + 16) / 17) (hn : n % 17 = 0) (hi : i < n) (hl : n - 16 ≤ i) :
    ¬ i % 17 ≤ d.bucketSize (i / 17) := by
  unfold bucketSize tail
  rw [hs, hb]
  dsimp only
  split
  · omega
  · split <;> omega

/-- **C85**, terms, when their number is not a multiple of 17: with assertions, building and every look-up succeed and do what they do without.

Partial: multiples of 17 are excluded; there it is false, see `C85_false_terms`. -/
theorem C85_terms_partial {L : List Str} (v : ValidTerms L) (he : ∀ s ∈ L, s ≠ []) (hn : L.length % 17 ≠ 0) :
    ∃ d, FcDict.buildD L = .ok d ∧ FcDict.build L = .ok d ∧
      (∀ t, IsText t → ∀ buf, buf.length = FcDict.bufSize → ∃ r, FcDict.locateD d t buf = .ok r ∧ FcDict.locate d t buf = .ok r) ∧
      (∀ p, IsText p → ∀ buf, buf.length = FcDict.bufSize → ∃ r, FcDict.locatePrefixD d p buf = .ok r ∧ FcDict.locatePrefix d p buf = .ok r) ∧
      ∀ i (hi : i < L.length) (out : Str) base, base + 256 ≤ out.length →
        ∃ out', FcDict.extractD d (i + 1) out base = .ok (out', L[i].length) ∧ FcDict.extract d (i + 1) out base = .ok (out', L[i].length) := by
  obtain ⟨d, h, R⟩ := FcDict.build_rep v (Nat.le_refl _) v.len hn
  refine ⟨d, buildD_stays (by decide) (fun _ a b _ _ => lcp_ok b a) (fun s hs => ⟨?_, ?_⟩) d h, h, ?_, ?_, ?_⟩
  · exact List.length_pos_iff.mpr (he s hs)
  · exact v.len s hs
  · intro t ht buf hb
    by_cases hm : t ∈ L
    · obtain ⟨i, hi, rfl⟩ := List.getElem_of_mem hm
      obtain ⟨buf', e, _⟩ := FcDict.locate_mem v R ht hi rfl buf (by rw [hb]; decide)
      exact ⟨_, FcDict.locateD_stays _ _ _ _ e, e⟩
    · obtain ⟨buf', e, _⟩ := FcDict.locate_not_mem v R ht hm buf (by rw [hb]; decide)
      exact ⟨_, FcDict.locateD_stays _ _ _ _ e, e⟩
  · intro p hp buf hb
    obtain ⟨r, buf', e, _⟩ := FcDict.locatePrefix_exact v R hp buf (by rw [hb]; decide)
    exact ⟨_, FcDict.locatePrefixD_stays _ _ _ _ e, e⟩
  · intro i hi out base hb
    obtain ⟨out', e, _⟩ := R.extract i hi out base (by simpa [MAX_CHARS, Elem.byte, Nat.add_assoc] using hb)
    refine ⟨out', ?_, ?_⟩
    · unfold FcDict.extractD
      rw [show check (0 < i + 1) = .ok () from if_pos (by omega), M.ok_bind]
      exact extractAtD_stays _ _ (bucketSize_ge R.size R.nb hn hi) _ _ _ e
    · unfold FcDict.extract
      rw [if_neg (by omega)]
      exact e

example : ValidTerms sampleTerms ∧ (∀ s ∈ sampleTerms, s ≠ []) ∧ sampleTerms.length % 17 ≠ 0 := by decide +kernel

/-- **C85 is false** for terms whose number is a multiple of 17: extracting any of the last 16 stops the program. -/
theorem C85_false_terms {L : List Str} (v : ValidTerms L) (he : ∀ s ∈ L, s ≠ []) (hn : L.length % 17 = 0) (hne : L ≠ []) :
    ∃ d, FcDict.buildD L = .ok d ∧ ∀ i, i < L.length → L.length - 16 ≤ i → ∀ out base, FcDict.extractD d (i + 1) out base = .error .aborted := by
  have hpos : 0 < L.length := List.length_pos_iff.mpr hne
  have hlen : (L.take (L.length - 16)).length = L.length - 16 := by simp
  have v' : ValidTerms (L.take (L.length - 16)) :=
    ⟨v.sorted.sublist (List.take_sublist _ _), fun s hs => v.text s (List.mem_of_mem_take hs),
      fun s hs => v.len s (List.mem_of_mem_take hs), by have := v.count; simp; omega, Nat.lt_of_le_of_lt (sum_take_le ..) v.room⟩
  obtain ⟨d, h, R⟩ := FcDict.build_rep v' (Nat.le_refl _) v'.len (by rw [hlen]; omega)
  have hb : FcDict.build L = .ok { d with size := L.length } := by
    rw [FcDict.build, FC.build_mod17 hn hne]
    rw [FcDict.build] at h
    rw [h]; rfl
  refine ⟨{ d with size := L.length }, buildD_stays (by decide) (fun _ a b _ _ => lcp_ok b a) (fun s hs => ⟨?_, ?_⟩) _ hb, ?_⟩
  · exact List.length_pos_iff.mpr (he s hs)
  · exact v.len s hs
  · intro i hi hl out base
    unfold FcDict.extractD
    rw [show check (0 < i + 1) = .ok () from if_pos (by omega), M.ok_bind]
    have hnb : FC.nBuckets { d with size := L.length } = (L.length + 16) / 17 := by
      have := R.nb
      rw [hlen] at this
      exact this.trans (by omega)
    have hlt := bucketSize_lt (d := { d with size := L.length }) rfl hnb hn hi hl
    generalize ({ d with size := L.length } : FC) = d' at hlt
    rw [Nat.add_sub_cancel]
    unfold extractAtD
    rw [show check (i % 17 ≤ d'.bucketSize (i / 17)) = .error .aborted from if_neg hlt]
    rfl

example : ValidTerms (sampleTerms.take 17) ∧ (∀ s ∈ sampleTerms.take 17, s ≠ []) ∧ (sampleTerms.take 17).length % 17 = 0 ∧
    sampleTerms.take 17 ≠ [] := by decide +kernel

/-- **C85**, completions, when their number is not a multiple of 17: with assertions, building and every look-up succeed and do what they do
without. `locate` of something that is not a completion can stop the program, exactly where without assertions its behaviour is undefined.

Partial: multiples of 17 are excluded; there it is false, see `C85_false_completions`. -/
theorem C85_completions_partial {univ : Nat} {rs : List (Nat × Ids)} (v : ValidIds (rs.map (·.2))) (hu : ∀ r ∈ rs, r.1 < univ)
    (hd : (rs.map (·.1)).Nodup) (hn : rs.length % 17 ≠ 0) :
    ∃ d m, IntDict.buildD univ rs = .ok (d, m) ∧ IntDict.build univ rs = .ok (d, m) ∧
      (∀ i (hi : i < rs.length) (c : Ids), 128 ≤ c.length →
        ∃ c', IntDict.extractD d i c = .ok (c', rs[i].2.length) ∧ IntDict.extract d i c = .ok (c', rs[i].2.length)) ∧
      (∀ i (hi : i < rs.length) (buf : Ids), buf.length = IntDict.bufSize →
        ∃ buf', IntDict.locateD d rs[i].2 buf = .ok (i, buf') ∧ IntDict.locate d rs[i].2 buf = .ok (i, buf')) ∧
      (∀ c buf, (∀ r, IntDict.locate d c buf = .ok r → IntDict.locateD d c buf = .ok r) ∧
        (IntDict.locate d c buf = .error .unreachable → IntDict.locateD d c buf = .error .aborted)) ∧
      ∀ pfx b e, b ≤ e → e < 2 ^ 32 - 1 → ∀ buf, buf.length = IntDict.bufSize →
        ∃ r, IntDict.locatePrefixD d pfx ⟨b, e⟩ buf = .ok r ∧ IntDict.locatePrefix d pfx ⟨b, e⟩ buf = .ok r := by
  obtain ⟨d, m, h, R, _, _, _⟩ := IntDict.build_spec v hu hd hn
  refine ⟨d, m, ?_, h, ?_, ?_, fun c buf => ⟨IntDict.locateD_stays d c buf, IntDict.locateD_unreach d c buf⟩, ?_⟩
  · refine Stays.bind (.refl _) (fun _ _ => Stays.bind (buildD_stays (by decide) (IntDict.consecOk v) (fun s hs => ⟨by omega, ?_⟩)) fun _ _ => .refl _) _ h
    have := v.len s hs
    exact this
  · intro i hi c hc
    obtain ⟨c', f1, _⟩ := R.extract i (by simpa using hi) c 0 (by simpa [Elem.u32, MAX_TERMS] using hc)
    rw [List.getElem_map] at f1
    refine ⟨c', extractAtD_stays _ _ (bucketSize_ge (n := rs.length) (by rw [R.size]; simp) (by rw [R.nb]; simp) hn hi) _ _ _ f1, f1⟩
  · intro i hi buf hb
    obtain ⟨buf', f1, _⟩ := IntDict.locate_mem v R (i := i) (by simpa using hi) rfl buf (by rw [hb]; decide)
    rw [List.getElem_map] at f1
    exact ⟨buf', IntDict.locateD_stays _ _ _ _ f1, f1⟩
  · intro pfx b e hbe he buf hb
    obtain ⟨r, pfx', buf', f1, _⟩ := IntDict.locatePrefix_exact v R (pfx := pfx) hbe (by omega) buf (by rw [hb]; decide)
    exact ⟨_, IntDict.locatePrefixD_stays _ _ _ _ _ f1, f1⟩

example : ValidIds (sampleRecords.map (·.2)) ∧ (∀ r ∈ sampleRecords, r.1 < 22) ∧
    (sampleRecords.map (·.1)).Nodup ∧ sampleRecords.length % 17 ≠ 0 := sampleRecords_ok

/-- **C85 is false** for completions whose number is a multiple of 17: extracting or locating any of the last 16 stops the program. -/
theorem C85_false_completions {univ : Nat} {rs : List (Nat × Ids)} (v : ValidIds (rs.map (·.2))) (hu : ∀ r ∈ rs, r.1 < univ)
    (hd : (rs.map (·.1)).Nodup) (hn : rs.length % 17 = 0) (hne : rs ≠ []) :
    ∃ d m, IntDict.buildD univ rs = .ok (d, m) ∧ ∀ i (hi : i < rs.length), rs.length - 16 ≤ i →
      (∀ c, IntDict.extractD d i c = .error .aborted) ∧
      ∀ buf, buf.length = IntDict.bufSize → IntDict.locateD d rs[i].2 buf = .error .aborted := by
  obtain ⟨d, m, h, hs, H⟩ := C10_false_completions v hu hd hn hne
  refine ⟨d, m, ?_, fun i hi hl => ⟨fun c => ?_, fun buf hb => IntDict.locateD_unreach _ _ _ ((H i hi hl).2 buf hb)⟩⟩
  · refine Stays.bind (.refl _) (fun _ _ => Stays.bind (buildD_stays (by decide) (IntDict.consecOk v) (fun s hs => ⟨by omega, ?_⟩)) fun _ _ => .refl _) _ h
    have := v.len s hs
    exact this
  · have hnb : d.nBuckets = (rs.length + 16) / 17 := by
      have hpos : 0 < rs.length := List.length_pos_iff.mpr hne
      unfold IntDict.build at h
      obtain ⟨w, _, h⟩ := bind_ok h
      obtain ⟨d', hd', h⟩ := bind_ok h
      cases h
      have vt : ValidIds ((rs.take (rs.length - 16)).map (·.2)) := by
        have hsub : ∀ s ∈ (rs.take (rs.length - 16)).map (·.2), s ∈ rs.map (·.2) := fun s hs => by
          rw [List.map_take] at hs; exact List.mem_of_mem_take hs
        refine ⟨v.sorted.sublist ((List.take_sublist _ _).map _), fun s hs => v.elems _ (hsub s hs), fun s hs => v.len _ (hsub s hs), ?_⟩
        have := v.count
        simp only [List.length_map, List.length_take] at this ⊢
        omega
      obtain ⟨d2, hb2, R⟩ := IntDict.build_fc_rep vt (by simp; omega)
      rw [FC.build_mod17 (by simpa using hn) (by simpa using hne), List.length_map, ← List.map_take, hb2] at hd'
      cases hd'
      have := R.nb
      unfold nBuckets at this ⊢
      dsimp only
      rw [this]
      simp
      omega
    unfold IntDict.extractD extractAtD
    rw [show check (i % 17 ≤ d.bucketSize (i / 17)) = .error .aborted from if_neg (bucketSize_lt hs hnb hn hi hl)]
    rfl

example : ValidIds ((sampleRecords.take 17).map (·.2)) ∧ (∀ r ∈ sampleRecords.take 17, r.1 < 22) ∧
    ((sampleRecords.take 17).map (·.1)).Nodup ∧ (sampleRecords.take 17).length % 17 = 0 ∧ sampleRecords.take 17 ≠ [] := by decide +kernel

end AC.Props
