import Verif.Proofs.DictBench
import Verif.Props.BucketSize
/-!
# C74: the benchmarks of the dictionaries
-/
namespace AC.Props
open AC Spec DictBench

/-- The values that the operations should return for the queries `qs` in a dictionary that keeps the terms `K`, in each of the five runs: the
numbers of the terms, counted from 1; the queries again; and for each of the five fractions the interval of the terms that
start with that part of the query. -/
def Measures (K qs : List Str) (x : Measured) : Prop :=
  (x.located.length = 5 ∧ ∀ ids ∈ x.located, ids.length = qs.length ∧
    ∀ (j : Nat) (q : Str), qs[j]? = some q → ∃ i, ids[j]? = some (i + 1) ∧ K[i]? = some q) ∧
  (x.texts.length = 5 ∧ ∀ ts ∈ x.texts, ts = qs) ∧
  (x.ranges.length = 5 ∧ ∀ c, c ≤ 4 → ∃ runs, x.ranges[c]? = some runs ∧ runs.length = 5 ∧ ∀ rs ∈ runs, rs.length = qs.length ∧
    ∀ (j : Nat) (q : Str), qs[j]? = some q → ∃ r, rs[j]? = some r ∧ IntervalOf K (firstPart c q) r)

/-- **C74** for one bucket size, exactly: if all the queries are terms that the dictionary keeps, the benchmark measures what it should;
otherwise it reads out of bounds. -/
theorem C74_terms_exact {B : Nat} (hB : 0 < B) {L : List Str} (v : ValidTerms L) (hne : L ≠ []) (hL : [] ∉ L) {qs : List Str}
    (hq : ∀ q ∈ qs, IsText q) :
    ((∀ q ∈ qs, q ∈ keptOf B L) → ∃ x, exeTerms B L qs = .ok x ∧ Measures (keptOf B L) qs x) ∧
    ((∃ q ∈ qs, q ∉ keptOf B L) → exeTerms B L qs = .error .oob) := by
  obtain ⟨d, h1, R, hp, ht⟩ := FcDict.buildB_kept hB v hne
  have v' := keptOf_terms (B := B) v
  have hloc := times_ok (f := locatePass B { d with size := L.length } qs) (I := fun b : Str => b.length = FcDict.bufSize)
    (Q := fun ids => ids = qs.map (idOf (keptOf B L)))
    (fun b hb => by
      obtain ⟨b', e, l⟩ := locatePass_ok v' R ht qs hq b hb
      exact ⟨_, b', e, rfl, l⟩) Bench.runs (List.replicate FcDict.bufSize 0) (by simp)
  obtain ⟨located, buf, e1, l1, q1, b1⟩ := hloc
  obtain ⟨buf2, e2, b2⟩ := locatePass_ok v' R ht qs hq buf b1
  constructor
  · intro hk
    obtain ⟨texts, dec, e3, l3, q3, _⟩ := times_ok (f := extractPass B { d with size := L.length } (qs.map (idOf (keptOf B L))))
      (I := fun b : Str => b.length = 2 * MAX_CHARS) (Q := fun ts => ts = qs)
      (fun b hb => by
        obtain ⟨b', e, l⟩ := extractPass_ok R qs hk b hb
        exact ⟨_, b', e, rfl, l⟩) Bench.runs (List.replicate (2 * MAX_CHARS) 0) (by simp)
    obtain ⟨rss, buf3, e4, l4, s4⟩ := prefixPasses_ok v' R ht qs (fun q h => ⟨hq q h, fun e => hL ((keptOf_sublist B L).subset (e ▸ hk q h))⟩)
      [0, 1, 2, 3, 4] (by decide) buf2 b2
    refine ⟨⟨located, texts, rss⟩, ?_, ⟨l1, ?_⟩, ⟨l3, q3⟩, l4, ?_⟩
    · simp only [exeTerms, h1, M.ok_bind, perfTerms, e1, e2, e3, e4]
    · intro ids hids
      rw [q1 ids hids]
      refine ⟨by simp, fun j q hj => ⟨(keptOf B L).idxOf q, ?_, ?_⟩⟩
      · have hm := hk q (List.mem_of_getElem? hj)
        rw [List.getElem?_map, hj]
        simp [idOf, hm]
      · have hm := hk q (List.mem_of_getElem? hj)
        rw [List.getElem?_eq_getElem (List.idxOf_lt_length_of_mem hm), List.getElem_idxOf]
    · intro c hc
      apply s4 c c
      match c, hc with
      | 0, _ => rfl
      | 1, _ => rfl
      | 2, _ => rfl
      | 3, _ => rfl
      | 4, _ => rfl
  · intro hk
    simp only [exeTerms, h1, M.ok_bind, perfTerms, e1, e2]
    rw [show Bench.runs = 4 + 1 from rfl, times_err (extractPass_err v' R hp qs hk _ (by simp)) 4, M.error_bind]

example : ∃ L : List Str, ValidTerms L ∧ L ≠ [] ∧ [] ∉ L ∧ L.length % (4 + 1) = 0 ∧ [97] ∈ keptOf 4 L ∧ [98, 97] ∈ L ∧ [98, 97] ∉ keptOf 4 L :=
  ⟨[[97], [97, 97], [97, 98], [98], [98, 97]], by decide, by decide, by decide, by decide, by decide, by decide, by decide⟩

theorem mapM_ok_all {α β : Type} {f : α → M β} {P : α → β → Prop} : ∀ (l : List α), (∀ a ∈ l, ∃ b, f a = .ok b ∧ P a b) →
    ∃ bs, l.mapM f = .ok bs ∧ bs.length = l.length ∧ ∀ (i : Nat) (a : α), l[i]? = some a → ∃ b, bs[i]? = some b ∧ P a b
  | [], _ => ⟨[], rfl, rfl, by simp⟩
  | a :: l, h => by
      obtain ⟨b, e1, p1⟩ := h a (List.mem_cons_self ..)
      obtain ⟨bs, e2, l2, s2⟩ := mapM_ok_all l (fun a ha => h a (List.mem_cons_of_mem _ ha))
      refine ⟨b :: bs, by rw [List.mapM_cons, e1, M.ok_bind, e2, M.ok_bind]; rfl, by simp [l2], ?_⟩
      intro i a' hi
      rcases i with _ | i
      · simp only [List.getElem?_cons_zero, Option.some.injEq] at hi
        subst hi
        exact ⟨b, rfl, p1⟩
      · simpa using s2 i a' (by simpa using hi)

theorem mapM_err_of {α β : Type} {f : α → M β} {e : Fault} : ∀ (l : List α), (∀ a ∈ l, (∃ b, f a = .ok b) ∨ f a = .error e) →
    (∃ a ∈ l, f a = .error e) → l.mapM f = .error e
  | [], _, h => by simp at h
  | a :: l, h, hx => by
      rw [List.mapM_cons]
      rcases h a (List.mem_cons_self ..) with ⟨b, hb⟩ | he
      · rw [hb, M.ok_bind]
        obtain ⟨a', ha', he⟩ := hx
        rcases List.mem_cons.mp ha' with rfl | ha'
        · rw [hb] at he; cases he
        · rw [mapM_err_of l (fun a ha => h a (List.mem_cons_of_mem _ ha)) ⟨a', ha', he⟩]; rfl
      · rw [he]; rfl

theorem bucketSizes_pos : ∀ B ∈ bucketSizes, 0 < B := by decide

/-- **C74** for the dictionary of terms, partial: if the number of terms is a multiple of none of 5, 9, 17, 33, 65, 129 and 257 and all the
queries are terms, the program measures what it should for each of the seven bucket sizes.

Missing: other numbers of terms and other queries; see `C74_false_terms` and `C74_false_multiple`. -/
theorem C74_terms_partial {L : List Str} (v : ValidTerms L) (hL : [] ∉ L) (hn : ∀ B ∈ bucketSizes, L.length % (B + 1) ≠ 0)
    {text : Str} {ls : List Str} (hl : Lines text ls) (n : Nat) (hq : ∀ q ∈ ls.take n, q ∈ L) :
    ∃ xs, mainTerms L n (.ofText text) = .ok xs ∧ xs.length = 7 ∧ ∀ x ∈ xs, Measures L (ls.take n) x := by
  have hne : L ≠ [] := by rintro rfl; exact hn 4 (by decide) rfl
  have hk : ∀ B ∈ bucketSizes, keptOf B L = L := fun B hB => by unfold keptOf; rw [if_neg (hn B hB)]
  unfold mainTerms
  rw [readQueries_eq hl n]
  obtain ⟨xs, e, l, s⟩ := mapM_ok_all (f := fun B => exeTerms B L (ls.take n)) (P := fun _ x => Measures L (ls.take n) x) bucketSizes (by
    intro B hB
    obtain ⟨x, e, m⟩ := (C74_terms_exact (bucketSizes_pos B hB) v hne hL (fun q h => v.text q (hq q h))).1 (by rw [hk B hB]; exact hq)
    rw [hk B hB] at m
    exact ⟨x, e, m⟩)
  refine ⟨xs, e, l, ?_⟩
  intro x hx
  obtain ⟨i, hi, rfl⟩ := List.getElem_of_mem hx
  obtain ⟨b, hb, m⟩ := s i _ (List.getElem?_eq_getElem (by omega))
  rw [List.getElem?_eq_getElem hi] at hb
  cases hb
  exact m

theorem sample_lines : Lines ([98, 97] ++ 10 :: ([97] ++ 10 :: [])) [[98, 97], [97]] :=
  .next (by decide) (.next (by decide) .none)

example : ∃ L : List Str, ValidTerms L ∧ [] ∉ L ∧ (∀ B ∈ bucketSizes, L.length % (B + 1) ≠ 0) ∧
    ∀ q ∈ ([[98, 97], [97]] : List Str).take 2, q ∈ L :=
  ⟨[[97], [97, 98], [98, 97]], by decide, by decide, by decide, by decide⟩

/-- **C74 is false**: if one of the queries is not a term, the program reads out of bounds: it extracts the id of "not found". -/
theorem C74_false_terms {L : List Str} (v : ValidTerms L) (hne : L ≠ []) (hL : [] ∉ L) {text : Str} {ls : List Str} (hl : Lines text ls) (n : Nat)
    (ht : ∀ q ∈ ls.take n, IsText q) (hq : ∃ q ∈ ls.take n, q ∉ L) : mainTerms L n (.ofText text) = .error .oob := by
  unfold mainTerms
  rw [readQueries_eq hl n]
  have key : ∀ B ∈ bucketSizes, exeTerms B L (ls.take n) = .error .oob := fun B hB => by
    obtain ⟨q, h1, h2⟩ := hq
    exact (C74_terms_exact (bucketSizes_pos B hB) v hne hL ht).2 ⟨q, h1, fun h => h2 ((keptOf_sublist B L).subset h)⟩
  exact mapM_err_of bucketSizes (fun B hB => Or.inr (key B hB)) ⟨4, by decide, key 4 (by decide)⟩

example : ∃ L : List Str, ValidTerms L ∧ L ≠ [] ∧ [] ∉ L ∧ (∀ q ∈ ([[98, 97], [97]] : List Str).take 2, IsText q) ∧
    ∃ q ∈ ([[98, 97], [97]] : List Str).take 2, q ∉ L :=
  ⟨[[97], [97, 98], [98]], by decide, by decide, by decide, by decide, [98, 97], by decide, by decide⟩

/-- **C74 is false**: if the number of terms is a multiple of `B + 1` for one of the seven bucket sizes `B` and one of the
queries is among the last `B` terms, the program reads out of bounds although all the queries are terms. -/
theorem C74_false_multiple {L : List Str} (v : ValidTerms L) (hne : L ≠ []) (hL : [] ∉ L) {B : Nat} (hB : B ∈ bucketSizes)
    (hn : L.length % (B + 1) = 0) {text : Str} {ls : List Str} (hl : Lines text ls) (n : Nat)
    (ht : ∀ q ∈ ls.take n, q ∈ L) {i : Nat} (hi : i < L.length) (hlast : L.length - B ≤ i) (hq : L[i] ∈ ls.take n) :
    mainTerms L n (.ofText text) = .error .oob := by
  unfold mainTerms
  rw [readQueries_eq hl n]
  have ht' : ∀ q ∈ ls.take n, IsText q := fun q h => v.text q (ht q h)
  apply mapM_err_of bucketSizes
  · intro B' hB'
    by_cases h : ∃ q ∈ ls.take n, q ∉ keptOf B' L
    · exact Or.inr ((C74_terms_exact (bucketSizes_pos B' hB') v hne hL ht').2 h)
    · obtain ⟨x, e, _⟩ := (C74_terms_exact (bucketSizes_pos B' hB') v hne hL ht').1 (fun q hq => Classical.byContradiction fun hc => h ⟨q, hq, hc⟩)
      exact Or.inl ⟨x, e⟩
  · refine ⟨B, hB, (C74_terms_exact (bucketSizes_pos B hB) v hne hL ht').2 ⟨L[i], hq, ?_⟩⟩
    unfold keptOf
    rw [if_pos hn]
    intro hm
    obtain ⟨j, hj, hji⟩ := List.getElem_of_mem hm
    rw [List.getElem_take] at hji
    rw [List.length_take] at hj
    have := FC.sorted_inj v.sorted (by omega) hi hji
    omega

example : ∃ L : List Str, ∃ _ : 4 < L.length, ValidTerms L ∧ L ≠ [] ∧ [] ∉ L ∧ 4 ∈ bucketSizes ∧ L.length % (4 + 1) = 0 ∧
    (∀ q ∈ ([[98, 97], [97]] : List Str).take 2, q ∈ L) ∧ L.length - 4 ≤ 4 ∧ L[4] ∈ ([[98, 97], [97]] : List Str).take 2 :=
  ⟨[[97], [97, 97], [97, 98], [98], [98, 97]], by decide, by decide, by decide, by decide, by decide, by decide, by decide, by decide, by decide⟩

/-- **C74** for the dictionary of completions and one bucket size, exactly: if all the ids are those of completions that are kept, each run extracts the completions of the ids, in the order of
the ids; otherwise the benchmark reads out of bounds. -/
theorem C74_ids_exact {B univ : Nat} (hB : 0 < B) {rs : List (Nat × Ids)} (v : ValidIds (rs.map (·.2)))
    (hu : ∀ r ∈ rs, r.1 < univ) (hd : (rs.map (·.1)).Nodup) (hne : rs ≠ []) (ids : List Nat) :
    ((∀ i ∈ ids, i < (keptOf B rs).length) → ∃ xs, exeIds B univ rs ids = .ok xs ∧ xs.length = 5 ∧
      ∀ x ∈ xs, x.map some = ids.map (fun i => rs[i]?.map (·.2))) ∧
    ((∃ i ∈ ids, (keptOf B rs).length ≤ i) → exeIds B univ rs ids = .error .oob) := by
  obtain ⟨d, m, h1, R, hp⟩ := IntDict.buildB_kept hB v hu hd hne
  constructor
  · intro hk
    obtain ⟨xs, dec, e, l, q, _⟩ := times_ok (f := extractIdsPass B { d with size := rs.length } ids)
      (I := fun b : Ids => b.length = 2 * MAX_CHARS) (Q := fun x => x.map some = ids.map (fun i => rs[i]?.map (·.2)))
      (fun b hb => extractIdsPass_ok R ids hk b hb) Bench.runs (List.replicate (2 * MAX_CHARS) 0) (by simp)
    exact ⟨xs, by simp only [exeIds, h1, M.ok_bind, e], l, q⟩
  · intro hk
    simp only [exeIds, h1, M.ok_bind]
    rw [show Bench.runs = 4 + 1 from rfl, times_err (extractIdsPass_err R hp ids hk _ (by simp)) 4, M.error_bind]

example : ∃ rs : List (Nat × Ids), ValidIds (rs.map (·.2)) ∧ (∀ r ∈ rs, r.1 < 22) ∧ (rs.map (·.1)).Nodup ∧ rs ≠ [] ∧ rs.length % (4 + 1) = 0 ∧
    (keptOf 4 rs).length = rs.length - 4 :=
  ⟨sampleRecords, sampleRecords_ok.1, sampleRecords_ok.2.1, sampleRecords_ok.2.2.1, by decide, by decide, by decide⟩

/-- **C74** for the dictionary of completions, partial: if there are at least as many completions as the number asked for, and their number
is a multiple of none of 5, 9, 17, 33, 65, 129 and 257, each run for each bucket size extracts the first completions, in the
order of the shuffled ids.

Missing: other numbers; see `C74_false_ids`. -/
theorem C74_ids_partial {univ : Nat} {rs : List (Nat × Ids)} (v : ValidIds (rs.map (·.2)))
    (hu : ∀ r ∈ rs, r.1 < univ) (hd : (rs.map (·.1)).Nodup) (hn : ∀ B ∈ bucketSizes, rs.length % (B + 1) ≠ 0)
    (shuffle : List Nat → List Nat) (hs : ∀ l, (shuffle l).Perm l) {n : Nat} (hle : n ≤ rs.length) :
    ∃ xss, mainIds shuffle univ rs n = .ok xss ∧ xss.length = 7 ∧ ∀ xs ∈ xss, xs.length = 5 ∧
      ∀ x ∈ xs, x.Perm ((rs.take n).map (·.2)) ∧ x.map some = (shuffle (List.range n)).map (fun i => rs[i]?.map (·.2)) := by
  have hne : rs ≠ [] := by rintro rfl; exact hn 4 (by decide) rfl
  have hk : ∀ B ∈ bucketSizes, keptOf B rs = rs := fun B hB => by unfold keptOf; rw [if_neg (hn B hB)]
  have hperm : ∀ x : List Ids, x.map some = (shuffle (List.range n)).map (fun i => rs[i]?.map (·.2)) → x.Perm ((rs.take n).map (·.2)) := by
    intro x hx
    have h1 : ((shuffle (List.range n)).map (fun i => rs[i]?.map (·.2))).Perm ((List.range n).map (fun i => rs[i]?.map (·.2))) := (hs _).map _
    have h2 : (List.range n).map (fun i => rs[i]?.map (·.2)) = ((rs.take n).map (·.2)).map some := by
      apply List.ext_getElem
      · simp; omega
      · intro i h3 h4
        simp at h3
        simp [List.getElem?_eq_getElem (show i < rs.length by omega)]
    rw [← hx, h2] at h1
    have := h1.filterMap id
    have hfm : ∀ l : List Ids, (l.map some).filterMap id = l := fun l => by simp [List.filterMap_map]
    rwa [hfm, hfm] at this
  unfold mainIds
  obtain ⟨xss, e, l, s⟩ := mapM_ok_all (f := fun B => exeIds B univ rs (shuffle (List.range n)))
    (P := fun _ xs => xs.length = 5 ∧ ∀ x ∈ xs, x.map some = (shuffle (List.range n)).map (fun i => rs[i]?.map (·.2))) bucketSizes (by
    intro B hB
    exact (C74_ids_exact (bucketSizes_pos B hB) v hu hd hne _).1 (by
      rw [hk B hB]
      intro i hi
      have := (hs _).mem_iff.mp hi
      simp at this; omega))
  refine ⟨xss, e, l, ?_⟩
  intro x hx
  obtain ⟨i, hi, rfl⟩ := List.getElem_of_mem hx
  obtain ⟨b, hb, m⟩ := s i _ (List.getElem?_eq_getElem (by omega))
  rw [List.getElem?_eq_getElem hi] at hb
  cases hb
  exact ⟨m.1, fun x hx => ⟨hperm x (m.2 x hx), m.2 x hx⟩⟩

theorem three_records : ValidIds (([(0, [1]), (1, [1, 2]), (2, [2])] : List (Nat × Ids)).map (·.2)) ∧
    (∀ r ∈ ([(0, [1]), (1, [1, 2]), (2, [2])] : List (Nat × Ids)), r.1 < 3) ∧
    (([(0, [1]), (1, [1, 2]), (2, [2])] : List (Nat × Ids)).map (·.1)).Nodup := ⟨by decide, by decide, by decide⟩

example : ∃ rs : List (Nat × Ids), ValidIds (rs.map (·.2)) ∧ (∀ r ∈ rs, r.1 < 3) ∧ (rs.map (·.1)).Nodup ∧
    (∀ B ∈ bucketSizes, rs.length % (B + 1) ≠ 0) ∧ 2 ≤ rs.length ∧ ∀ l : List Nat, l.reverse.Perm l :=
  ⟨_, three_records.1, three_records.2.1, three_records.2.2, by decide, by decide, fun l => List.reverse_perm l⟩

/-- **C74 is false**: if more completions are asked for than there are (or than are kept, for one of the bucket sizes), the program
reads out of bounds, whatever the order of the ids. -/
theorem C74_false_ids {univ : Nat} {rs : List (Nat × Ids)} (v : ValidIds (rs.map (·.2)))
    (hu : ∀ r ∈ rs, r.1 < univ) (hd : (rs.map (·.1)).Nodup) (hne : rs ≠ [])
    (shuffle : List Nat → List Nat) (hs : ∀ l, (shuffle l).Perm l) {n B : Nat} (hB : B ∈ bucketSizes)
    (hlt : rs.length < n ∨ (rs.length % (B + 1) = 0 ∧ rs.length - B < n)) : mainIds shuffle univ rs n = .error .oob := by
  unfold mainIds
  apply mapM_err_of bucketSizes
  · intro B' hB'
    have h := C74_ids_exact (bucketSizes_pos B' hB') v hu hd hne (shuffle (List.range n))
    by_cases hx : ∃ i ∈ shuffle (List.range n), (keptOf B' rs).length ≤ i
    · exact Or.inr (h.2 hx)
    · obtain ⟨xs, e, _⟩ := h.1 (fun i hi => Nat.lt_of_not_le fun hc => hx ⟨i, hi, hc⟩)
      exact Or.inl ⟨xs, e⟩
  · refine ⟨B, hB, (C74_ids_exact (bucketSizes_pos B hB) v hu hd hne _).2 ⟨(keptOf B rs).length, ?_, Nat.le_refl _⟩⟩
    rw [(hs _).mem_iff, List.mem_range]
    rcases hlt with h | ⟨h1, h2⟩
    · exact Nat.lt_of_le_of_lt (keptOf_length_le B rs) h
    · unfold keptOf
      rw [if_pos h1, List.length_take]
      omega

example : ∃ rs : List (Nat × Ids), ValidIds (rs.map (·.2)) ∧ (∀ r ∈ rs, r.1 < 3) ∧ (rs.map (·.1)).Nodup ∧ rs ≠ [] ∧
    4 ∈ bucketSizes ∧ rs.length < 4 ∧ ∀ l : List Nat, l.reverse.Perm l :=
  ⟨_, three_records.1, three_records.2.1, three_records.2.2, by decide, by decide, by decide, fun l => List.reverse_perm l⟩

end AC.Props
