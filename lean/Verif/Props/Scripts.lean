import Verif.Proofs.Scripts
import Verif.Props.Text
/-!
# C87: the preprocessing scripts in a directory
-/
namespace AC.Props
open Spec Script

/-- a name that the shell takes as one argument -/
def OneWord (name : Str) : Prop := name ≠ [] ∧ 32 ∉ name ∧ 9 ∉ name ∧ 10 ∉ name

/-- the name of a file of queries -/
def queryPath (name : Str) (i : Nat) : Str :=
  name ++ chars ['.', 'q', 'u', 'e', 'r', 'i', 'e', 's', '/', 'q', 'u', 'e', 'r', 'i', 'e', 's', '.', 'l', 'e', 'n', 'g', 't', 'h', '='] ++
    (if i < 6 then [49 + i] else chars ['7', '+'])

/-- On the disk `d'` are the files of a collection, with the contents `T`. -/
structure HasTexts (T : Texts) (name : Str) (d' : Disk) : Prop where
  dict : d' (name ++ chars ['.', 'd', 'i', 'c', 't']) = some T.dict
  mapped : d' (name ++ chars ['.', 'm', 'a', 'p', 'p', 'e', 'd']) = some T.mapped
  stats : d' (name ++ chars ['.', 'm', 'a', 'p', 'p', 'e', 'd', '.', 's', 't', 'a', 't', 's']) = some T.stats
  inverted : d' (name ++ chars ['.', 'i', 'n', 'v', 'e', 'r', 't', 'e', 'd']) = some T.inverted
  forward : d' (name ++ chars ['.', 'f', 'o', 'r', 'w', 'a', 'r', 'd']) = some T.forward

/-- the names of the files of a collection -/
def textPaths (name : Str) : List Str :=
  [['.', 'd', 'i', 'c', 't'], ['.', 'm', 'a', 'p', 'p', 'e', 'd'], ['.', 'm', 'a', 'p', 'p', 'e', 'd', '.', 's', 't', 'a', 't', 's'],
    ['.', 'i', 'n', 'v', 'e', 'r', 't', 'e', 'd'], ['.', 'f', 'o', 'r', 'w', 'a', 'r', 'd']].map fun s => name ++ chars s

theorem OneWord.plain {name : Str} (h : OneWord name) : Plain name := h.2

theorem putTexts_has (name : Str) (T : Texts) (d : Disk) : HasTexts T name (putTexts name T d) := by
  unfold putTexts
  constructor
  · exact (Disk.put_ne _ _ (ne14 name)).trans ((Disk.put_ne _ _ (ne15 name)).trans ((Disk.put_ne _ _ (ne13 name)).trans ((Disk.put_ne _ _ (ne12 name)).trans (Disk.put_same ..))))
  · exact (Disk.put_ne _ _ (ne24 name)).trans ((Disk.put_ne _ _ (ne25 name)).trans ((Disk.put_ne _ _ (ne23 name)).trans (Disk.put_same ..)))
  · exact (Disk.put_ne _ _ (ne34 name)).trans ((Disk.put_ne _ _ (ne35 name)).trans (Disk.put_same ..))
  · exact Disk.put_same ..
  · exact (Disk.put_ne _ _ (ne45 name).symm).trans (Disk.put_same ..)

theorem putTexts_keeps (name : Str) (T : Texts) (d : Disk) {q : Str} (h : q ∉ textPaths name) : putTexts name T d q = d q := by
  have h' : ¬ q = dictFile name ∧ ¬ q = mappedFile name ∧ ¬ q = statsFile name ∧ ¬ q = invertedFile name ∧ ¬ q = forwardFile name := by
    simpa [textPaths, dictFile, mappedFile, statsFile, invertedFile, forwardFile] using h
  unfold putTexts
  rw [Disk.put_ne _ _ h'.2.2.2.1, Disk.put_ne _ _ h'.2.2.2.2, Disk.put_ne _ _ h'.2.2.1, Disk.put_ne _ _ h'.2.1, Disk.put_ne _ _ h'.1]

theorem queryPath_mem {name : Str} (i : Nat) (hi : i < 7) : (queryPaths (name ++ chars ['.', 'q', 'u', 'e', 'r', 'i', 'e', 's']))[i]? = some (queryPath name i) := by
  unfold queryPaths queryPath
  rw [List.getElem?_map]
  have : ∀ i, i < 7 → Pre.queryFileNames[i]? = some (chars ['q', 'u', 'e', 'r', 'i', 'e', 's', '.', 'l', 'e', 'n', 'g', 't', 'h', '='] ++ (if i < 6 then [49 + i] else chars ['7', '+'])) := by
    decide
  rw [this i hi, Option.map_some]
  simp [chars]

theorem queryPath_of_mem {name q : Str} (h : q ∈ queryPaths (name ++ chars ['.', 'q', 'u', 'e', 'r', 'i', 'e', 's'])) : ∃ i, i < 7 ∧ q = queryPath name i := by
  obtain ⟨i, hi⟩ := List.getElem?_of_mem h
  have hl : i < 7 := by
    have := (List.getElem?_eq_some_iff.mp hi).1
    rwa [queryPaths_length] at this
  refine ⟨i, hl, ?_⟩
  rw [queryPath_mem i hl] at hi
  exact (Option.some.inj hi).symm

theorem preprocess_eq (shuffle : Nat → List Str → List Str) (n : Nat) {name : Str} (hn : OneWord name) (d : Disk) :
    preprocess shuffle n name d = (partitionQueries shuffle n name (name ++ chars ['.', 'q', 'u', 'e', 'r', 'i', 'e', 's']) (makeFiles name d)).1 := by
  have h1 : shellWords name = [name] := shellWords_plain hn.plain hn.1
  have h2 : shellWords (name ++ chars ['.', 'm', 'a', 'p', 'p', 'e', 'd']) = [mappedFile name] :=
    shellWords_plain (hn.plain.append (by unfold Plain; decide)) (by simp [hn.1])
  have h3 : shellWords (name ++ chars ['.', 'q', 'u', 'e', 'r', 'i', 'e', 's']) = [name ++ chars ['.', 'q', 'u', 'e', 'r', 'i', 'e', 's']] :=
    shellWords_plain (hn.plain.append (by unfold Plain; decide)) (by simp [hn.1])
  unfold preprocess
  dsimp only
  rw [h1, h2, h3]
  simp only [withArg, withArgs, List.cons_append, List.nil_append, int_dec]
  rfl

theorem name_not_query {name t : Str} (ht : t.head? ≠ some 46 ∨ t = []) : name ++ t ∉ queryPaths (name ++ chars ['.', 'q', 'u', 'e', 'r', 'i', 'e', 's']) := by
  intro h
  obtain ⟨u, _, _, h⟩ := queryPaths_mem h
  rw [List.append_assoc] at h
  have := List.append_cancel_left h
  rcases ht with ht | ht
  · rw [this] at ht
    exact ht rfl
  · rw [ht] at this
    cases this

theorem text_not_query {name q : Str} (hq : q ∈ textPaths name) : q ∉ queryPaths (name ++ chars ['.', 'q', 'u', 'e', 'r', 'i', 'e', 's']) := by
  intro h
  obtain ⟨s, hs, rfl⟩ := List.mem_map.mp hq
  obtain ⟨u, _, hu, h⟩ := queryPaths_mem h
  rw [List.append_assoc] at h
  have h := List.append_cancel_left h
  have : ∀ s ∈ [['.', 'd', 'i', 'c', 't'], ['.', 'm', 'a', 'p', 'p', 'e', 'd'], ['.', 'm', 'a', 'p', 'p', 'e', 'd', '.', 's', 't', 'a', 't', 's'],
      ['.', 'i', 'n', 'v', 'e', 'r', 't', 'e', 'd'], ['.', 'f', 'o', 'r', 'w', 'a', 'r', 'd']], (chars s)[1]? ≠ some 113 := by decide
  refine this s hs ?_
  rw [h]
  rfl

theorem name_not_text (name : Str) : name ∉ textPaths name := by
  intro h
  obtain ⟨s, hs, h⟩ := List.mem_map.mp h
  have : ∀ s ∈ [['.', 'd', 'i', 'c', 't'], ['.', 'm', 'a', 'p', 'p', 'e', 'd'], ['.', 'm', 'a', 'p', 'p', 'e', 'd', '.', 's', 't', 'a', 't', 's'],
      ['.', 'i', 'n', 'v', 'e', 'r', 't', 'e', 'd'], ['.', 'f', 'o', 'r', 'w', 'a', 'r', 'd']], chars s ≠ [] := by decide
  exact name_ne_self (this s hs) h

/-- **C87**, for every text that the scripts accept, and whatever files exist before, also those of former runs: test_data/preprocess.sh makes the five files of the
collection and the seven files of queries, with the contents of C48 and C52. It changes no other file. Missing from the claim:
names with spaces (`C87_false_space`), and texts with lines without words (`C87_false_blank`). -/
theorem C87_files_partial (shuffle : Nat → List Str → List Str) (n : Nat) {name X : Str} (hn : OneWord name) {d : Disk} (h : d name = some X)
    {L : List (Str × Nat × List Str)} (hp : Pre.parse X = some L) :
    ∃ T, Pre.prepare X = some T ∧ HasTexts T name (preprocess shuffle n name d) ∧
      (∀ i, i < 7 → preprocess shuffle n name d (queryPath name i) = (Pre.partition shuffle n X)[i]?) ∧
      ∀ q, q ∉ textPaths name → (∀ i, i < 7 → q ≠ queryPath name i) → preprocess shuffle n name d q = d q := by
  obtain ⟨T, hT, hm⟩ := makeFiles_run h hp
  have hk : ∀ q ∈ textPaths name, preprocess shuffle n name d q = putTexts name T d q := by
    intro q hq
    rw [preprocess_eq shuffle n hn, partitionQueries_keeps _ _ _ _ _ (text_not_query hq), hm]
  have hN : name ∉ queryPaths (name ++ chars ['.', 'q', 'u', 'e', 'r', 'i', 'e', 's']) := by simpa using name_not_query (name := name) (t := []) (Or.inr rfl)
  refine ⟨T, hT, ?_, ?_, ?_⟩
  · have := putTexts_has name T d
    exact ⟨(hk _ (by simp [textPaths])).trans this.1, (hk _ (by simp [textPaths])).trans this.2, (hk _ (by simp [textPaths])).trans this.3,
      (hk _ (by simp [textPaths])).trans this.4, (hk _ (by simp [textPaths])).trans this.5⟩
  · intro i hi
    rw [preprocess_eq shuffle n hn, partitionQueries_makes shuffle n (X := X) (by rw [hm, putTexts_keeps _ _ _ (name_not_text name), h]) hN (queryPath_mem i hi)]
  · intro q hq hq'
    rw [preprocess_eq shuffle n hn, partitionQueries_keeps _ _ _ _ _ (fun hc => by
      obtain ⟨i, hi, e⟩ := queryPath_of_mem hc
      exact hq' i hi e), hm, putTexts_keeps _ _ _ hq]

/-- **C87**, running the script a second time: nothing changes. Missing is the same as for `C87_files_partial`. -/
theorem C87_again_partial (shuffle : Nat → List Str → List Str) (n : Nat) {name X : Str} (hn : OneWord name) {d : Disk} (h : d name = some X)
    {L : List (Str × Nat × List Str)} (hp : Pre.parse X = some L) :
    preprocess shuffle n name (preprocess shuffle n name d) = preprocess shuffle n name d := by
  obtain ⟨T, hT, h1, h2, h3⟩ := C87_files_partial shuffle n hn h hp
  have hX : preprocess shuffle n name d name = some X := by
    rw [h3 name (name_not_text name) (fun i _ e => ?_), h]
    have := congrArg List.length e
    unfold queryPath at this
    simp [chars] at this
  obtain ⟨T', hT', g1, g2, g3⟩ := C87_files_partial shuffle n hn hX hp
  cases hT.symm.trans hT'
  funext q
  by_cases hq : q ∈ textPaths name
  · simp only [textPaths, List.map_cons, List.map_nil, List.mem_cons, List.not_mem_nil, or_false] at hq
    rcases hq with rfl | rfl | rfl | rfl | rfl
    · rw [g1.dict, h1.dict]
    · rw [g1.mapped, h1.mapped]
    · rw [g1.stats, h1.stats]
    · rw [g1.inverted, h1.inverted]
    · rw [g1.forward, h1.forward]
  · by_cases hq' : ∃ i, i < 7 ∧ q = queryPath name i
    · obtain ⟨i, hi, rfl⟩ := hq'
      rw [g2 i hi, h2 i hi]
    · exact g3 q hq (fun i hi e => hq' ⟨i, hi, e⟩)

theorem index_of_has {α : Type} (build : Files → M α) (junk : Nat) {name : Str} {d : Disk} {T : Texts} (h : HasTexts T name d) :
    indexFromDisk build junk name d = indexOfTexts build junk (some T) := by
  unfold indexFromDisk indexOfTexts
  rw [h.stats]
  dsimp only
  rw [h.mapped, h.dict, h.inverted, h.forward]
  rfl

/-- **C87**, the index that is built from the files on the disk is the one of the collection. Missing is the same as for `C87_files_partial`. -/
theorem C87_index_partial (shuffle : Nat → List Str → List Str) (n : Nat) {name X : Str} (hn : OneWord name) {d : Disk} (h : d name = some X)
    {L : List (Str × Nat × List Str)} (hp : Pre.parse X = some L) (hv : ValidColl (Pre.collOf L)) {α : Type} (build : Files → M α) (junk : Nat) :
    indexFromDisk build junk name (preprocess shuffle n name d) = build (Pre.run (Pre.collOf L)) := by
  obtain ⟨T, hT, h1, _⟩ := C87_files_partial shuffle n hn h hp
  rw [index_of_has build junk h1, ← hT]
  exact C48_index build hp hv junk

/-- **C87**, so that the programs serve the collection, see C48. Missing is the same as for `C87_files_partial`. -/
theorem C87_serves_partial (shuffle : Nat → List Str → List Str) (n : Nat) {name X : Str} (hn : OneWord name) {d : Disk} (h : d name = some X)
    {L : List (Str × Nat × List Str)} (hp : Pre.parse X = some L) (hv : ValidColl (Pre.collOf L)) (junk : Nat) (mem : Nat → W) :
    (Suits1 (Pre.collOf L) → ∃ x, indexFromDisk (Index1.build · mem) junk name (preprocess shuffle n name d) = .ok x ∧ IsIndex (Pre.collOf L) x.ask) ∧
    (Suits2 (Pre.collOf L) → ∃ x, indexFromDisk (Index2.build · mem) junk name (preprocess shuffle n name d) = .ok x ∧ IsIndex (Pre.collOf L) x.ask) ∧
    (Suits3 (Pre.collOf L) → ∃ x, indexFromDisk (Index3.build · mem) junk name (preprocess shuffle n name d) = .ok x ∧ IsIndex (Pre.collOf L) x.ask) := by
  have := C48_serves hp hv junk mem
  simp only [C48_index _ hp hv] at this
  simp only [C87_index_partial shuffle n hn h hp hv]
  exact this

/-! ## test_data/filter_and_preprocess.sh -/

theorem mapM_zip {α β : Type} {g : α → Option β} : ∀ (ps : List α) (qs : List β), ps.length = qs.length → (∀ (i : Nat) p, ps[i]? = some p → g p = qs[i]?) → ps.mapM g = some qs
  | [], [], _, _ => rfl
  | [], _ :: _, h, _ => by cases h
  | _ :: _, [], h, _ => by cases h
  | p :: ps, q :: qs, h, hg => by
      rw [List.mapM_cons, hg 0 p rfl, mapM_zip ps qs (Nat.succ.inj h) (fun i p hp => hg (i + 1) p hp)]
      rfl

theorem filter_names (dir : Str) (g : Str → Option Str) :
    ((List.range 6).map (fun i => chars ['/', 'q', 'u', 'e', 'r', 'i', 'e', 's', '.', 'l', 'e', 'n', 'g', 't', 'h', '='] ++ Pre.dec (i + 1)) ++
      [chars ['/', 'q', 'u', 'e', 'r', 'i', 'e', 's', '.', 'l', 'e', 'n', 'g', 't', 'h', '=', '7', '+']]).mapM (fun f => g (dir ++ f)) = (queryPaths dir).mapM g := by
  have : ((List.range 6).map (fun i => chars ['/', 'q', 'u', 'e', 'r', 'i', 'e', 's', '.', 'l', 'e', 'n', 'g', 't', 'h', '='] ++ Pre.dec (i + 1)) ++
      [chars ['/', 'q', 'u', 'e', 'r', 'i', 'e', 's', '.', 'l', 'e', 'n', 'g', 't', 'h', '=', '7', '+']]) = Pre.queryFileNames.map (chars ['/'] ++ ·) := by decide
  rw [this]
  unfold queryPaths
  have hm : ∀ l : List Str, (l.map (chars ['/'] ++ ·)).mapM (fun f => g (dir ++ f)) = (l.map fun f => dir ++ chars ['/'] ++ f).mapM g := by
    intro l
    induction l with
    | nil => rfl
    | cons a l ih => rw [List.map_cons, List.map_cons, List.mapM_cons, List.mapM_cons, ih, List.append_assoc]
  exact hm _

/-- **C87** for test_data/filter_and_preprocess.sh: the files of queries, the collection without them and its five files, with the contents of C82. No other file changes. Missing is the same as for
`C87_files_partial`. -/
theorem C87_filtered_partial (shuffle : Nat → List Str → List Str) (n : Nat) {name X : Str} (hn : OneWord name) {d : Disk} (h : d name = some X)
    {Q : List Str} {T : Texts} (hT : Pre.filterAndPreprocess shuffle n X = (Q, some T)) :
    let filtered := name ++ chars ['.', 'f', 'i', 'l', 't', 'e', 'r', 'e', 'd']
    HasTexts T filtered (filterAndPreprocess shuffle n name d) ∧
      (∀ i, i < 7 → filterAndPreprocess shuffle n name d (queryPath filtered i) = Q[i]?) ∧
      filterAndPreprocess shuffle n name d filtered = some (Pre.filterDataset Q X) ∧
      ∀ q, q ≠ filtered → q ∉ textPaths filtered → (∀ i, i < 7 → q ≠ queryPath filtered i) → filterAndPreprocess shuffle n name d q = d q := by
  intro filtered
  unfold Pre.filterAndPreprocess at hT
  dsimp only at hT
  injection hT with hQ hT
  have hpl : ∀ t : List Char, Plain (chars t) → shellWords (name ++ chars t) = [name ++ chars t] := fun t ht => shellWords_plain (hn.plain.append ht) (by simp [hn.1])
  have h0 : shellWords name = [name] := shellWords_plain hn.plain hn.1
  have h1 : shellWords (name ++ chars ['.', 'f', 'i', 'l', 't', 'e', 'r', 'e', 'd']) = [filtered] := hpl _ (by unfold Plain; decide)
  have e2 : name ++ chars ['.', 'f', 'i', 'l', 't', 'e', 'r', 'e', 'd', '.', 'q', 'u', 'e', 'r', 'i', 'e', 's'] = filtered ++ chars ['.', 'q', 'u', 'e', 'r', 'i', 'e', 's'] := by
    rw [List.append_assoc]; rfl
  have e3 : name ++ chars ['.', 'f', 'i', 'l', 't', 'e', 'r', 'e', 'd', '.', 'm', 'a', 'p', 'p', 'e', 'd'] = mappedFile filtered := by
    unfold mappedFile
    rw [List.append_assoc]; rfl
  have h2 : shellWords (name ++ chars ['.', 'f', 'i', 'l', 't', 'e', 'r', 'e', 'd', '.', 'q', 'u', 'e', 'r', 'i', 'e', 's']) = [filtered ++ chars ['.', 'q', 'u', 'e', 'r', 'i', 'e', 's']] :=
    (hpl _ (by unfold Plain; decide)).trans (congrArg (fun s => [s]) e2)
  have h3 : shellWords (name ++ chars ['.', 'f', 'i', 'l', 't', 'e', 'r', 'e', 'd', '.', 'm', 'a', 'p', 'p', 'e', 'd']) = [mappedFile filtered] :=
    (hpl _ (by unfold Plain; decide)).trans (congrArg (fun s => [s]) e3)
  have hdir : ∀ t : Str, (t = [] ∨ t = chars ['.', 'f', 'i', 'l', 't', 'e', 'r', 'e', 'd']) → name ++ t ∉ queryPaths (filtered ++ chars ['.', 'q', 'u', 'e', 'r', 'i', 'e', 's']) := by
    intro t ht hm
    obtain ⟨u, _, _, e⟩ := queryPaths_mem hm
    have := congrArg List.length e
    rw [List.append_assoc, show filtered = name ++ chars ['.', 'f', 'i', 'l', 't', 'e', 'r', 'e', 'd'] from rfl] at this
    simp only [List.length_append, chars, List.length_map, List.length_cons, List.length_nil] at this
    rcases ht with rfl | rfl
    · simp only [List.length_nil] at this
      omega
    · simp only [chars, List.length_map, List.length_cons, List.length_nil] at this
      omega
  let d1 := (partitionQueries shuffle n name (filtered ++ chars ['.', 'q', 'u', 'e', 'r', 'i', 'e', 's']) d).1
  have hne : name ≠ filtered := (name_ne_self (by decide)).symm
  have d1n : d1 name = some X := by
    rw [show d1 name = d name from partitionQueries_keeps _ _ _ _ _ (by simpa using hdir [] (Or.inl rfl)), h]
  have d1q : (queryPaths (filtered ++ chars ['.', 'q', 'u', 'e', 'r', 'i', 'e', 's'])).mapM d1 = some Q := by
    refine mapM_zip _ _ (by rw [queryPaths_length, ← hQ, partition_length]) (fun i p hp => ?_)
    rw [← hQ]
    exact partitionQueries_makes shuffle n h (by simpa using hdir [] (Or.inl rfl)) hp
  have hfd : (Script.filterDataset name (filtered ++ chars ['.', 'q', 'u', 'e', 'r', 'i', 'e', 's']) d1).1 = d1.put filtered (Pre.filterDataset Q X) := by
    unfold Script.filterDataset
    dsimp only
    rw [filter_names _ d1, d1q]
    dsimp only
    rw [show (d1.put (name ++ chars ['.', 'f', 'i', 'l', 't', 'e', 'r', 'e', 'd']) []) name = some X from (Disk.put_ne _ _ hne).trans d1n]
    exact Disk.put_put ..
  obtain ⟨L, hp⟩ : ∃ L, Pre.parse (Pre.filterDataset Q X) = some L := by
    rw [hQ] at hT
    unfold Pre.prepare at hT
    cases hp : Pre.parse (Pre.filterDataset Q X) with
    | none => rw [hp] at hT; cases hT
    | some L => exact ⟨L, rfl⟩
  obtain ⟨T', hT', hm⟩ := makeFiles_run (name := filtered) (d := d1.put filtered (Pre.filterDataset Q X)) (Disk.put_same ..) hp
  rw [hQ, hT'] at hT
  injection hT with hT
  subst hT
  have hall : filterAndPreprocess shuffle n name d = putTexts filtered T' (d1.put filtered (Pre.filterDataset Q X)) := by
    unfold filterAndPreprocess
    dsimp only
    rw [h0, h1, h2, h3]
    simp only [withArg, withArgs, withTwo, List.cons_append, List.nil_append, int_dec]
    rw [← hm, ← hfd]
    rfl
  rw [hall]
  have hqt : ∀ i, i < 7 → queryPath filtered i ∉ textPaths filtered := fun i hi hc => text_not_query hc (List.mem_of_getElem? (queryPath_mem i hi))
  have hqf : ∀ i, i < 7 → queryPath filtered i ≠ filtered := fun i hi hc => hdir _ (Or.inr rfl) (by
    have := List.mem_of_getElem? (queryPath_mem (name := filtered) i hi)
    rw [hc] at this
    exact this)
  refine ⟨putTexts_has .., ?_, ?_, ?_⟩
  · intro i hi
    rw [putTexts_keeps _ _ _ (hqt i hi), Disk.put_ne _ _ (hqf i hi), ← hQ]
    exact partitionQueries_makes shuffle n h (by simpa using hdir [] (Or.inl rfl)) (queryPath_mem i hi)
  · rw [putTexts_keeps _ _ _ (name_not_text _), Disk.put_same]
  · intro q hq1 hq2 hq3
    rw [putTexts_keeps _ _ _ hq2, Disk.put_ne _ _ hq1]
    refine partitionQueries_keeps _ _ _ _ _ (fun hc => ?_)
    obtain ⟨i, hi, e⟩ := queryPath_of_mem hc
    exact hq3 i hi e

/-! ## Where it fails -/

theorem load_first {junk : Nat} {text : Str} {P : Params} (h : Params.load junk text = .ok P) : P.numTerms = ((Stream.ofText text).getU32 0).1 := by
  unfold Params.load at h
  dsimp only at h
  split at h
  · cases h
  · split at h
    · cases h
    · split at h
      · cases h
      · injection h with h
        rw [← h]

/-- **C87 is false** when a line without words comes after the first completions, also at the end of the file: the script goes on after the exceptions. The file of
completions has only those before the line, the file of statistics begins with the third number, the lists are missing, and no index of the types 1 to 3 can be built. -/
theorem C87_false_blank (shuffle : Nat → List Str → List Str) (n : Nat) {name X : Str} (hn : OneWord name) {d : Disk} (h : d name = some X)
    {ls rest : List Str} {b : Str} (hX : Pre.lines X = ls ++ b :: rest) {L : List (Str × Nat × List Str)} (hp : ls.mapM Pre.parseLine = some L) (hb : Words b [])
    (hne : L ≠ []) (hL : L.length < 2 ^ 32) :
    (∃ (E : List Str) (ns : List Nat), (∀ t, t ∈ E ↔ ∃ l ∈ Pre.lines X, ∃ x ts, Words l (x :: ts) ∧ t ∈ ts) ∧
      HasTexts ⟨Pre.dictText E, Pre.mappedText E L, ([L.length, Pre.univOf (Pre.collOf L), ns.length] ++ ns).flatMap fun n => Pre.dec n ++ [10], [], []⟩ name
        (preprocess shuffle n name d)) ∧
    ∀ (junk : Nat) (mem : Nat → W),
      (indexFromDisk (Index1.build · mem) junk name (preprocess shuffle n name d)).toOption = none ∧
      (indexFromDisk (Index2.build · mem) junk name (preprocess shuffle n name d)).toOption = none ∧
      (indexFromDisk (Index3.build · mem) junk name (preprocess shuffle n name d)).toOption = none := by
  obtain ⟨E, ns, h1, h2, h3, _, h5⟩ := makeFiles_blank h hX hp (Pre.split_iff.mpr hb)
  obtain ⟨ms, rfl⟩ : ∃ ms, ns = [L.length, Pre.univOf (Pre.collOf L), ms.length] ++ ms := by
    match ns, h2, h3 with
    | a :: b :: c :: ms, h2, h3 =>
        simp only [List.take_succ_cons, List.take_zero, List.cons.injEq, and_true] at h3
        obtain ⟨rfl, rfl⟩ := h3
        refine ⟨ms, ?_⟩
        have : c = ms.length := by
          simp at h2
          omega
        subst this
        rfl
    | [], h2, _ => simp at h2
    | [_], h2, _ => simp at h2
    | [_, _], h2, _ => simp at h2
  have hT : HasTexts ⟨Pre.dictText E, Pre.mappedText E L, ([L.length, Pre.univOf (Pre.collOf L), ms.length] ++ ms).flatMap fun n => Pre.dec n ++ [10], [], []⟩ name
      (preprocess shuffle n name d) := by
    have hk : ∀ q ∈ textPaths name, preprocess shuffle n name d q = makeFiles name d q := by
      intro q hq
      rw [preprocess_eq shuffle n hn, partitionQueries_keeps _ _ _ _ _ (text_not_query hq)]
    have := putTexts_has name ⟨Pre.dictText E, Pre.mappedText E L, ([L.length, Pre.univOf (Pre.collOf L), ms.length] ++ ms).flatMap fun n => Pre.dec n ++ [10], [], []⟩ d
    rw [← h5] at this
    exact ⟨(hk _ (by simp [textPaths])).trans this.1, (hk _ (by simp [textPaths])).trans this.2, (hk _ (by simp [textPaths])).trans this.3,
      (hk _ (by simp [textPaths])).trans this.4, (hk _ (by simp [textPaths])).trans this.5⟩
  refine ⟨⟨E, ms, fun t => ?_, hT⟩, fun junk mem => ?_⟩
  · rw [h1]
    constructor
    · rintro ⟨l, hl, ht⟩
      match hs : Pre.split l with
      | [] => rw [hs] at ht; cases ht
      | x :: ts => exact ⟨l, hl, x, ts, Pre.split_iff.mp hs, by rw [hs] at ht; exact ht⟩
    · rintro ⟨l, hl, x, ts, hw, ht⟩
      exact ⟨l, hl, by rw [Pre.split_iff.mpr hw]; exact ht⟩
  · have hno : ∀ {α : Type} (build : Files → M α), (∀ F : Files, (∃ n, F.inverted = List.replicate (n + 1) []) → (build F).toOption = none) →
        (indexFromDisk build junk name (preprocess shuffle n name d)).toOption = none := by
      intro α build hbuild
      rw [index_of_has build junk hT]
      unfold indexOfTexts
      dsimp only
      cases hl : Params.load junk (([L.length, Pre.univOf (Pre.collOf L), ms.length] ++ ms).flatMap fun n => Pre.dec n ++ [10]) with
      | error f => rfl
      | ok P =>
          rw [M.ok_bind]
          have hP : P.numTerms = L.length := by
            rw [load_first hl]
            have := Stream.getU32_num 0 (w := []) (by decide) (Pre.dec_ne L.length) (Pre.dec_digits L.length) (by rw [Pre.num_dec]; exact hL)
              (r := 10 :: ([Pre.univOf (Pre.collOf L), ms.length] ++ ms).flatMap fun n => Pre.dec n ++ [10]) (show isDigit 10 = false by decide)
            rw [Pre.num_dec] at this
            have e : Stream.ofText (([L.length, Pre.univOf (Pre.collOf L), ms.length] ++ ms).flatMap fun n => Pre.dec n ++ [10]) =
                ⟨[] ++ (Pre.dec L.length ++ 10 :: ([Pre.univOf (Pre.collOf L), ms.length] ++ ms).flatMap fun n => Pre.dec n ++ [10]), false, false⟩ := by
              unfold Stream.ofText
              simp [List.flatMap_cons]
            rw [e, this]
          unfold Texts.read
          dsimp only
          cases AC.readAll (Pre.mappedText E L) with
          | error f => rfl
          | ok mapped =>
              rw [M.ok_bind]
              have hinv := readLists_missing P.numTerms [] false (by decide)
              rw [if_neg (by simp)] at hinv
              rw [show Stream.ofText [] = ⟨[], false, false⟩ from rfl, hinv, M.ok_bind]
              cases readLists P.univ ⟨[], false, false⟩ with
              | error f => rfl
              | ok fwd =>
                  rw [M.ok_bind, M.ok_bind]
                  refine hbuild _ ⟨L.length - 1, ?_⟩
                  dsimp only
                  rw [hP, Nat.sub_add_cancel (List.length_pos_iff.mpr hne)]
    refine ⟨hno _ ?_, hno _ ?_, hno _ ?_⟩
    · rintro F ⟨n, hF⟩
      unfold Index1.build
      rw [hF]
      rfl
    · rintro F ⟨n, hF⟩
      unfold Index2.build
      rw [hF]
      rfl
    · rintro F ⟨n, hF⟩
      unfold Index3.build
      rw [hF]
      rfl

/-- **C87 is false** when there is a space, a tab or a newline in the name: no file with such a name is made, so that there is none of the files of the collection unless they
were there before, and building an index ends with an exception. -/
theorem C87_false_space (shuffle : Nat → List Str → List Str) (n : Nat) {name : Str} (hn : 32 ∈ name ∨ 9 ∈ name ∨ 10 ∈ name) (d : Disk) :
    (∀ t, preprocess shuffle n name d (name ++ t) = d (name ++ t)) ∧
    (d (name ++ chars ['.', 'm', 'a', 'p', 'p', 'e', 'd', '.', 's', 't', 'a', 't', 's']) = none → ∀ {α : Type} (build : Files → M α) (junk : Nat),
      indexFromDisk build junk name (preprocess shuffle n name d) = .error .thrown) := by
  have hk : ∀ t, preprocess shuffle n name d (name ++ t) = d (name ++ t) := by
    intro t
    have hq : ¬ Plain (name ++ t) := by
      rintro ⟨h1, h2, h3⟩
      rcases hn with h | h | h
      · exact h1 (List.mem_append_left _ h)
      · exact h2 (List.mem_append_left _ h)
      · exact h3 (List.mem_append_left _ h)
    have hone : ∀ (script : Str → Disk → Disk × Bool), (∀ p, Plain p → ∀ d, (script p d).1 (name ++ t) = d (name ++ t)) → ∀ s d,
        withArg (shellWords s) script d (name ++ t) = d (name ++ t) := by
      intro script hs s d
      have := fun w => shellWords_words (s := s) (w := w)
      match ha : shellWords s with
      | [] => rfl
      | a :: as => exact hs a (this a (by rw [ha]; exact List.mem_cons_self ..)) d
    unfold preprocess
    have hargs : ∀ (args : List Str), (∀ a ∈ args, Plain a) → ∀ d, withArgs args (partitionQueries shuffle) d (name ++ t) = d (name ++ t) := by
      intro args ha d
      unfold withArgs
      split
      · rename_i a b c as
        cases Pre.int? c with
        | none => rfl
        | some m =>
            refine partitionQueries_keeps _ _ _ _ _ (fun hc => ?_)
            obtain ⟨u, hu, _, e⟩ := queryPaths_mem hc
            exact not_plain_ne hq (ha b (by simp)) hu e
      · rfl
    rw [hargs, hone _ (fun p hp d => inverted_other hq hp d), hone _ (fun p hp d => buildStats_other hq hp d), hone _ (fun p hp d => mapDataset_other hq hp d),
      hone _ (fun p hp d => extractDict_other hq hp d)]
    intro a ha
    simp only [List.mem_append, List.mem_singleton] at ha
    rcases ha with (ha | ha) | rfl
    · exact shellWords_words ha
    · exact shellWords_words ha
    · exact plain_dec n
  refine ⟨hk, fun h α build junk => ?_⟩
  unfold indexFromDisk
  rw [hk, h]

/-! ## Examples -/

/-- a disk with the sample in the file "c", and files of a former run: "c.mapped.stats" and "c.queries/queries.length=2" -/
def staleDisk : Disk := fun q =>
  if q = [99] then some sampleText
  else if q = chars ['c', '.', 'm', 'a', 'p', 'p', 'e', 'd', '.', 's', 't', 'a', 't', 's'] then some [57, 57, 57, 10]
  else if q = queryPath [99] 1 then some [120, 10]
  else none

/-- the sample, with files of a former run: the statistics are "3 3 5 8 4 3 5 4 1", one of the two queries of two terms is chosen first, and the input is still there -/
example : (preprocess (fun _ l => l) 1 [99] staleDisk (chars ['c', '.', 'm', 'a', 'p', 'p', 'e', 'd', '.', 's', 't', 'a', 't', 's'])).map Pre.lines =
      some [[51], [51], [53], [56], [52], [51], [53], [52], [49]] ∧
    preprocess (fun _ l => l) 1 [99] staleDisk (chars ['c', '.', 'q', 'u', 'e', 'r', 'i', 'e', 's', '/', 'q', 'u', 'e', 'r', 'i', 'e', 's', '.', 'l', 'e', 'n', 'g', 't', 'h', '=', '2']) =
      some [97, 98, 32, 98, 10] ∧
    preprocess (fun _ l => l) 1 [99] staleDisk [99] = some sampleText ∧
    ∀ {α : Type} (build : Files → M α) (junk : Nat), indexFromDisk build junk [99] (preprocess (fun _ l => l) 1 [99] staleDisk) = build (Pre.run sampleColl) := by
  have hn : OneWord [99] := by unfold OneWord; decide
  obtain ⟨T, h1, h2, h3, h4⟩ := C87_files_partial (fun _ l => l) 1 hn (d := staleDisk) rfl sampleText_parse
  refine ⟨?_, ?_, ?_, fun build junk => ?_⟩
  · have : (Pre.prepare sampleText).map (fun T => Pre.lines T.stats) = some [[51], [51], [53], [56], [52], [51], [53], [52], [49]] := by decide +kernel
    rw [h1] at this
    exact (congrArg (Option.map Pre.lines) h2.stats).trans this
  · exact (h3 1 (by decide)).trans (by decide +kernel)
  · exact h4 _ (by decide) (by decide)
  · have := C87_index_partial (fun _ l => l) 1 hn (d := staleDisk) rfl sampleText_parse (by rw [sampleText_coll]; exact sampleColl_valid) build junk
    rwa [sampleText_coll] at this

/-- "4 b", an empty line, "7 c": the second completion is lost, and so are two numbers of the statistics: "1 5 2 1 1" -/
example (mem : Nat → W) : let d : Disk := fun q => if q = [99] then some [52, 32, 98, 10, 10, 55, 32, 99, 10] else none
    preprocess (fun _ l => l) 9 [99] d (chars ['c', '.', 'm', 'a', 'p', 'p', 'e', 'd']) = some [52, 32, 49, 32, 48, 10] ∧
    preprocess (fun _ l => l) 9 [99] d (chars ['c', '.', 'm', 'a', 'p', 'p', 'e', 'd', '.', 's', 't', 'a', 't', 's']) = some [49, 10, 53, 10, 50, 10, 49, 10, 49, 10] ∧
    (indexFromDisk (Index1.build · mem) 0 [99] (preprocess (fun _ l => l) 9 [99] d)).toOption = none := by
  intro d
  have := C87_false_blank (fun _ l => l) 9 (name := [99]) (by unfold OneWord; decide) (d := d) (X := [52, 32, 98, 10, 10, 55, 32, 99, 10]) rfl
    (ls := [[52, 32, 98]]) (b := []) (rest := [[55, 32, 99]]) (by decide +kernel) (L := [([52], 4, [[98]])]) (by decide +kernel) (Pre.split_iff.mp rfl) (by decide) (by decide)
  exact ⟨by decide +kernel, by decide +kernel, (this.2 0 mem).1⟩

/-- the name "a b" -/
example (d : Disk) : preprocess (fun _ l => l) 9 [97, 32, 98] d (chars ['a', ' ', 'b', '.', 'd', 'i', 'c', 't']) = d (chars ['a', ' ', 'b', '.', 'd', 'i', 'c', 't']) :=
  (C87_false_space (fun _ l => l) 9 (name := [97, 32, 98]) (by decide) d).1 (chars ['.', 'd', 'i', 'c', 't'])

/-- "5 a", "4 b": the first is taken as a query, the second is left in "c.filtered" -/
example : ∃ T, Pre.filterAndPreprocess (fun _ l => l) 1 [53, 32, 97, 10, 52, 32, 98, 10] = ([[97, 10], [], [], [], [], [], []], some T) ∧ T.dict = [98, 10] ∧
    ∀ d : Disk, d [99] = some [53, 32, 97, 10, 52, 32, 98, 10] → HasTexts T (chars ['c', '.', 'f', 'i', 'l', 't', 'e', 'r', 'e', 'd']) (filterAndPreprocess (fun _ l => l) 1 [99] d) := by
  refine ⟨⟨[98, 10], [52, 32, 49, 32, 48, 10], [49, 10, 49, 10, 49, 10, 53, 10, 50, 10, 49, 10, 49, 10], [49, 32, 52, 10],
    [48, 32, 10, 48, 32, 10, 48, 32, 10, 48, 32, 10, 49, 32, 49, 10]⟩, by decide +kernel, rfl, fun d hd => ?_⟩
  exact (C87_filtered_partial (fun _ l => l) 1 (name := [99]) (by unfold OneWord; decide) hd (Q := [[97, 10], [], [], [], [], [], []]) (by decide +kernel)).1

end AC.Props
