import Verif.Proofs.Example
import Verif.Props.Type4
/-!
# C90 and C91: the scripts that build the indexes and start the server
-/
namespace AC.Props
open AC Spec Script Web

/-! ## The files are indexes -/

theorem loaded1 {X : Str} {L : List (Str × Nat × List Str)} (hp : Pre.parse X = some L) (hv : ValidColl (Pre.collOf L)) {junk : Nat} {mem : Nat → W} {out file : List Nat}
    (h : buildProgram (Index1.build · mem) Index1.printed (fun V => V.index1) junk X = .ok (out, file)) (mem' : Nat → W) :
    ∃ x, load (fun V => V.index1) (Index1.blank mem') file = .ok x ∧ Index1.build (Pre.run (Pre.collOf L)) mem' = .ok x := by
  rw [buildProgram_eq, C48_index _ hp hv] at h
  obtain ⟨x, hx, h⟩ := bind_ok h
  obtain ⟨o, _, h⟩ := bind_ok h
  obtain ⟨f, hf, h⟩ := bind_ok h
  cases h
  obtain ⟨f, y, g1, g2, g3, _⟩ := C45_saved1 hv hx mem'
  cases hf.symm.trans g1
  exact ⟨y, g2, g3⟩

theorem loaded2 {X : Str} {L : List (Str × Nat × List Str)} (hp : Pre.parse X = some L) (hv : ValidColl (Pre.collOf L)) {junk : Nat} {mem : Nat → W} {out file : List Nat}
    (h : buildProgram (Index2.build · mem) Index2.printed (fun V => V.index2) junk X = .ok (out, file)) (mem' : Nat → W) :
    ∃ x, load (fun V => V.index2) (Index2.blank mem') file = .ok x ∧ Index2.build (Pre.run (Pre.collOf L)) mem' = .ok x := by
  rw [buildProgram_eq, C48_index _ hp hv] at h
  obtain ⟨x, hx, h⟩ := bind_ok h
  obtain ⟨o, _, h⟩ := bind_ok h
  obtain ⟨f, hf, h⟩ := bind_ok h
  cases h
  obtain ⟨f, y, g1, g2, g3, _⟩ := C45_saved2 hv hx mem'
  cases hf.symm.trans g1
  exact ⟨y, g2, g3⟩

theorem loaded3 {X : Str} {L : List (Str × Nat × List Str)} (hp : Pre.parse X = some L) (hv : ValidColl (Pre.collOf L)) {junk : Nat} {mem : Nat → W} {out file : List Nat}
    (h : buildProgram (Index3.build · mem) Index3.printed (fun V => V.index3) junk X = .ok (out, file)) (mem' : Nat → W) :
    ∃ x, load (fun V => V.index3) (Index3.blank mem') file = .ok x ∧ Index3.build (Pre.run (Pre.collOf L)) mem' = .ok x := by
  rw [buildProgram_eq, C48_index _ hp hv] at h
  obtain ⟨x, hx, h⟩ := bind_ok h
  obtain ⟨o, _, h⟩ := bind_ok h
  obtain ⟨f, hf, h⟩ := bind_ok h
  cases h
  obtain ⟨f, y, g1, g2, g3, _⟩ := C45_saved3 hv hx mem'
  cases hf.symm.trans g1
  exact ⟨y, g2, g3⟩

theorem loaded4 {X : Str} {L : List (Str × Nat × List Str)} (hp : Pre.parse X = some L) (hv : ValidColl (Pre.collOf L)) {std : StdLib} {c m : Nat}
    (hm : blockSize (Pre.run (Pre.collOf L)).univ c = .ok m) {junk : Nat} {mem : Nat → W} {out file : List Nat}
    (h : buildProgram (Index4.buildC std c · mem) Index4.printed (fun V => V.index4) junk X = .ok (out, file)) (mem' : Nat → W) :
    ∃ x, load (fun V => V.index4) (Index4.blank mem') file = .ok x ∧ Index4.build std m (Pre.run (Pre.collOf L)) mem' = .ok x := by
  rw [buildProgram_eq, C48_index _ hp hv] at h
  obtain ⟨x, hx, h⟩ := bind_ok h
  obtain ⟨o, _, h⟩ := bind_ok h
  obtain ⟨f, hf, h⟩ := bind_ok h
  cases h
  have hx : Index4.build std m (Pre.run (Pre.collOf L)) mem = .ok x := by
    have : Index4.buildC std c (Pre.run (Pre.collOf L)) mem = .ok x := hx
    unfold Index4.buildC at this
    rwa [hm, M.ok_bind] at this
  obtain ⟨f, y, g1, g2, g3, _⟩ := C45_saved4 hv hx mem'
  cases hf.symm.trans g1
  exact ⟨y, g2, g3⟩

theorem put_id {d : Disk} {p f : Str} (h : d p = some f) : d.put p f = d := by
  funext q
  by_cases e : q = p
  · rw [e, Disk.put_same, h]
  · rw [Disk.put_ne _ _ e]

/-! ## C90 -/

/-- **C90**. Missing from the claim: numbers of terms that are multiples of 17, and collections that type 1 cannot be built from (C42). In a checkout in which install.sh has been run, whatever other files there are, also those of former runs, example.sh writes the index of the data set to
one file of the directory `build`, which depends on the text of the data set alone, and changes no other file. Then it serves that index, and the files of the
directory `web`. The responses depend neither on memory nor on the standard library. -/
theorem C90_example_partial {name X : Str} (hn : OneWord name) {L : List (Str × Nat × List Str)} (hp : Pre.parse X = some L) (hv : ValidColl (Pre.collOf L))
    (hw : Suits1 (Pre.collOf L)) :
    ∃ file : List Nat, (∀ mem, ∃ x, load (fun V => V.index1) (Index1.blank mem) file = .ok x ∧ IsIndex (Pre.collOf L) x.ask) ∧
      ∀ (shuffle : Nat → List Str → List Str) (d : Disk), d (testData ++ collection name) = some X → ∀ (junk : Nat) (mem : Nat → W),
        (∃ d', exampleBuild junk mem name (install shuffle name d) = .ok d' ∧ d' (buildDir ++ exampleFile) = some file ∧
          (∀ q, q ≠ buildDir ++ exampleFile → d' q = install shuffle name d q) ∧
          ∀ uri, staticFile [] uri d' = d (chars ['w', 'e', 'b'] ++ uri)) ∧
        (∀ std mem' rs, exampleRun std junk mem mem' name rs (install shuffle name d) = Web.main std mem' file rs) ∧
        ∀ std std' mem' mem'' rs, (∀ r ∈ rs, OkRequest r) → Web.main std mem' file rs = Web.main std' mem'' file rs := by
  obtain ⟨out, file, h1, h2, _⟩ := C61_server hp hv hw
  refine ⟨file, ?_, ?_⟩
  · intro mem
    obtain ⟨x, a, b⟩ := loaded1 hp hv (h1 0 mem) mem
    exact ⟨x, a, .type1 hw b⟩
  · intro shuffle d hd junk mem
    obtain ⟨T, hT, hh⟩ := installed (shuffle := shuffle) hn hd hp
    have hb : exampleBuild junk mem name (install shuffle name d) = .ok ((install shuffle name d).put (buildDir ++ exampleFile) file) := goOn_ok hT hh (h1 junk mem)
    refine ⟨⟨_, hb, Disk.put_same .., fun q hq => Disk.put_ne _ _ hq, fun uri => ?_⟩, ?_, fun std std' mem' mem'' rs => h2 std std' mem' mem'' rs⟩
    · unfold staticFile
      rw [List.nil_append, Disk.put_ne _ _ (fun e => ?_)]
      · refine Disk.within_out _ _ fun ⟨t, e⟩ => ?_
        have := congrArg List.head? e
        revert this
        simp [testData, chars]
      · have := congrArg List.head? e
        revert this
        simp [buildDir, chars]
    · intro std mem' rs
      unfold exampleRun
      rw [hb, M.ok_bind]
      unfold serverOf
      rw [Disk.put_same]

/-- **C90**, what the responses are (see C44, also for what is missing): a suggestion for each of the best completions that match. -/
theorem C90_answers_partial {name X : Str} (hn : OneWord name) {L : List (Str × Nat × List Str)} (hp : Pre.parse X = some L) (hv : ValidColl (Pre.collOf L))
    (hw : Suits1 (Pre.collOf L)) (hpc : ∀ l ∈ L, ∀ t ∈ l.2.2, 37 ∉ t) (shuffle : Nat → List Str → List Str) {d : Disk} (hd : d (testData ++ collection name) = some X)
    (std : StdLib) (junk : Nat) (mem mem' : Nat → W) (rs : List (Option Str × Option Str))
    (hrs : ∀ r ∈ rs, IsText (requestedQ r.1) ∧ LastOk (Pre.collOf L) (lastTerm (requestedQ r.1)) ∧
      ∃ k, requestedK r.2 = .ok k ∧ 1 ≤ k ∧ k ≤ MAX_K ∧ ∀ l ∈ L, k * (joined l.2.2).length + 2 * MAX_CHARS ≤ POOL_SIZE) :
    ∃ as, exampleRun std junk mem mem' name rs (install shuffle name d) = .ok as ∧ as.length = rs.length ∧
      ∀ (i : Nat) (r : Option Str × Option Str) (a : Str), rs[i]? = some r → as[i]? = some a →
        ∃ k res, requestedK r.2 = .ok k ∧
          Answer (Pre.collOf L) (ConjMatch (Pre.collOf L) (completeTerms (requestedQ r.1)) (lastTerm (requestedQ r.1))) k res ∧
          (res = [] → Json.decode a = none) ∧ (res ≠ [] → ∃ j, Json.decode a = some j ∧ SuggestionsOf (res.map (·.2)) j) := by
  obtain ⟨T, hT, hh⟩ := installed (shuffle := shuffle) hn hd hp
  obtain ⟨out, file, h1, h2⟩ := C44_server_partial hp hv hw hpc std junk mem mem'
  obtain ⟨as, h3, h4⟩ := h2 rs hrs
  refine ⟨as, ?_, h4⟩
  unfold exampleRun exampleBuild
  rw [goOn_ok hT hh h1, M.ok_bind]
  unfold serverOf
  rw [Disk.put_same]
  exact h3

theorem copied_at (base d : Disk) (p : Str) : copied base d (srcDir ++ p) = d p := by
  unfold copied
  rw [List.take_left, if_pos rfl, List.drop_left]

theorem image_file {junk : Nat} {mem : Nat → W} {name X : Str} {base d : Disk} {T : Texts} (hT : Pre.prepare X = some T) (hh : HasTexts T (testData ++ collection name) d)
    {o file : List Nat} (hb : buildProgram (Index1.build · mem) Index1.printed (fun V => V.index1) junk X = .ok (o, file)) :
    ∃ d', image junk mem name base d = .ok d' ∧ d' (appDir ++ exampleFile) = some file := by
  have hc := hh.mono (dir := srcDir) (d' := copied base d) fun q _ => copied_at base d q
  rw [← List.append_assoc] at hc
  refine ⟨fun q => if q.take srcDir.length = srcDir then none else (copied base d).put (appDir ++ exampleFile) file q, ?_, ?_⟩
  · unfold image
    rw [makeIndex_eq _ _ _ _ hT hc, hb]
    rfl
  · dsimp only
    rw [if_neg (by decide)]
    exact Disk.put_same ..

/-- **C90**. Missing from the claim: the same collections, and the page (`C90_false_page`). The image that is made of such a checkout starts a server with the same responses. -/
theorem C90_image_partial {name X : Str} (hn : OneWord name) {L : List (Str × Nat × List Str)} (hp : Pre.parse X = some L) (hv : ValidColl (Pre.collOf L))
    (hw : Suits1 (Pre.collOf L)) (shuffle : Nat → List Str → List Str) {d : Disk} (hd : d (testData ++ collection name) = some X) (junk : Nat) (mem : Nat → W)
    (base : Disk) :
    ∃ d', image junk mem name base (install shuffle name d) = .ok d' ∧
      ∀ std std' mem₁ mem₂ mem₃ junk' rs, (∀ r ∈ rs, OkRequest r) →
        imageRun std mem₁ rs d' = exampleRun std' junk' mem₂ mem₃ name rs (install shuffle name d) := by
  obtain ⟨out, file, h1, h2, _⟩ := C61_server hp hv hw
  obtain ⟨T, hT, hh⟩ := installed (shuffle := shuffle) hn hd hp
  obtain ⟨d', a, b⟩ := image_file (base := base) hT hh (h1 junk mem)
  refine ⟨d', a, ?_⟩
  intro std std' mem₁ mem₂ mem₃ junk' rs hrs
  unfold imageRun exampleRun exampleBuild
  rw [goOn_ok hT hh (h1 junk' mem₂), M.ok_bind]
  unfold serverOf
  rw [b, Disk.put_same]
  exact h2 std std' mem₁ mem₃ rs hrs

theorem not_prepared {α : Type} {build : Files → M α} {print : α → M (List Nat)} {visit : {σ : Type} → Visitor σ → α → σ → M (α × σ)} {junk : Nat} {coll out : Str}
    {d : Disk} (h : d (coll ++ chars ['.', 'm', 'a', 'p', 'p', 'e', 'd', '.', 's', 't', 'a', 't', 's']) = none) :
    makeIndex build print visit junk coll out d = .error .thrown := by
  unfold makeIndex indexFromDisk
  rw [h]
  rfl

/-- **C90** is false of a checkout as it is, without the files of preprocessing: the image cannot be made. example.sh goes on after the failure, and starts
the server with the index of a former run; without one, the server ends. -/
theorem C90_false_fresh {name : Str} {d : Disk}
    (h : d (testData ++ collection name ++ chars ['.', 'm', 'a', 'p', 'p', 'e', 'd', '.', 's', 't', 'a', 't', 's']) = none) (junk : Nat) (mem : Nat → W) :
    (∀ base, image junk mem name base d = .error .thrown) ∧
    (∀ old, d (buildDir ++ exampleFile) = some old → ∀ std mem' rs, exampleRun std junk mem mem' name rs d = Web.main std mem' old rs) ∧
    (d (buildDir ++ exampleFile) = none → ∀ std mem' rs, exampleRun std junk mem mem' name rs d = .error .thrown) := by
  have hb : exampleBuild junk mem name d = .ok d := by
    unfold exampleBuild goOn
    rw [not_prepared h]
  refine ⟨fun base => ?_, ?_, ?_⟩
  · unfold image
    rw [not_prepared]
    · rfl
    · rw [List.append_assoc, List.append_assoc, copied_at base d, ← List.append_assoc]
      exact h
  · intro old ho std mem' rs
    unfold exampleRun
    rw [hb, M.ok_bind]
    unfold serverOf
    rw [ho]
  · intro ho std mem' rs
    unfold exampleRun
    rw [hb, M.ok_bind]
    unfold serverOf
    rw [ho]

/-- **C90** is false of the page in the image: the server looks for the files of the page in the directory `/web`, and in the image there are only the ones that the
base image has there, whatever is in the checkout. -/
theorem C90_false_page {name : Str} {d base d' : Disk} {junk : Nat} {mem : Nat → W} (h : image junk mem name base d = .ok d') (uri : Str) :
    staticFile (chars ['/']) uri d' = base (chars ['/', 'w', 'e', 'b'] ++ uri) := by
  unfold image makeIndex at h
  obtain ⟨b, hb, h⟩ := bind_ok h
  obtain ⟨x, _, hb⟩ := bind_ok hb
  obtain ⟨o, _, hb⟩ := bind_ok hb
  obtain ⟨f, _, hb⟩ := bind_ok hb
  cases hb
  cases h
  have e : chars ['/'] ++ chars ['w', 'e', 'b'] ++ uri = chars ['/', 'w', 'e', 'b'] ++ uri := rfl
  have h1 : ¬ (chars ['/', 'w', 'e', 'b'] ++ uri).take srcDir.length = srcDir := by
    intro h
    have := congrArg (fun l => l[1]?) h
    revert this
    simp [srcDir, chars]
  unfold staticFile
  rw [e]
  dsimp only
  rw [if_neg h1, Disk.put_ne, copied, if_neg h1]
  intro h
  have := congrArg (fun l => l[1]?) h
  revert this
  simp [appDir, chars]

/-! ## C91 -/

/-- the file `f` is an index of type `i` of the collection, as the programs load it -/
def LoadsAs (std : StdLib) (C : Coll) (i : Nat) (f : List Nat) : Prop :=
  (i = 1 → ∀ mem, ∃ x, load (fun V => V.index1) (Index1.blank mem) f = .ok x ∧ Suits1 C ∧ Index1.build (Pre.run C) mem = .ok x) ∧
  (i = 2 → ∀ mem, ∃ x, load (fun V => V.index2) (Index2.blank mem) f = .ok x ∧ Suits2 C ∧ Index2.build (Pre.run C) mem = .ok x) ∧
  (i = 3 → ∀ mem, ∃ x, load (fun V => V.index3) (Index3.blank mem) f = .ok x ∧ Suits3 C ∧ Index3.build (Pre.run C) mem = .ok x) ∧
  (i = 4 → ∃ m B, IsBlocks C m B ∧ ∀ mem, ∃ x, load (fun V => V.index4) (Index4.blank mem) f = .ok x ∧ Suits4 C ∧ Index4.build std m (Pre.run C) mem = .ok x ∧
    ∀ q, IsText q → ∃ S, Result4 C B (completeTerms q) (lastTerm q) S ∧ ∀ k, 1 ≤ k → k ≤ MAX_K →
      ∀ s : Scratch, s.WF → Shows (Pre.run C).terms (S.take k) (x.conjTopk std q k s))

theorem LoadsAs.type1 {std : StdLib} {C : Coll} {f : List Nat} (h : LoadsAs std C 1 f) (mem : Nat → W) :
    ∃ x, load (fun V => V.index1) (Index1.blank mem) f = .ok x ∧ IsIndex C x.ask := by
  obtain ⟨x, a, b, c⟩ := h.1 rfl mem
  exact ⟨x, a, .type1 b c⟩

theorem LoadsAs.type2 {std : StdLib} {C : Coll} {f : List Nat} (h : LoadsAs std C 2 f) (mem : Nat → W) :
    ∃ x, load (fun V => V.index2) (Index2.blank mem) f = .ok x ∧ IsIndex C x.ask := by
  obtain ⟨x, a, b, c⟩ := h.2.1 rfl mem
  exact ⟨x, a, .type2 b c⟩

theorem LoadsAs.type3 {std : StdLib} {C : Coll} {f : List Nat} (h : LoadsAs std C 3 f) (mem : Nat → W) :
    ∃ x, load (fun V => V.index3) (Index3.blank mem) f = .ok x ∧ IsIndex C x.ask := by
  obtain ⟨x, a, b, c⟩ := h.2.2.1 rfl mem
  exact ⟨x, a, .type3 b c⟩

theorem cArg_pos : 0 < cArg ∧ cArg ≤ 2 ^ 149 := by
  unfold cArg
  decide +kernel

theorem file4 {X : Str} {L : List (Str × Nat × List Str)} (hp : Pre.parse X = some L) (hv : ValidColl (Pre.collOf L)) (hw : Suits4 (Pre.collOf L)) (std : StdLib) :
    ∃ out file, (∀ junk mem, buildProgram (Index4.buildC std cArg · mem) Index4.printed (fun V => V.index4) junk X = .ok (out, file)) ∧
      LoadsAs std (Pre.collOf L) 4 file := by
  obtain ⟨out, file, h, _⟩ := C61_build4 hp hv hw std cArg_pos.1 cArg_pos.2
  have h := h std
  refine ⟨out, file, h, ⟨fun h => absurd h (by decide), fun h => absurd h (by decide), fun h => absurd h (by decide), fun _ => ?_⟩⟩
  obtain ⟨m, hm⟩ := blockSize_ok (u := (Pre.run (Pre.collOf L)).univ) cArg_pos.1 cArg_pos.2
  obtain ⟨x0, B, h0, hB, _⟩ := C06_exact std hv hw m (fun _ => 0)
  refine ⟨m, B, hB, fun mem => ?_⟩
  obtain ⟨x, a, b⟩ := loaded4 hp hv hm (h 0 mem) mem
  refine ⟨x, a, hw, b, fun q hq => ?_⟩
  obtain ⟨y, B', c1, hB', c2⟩ := C06_exact std hv hw m mem
  rw [b] at c1
  cases c1
  obtain ⟨S, s1, s2⟩ := c2 q hq
  rw [C06_blocks_unique hB hB']
  exact ⟨S, s1, s2 q hq rfl (fun _ => Iff.rfl)⟩

theorem file1 {X : Str} {L : List (Str × Nat × List Str)} (hp : Pre.parse X = some L) (hv : ValidColl (Pre.collOf L)) (hw : Suits1 (Pre.collOf L)) (std : StdLib) :
    ∃ out file, (∀ junk mem, buildProgram (Index1.build · mem) Index1.printed (fun V => V.index1) junk X = .ok (out, file)) ∧
      LoadsAs std (Pre.collOf L) 1 file := by
  obtain ⟨out, file, h, _⟩ := C61_build1 hp hv hw
  refine ⟨out, file, h, fun _ mem => ?_, fun h => absurd h (by decide), fun h => absurd h (by decide), fun h => absurd h (by decide)⟩
  obtain ⟨x, a, b⟩ := loaded1 hp hv (h 0 mem) mem
  exact ⟨x, a, hw, b⟩

theorem file2 {X : Str} {L : List (Str × Nat × List Str)} (hp : Pre.parse X = some L) (hv : ValidColl (Pre.collOf L)) (hw : Suits2 (Pre.collOf L)) (std : StdLib) :
    ∃ out file, (∀ junk mem, buildProgram (Index2.build · mem) Index2.printed (fun V => V.index2) junk X = .ok (out, file)) ∧
      LoadsAs std (Pre.collOf L) 2 file := by
  obtain ⟨out, file, h, _⟩ := C61_build2 hp hv hw
  refine ⟨out, file, h, fun h => absurd h (by decide), fun _ mem => ?_, fun h => absurd h (by decide), fun h => absurd h (by decide)⟩
  obtain ⟨x, a, b⟩ := loaded2 hp hv (h 0 mem) mem
  exact ⟨x, a, hw, b⟩

theorem file3 {X : Str} {L : List (Str × Nat × List Str)} (hp : Pre.parse X = some L) (hv : ValidColl (Pre.collOf L)) (hw : Suits3 (Pre.collOf L)) (std : StdLib) :
    ∃ out file, (∀ junk mem, buildProgram (Index3.build · mem) Index3.printed (fun V => V.index3) junk X = .ok (out, file)) ∧
      LoadsAs std (Pre.collOf L) 3 file := by
  obtain ⟨out, file, h, _⟩ := C61_build3 hp hv hw
  refine ⟨out, file, h, fun h => absurd h (by decide), fun h => absurd h (by decide), fun _ mem => ?_, fun h => absurd h (by decide)⟩
  obtain ⟨x, a, b⟩ := loaded3 hp hv (h 0 mem) mem
  exact ⟨x, a, hw, b⟩

theorem index_not_text (i : Nat) (name : Str) : indexFile i name ∉ textPaths (testData ++ collection name) := build_not_text _ _

/-- **C91**. Missing from the claim: collections that one of the types cannot be built from (`C91_false`), and numbers of terms or completions that are multiples of 17. The script
script/build_indexes.py, run after the preprocessing, whatever files there are, also those of former
runs, makes four files. Each depends on the text of the data set alone (that of type 4 also on the standard library) and is loaded as the index of its type. No other file
changes, and when the script is run again, nothing changes. -/
theorem C91_files_partial {name X : Str} (hn : OneWord name) {L : List (Str × Nat × List Str)} (hp : Pre.parse X = some L) (hv : ValidColl (Pre.collOf L))
    (hw2 : Suits2 (Pre.collOf L)) (hw4 : Suits4 (Pre.collOf L)) (std : StdLib) :
    ∃ f : Nat → List Nat, (∀ i, 1 ≤ i → i ≤ 4 → LoadsAs std (Pre.collOf L) i (f i)) ∧
      ∀ (shuffle : Nat → List Str → List Str) (d : Disk), d (testData ++ collection name) = some X → ∀ (junk : Nat → Nat) (mem : Nat → Nat → W),
        ∃ d', buildIndexes std junk mem name (install shuffle name d) = .ok d' ∧ (∀ i, 1 ≤ i → i ≤ 4 → d' (indexFile i name) = some (f i)) ∧
          (∀ q, (∀ i, 1 ≤ i → i ≤ 4 → q ≠ indexFile i name) → d' q = install shuffle name d q) ∧
          ∀ junk' mem', buildIndexes std junk' mem' name d' = .ok d' := by
  obtain ⟨o1, f1, b1, l1⟩ := file1 hp hv hw2.toSuits1 std
  obtain ⟨o2, f2, b2, l2⟩ := file2 hp hv hw2 std
  obtain ⟨o3, f3, b3, l3⟩ := file3 hp hv hw4.toSuits3 std
  obtain ⟨o4, f4, b4, l4⟩ := file4 hp hv hw4 std
  refine ⟨fun i => if i = 1 then f1 else if i = 2 then f2 else if i = 3 then f3 else f4, ?_, ?_⟩
  · intro i h1 h4
    have : i = 1 ∨ i = 2 ∨ i = 3 ∨ i = 4 := by omega
    rcases this with rfl | rfl | rfl | rfl
    · exact l1
    · exact l2
    · exact l3
    · exact l4
  · intro shuffle d hd junk mem
    obtain ⟨T, hT, hh⟩ := installed (shuffle := shuffle) hn hd hp
    have run : ∀ (d : Disk), HasTexts T (testData ++ collection name) d → ∀ junk mem, buildIndexes std junk mem name d =
        .ok ((((d.put (indexFile 1 name) f1).put (indexFile 2 name) f2).put (indexFile 3 name) f3).put (indexFile 4 name) f4) := by
      intro d hh junk mem
      have h1 := hh.put (file := f1) (index_not_text 1 name)
      have h2 := h1.put (file := f2) (index_not_text 2 name)
      have h3 := h2.put (file := f3) (index_not_text 3 name)
      unfold buildIndexes
      dsimp only
      rw [goOn_ok hT hh (b1 (junk 1) (mem 1)), M.ok_bind, goOn_ok hT h1 (b2 (junk 2) (mem 2)), M.ok_bind, goOn_ok hT h2 (b3 (junk 3) (mem 3)), M.ok_bind,
        goOn_ok hT h3 (b4 (junk 4) (mem 4))]
    have hh' := (((hh.put (file := f1) (index_not_text 1 name)).put (file := f2) (index_not_text 2 name)).put (file := f3) (index_not_text 3 name)).put
      (file := f4) (index_not_text 4 name)
    refine ⟨_, run _ hh junk mem, ?_, ?_, ?_⟩
    · intro i h1 h4
      have : i = 1 ∨ i = 2 ∨ i = 3 ∨ i = 4 := by omega
      rcases this with rfl | rfl | rfl | rfl
      · rw [Disk.put_ne _ _ (indexFile_ne (by decide) (by decide) (by decide) name), Disk.put_ne _ _ (indexFile_ne (by decide) (by decide) (by decide) name),
          Disk.put_ne _ _ (indexFile_ne (by decide) (by decide) (by decide) name), Disk.put_same]
        rfl
      · rw [Disk.put_ne _ _ (indexFile_ne (by decide) (by decide) (by decide) name), Disk.put_ne _ _ (indexFile_ne (by decide) (by decide) (by decide) name),
          Disk.put_same]
        rfl
      · rw [Disk.put_ne _ _ (indexFile_ne (by decide) (by decide) (by decide) name), Disk.put_same]
        rfl
      · rw [Disk.put_same]
        rfl
    · intro q hq
      rw [Disk.put_ne _ _ (hq 4 (by decide) (by decide)), Disk.put_ne _ _ (hq 3 (by decide) (by decide)), Disk.put_ne _ _ (hq 2 (by decide) (by decide)),
        Disk.put_ne _ _ (hq 1 (by decide) (by decide))]
    · intro junk' mem'
      rw [run _ hh' junk' mem']
      congr 1
      rw [put_id (f := f1), put_id (f := f2), put_id (f := f3), put_id (f := f4)]
      · rw [Disk.put_same]
      · rw [Disk.put_ne _ _ (indexFile_ne (by decide) (by decide) (by decide) name), Disk.put_same]
      · rw [Disk.put_ne _ _ (indexFile_ne (by decide) (by decide) (by decide) name), Disk.put_ne _ _ (indexFile_ne (by decide) (by decide) (by decide) name),
          Disk.put_same]
      · rw [Disk.put_ne _ _ (indexFile_ne (by decide) (by decide) (by decide) name), Disk.put_ne _ _ (indexFile_ne (by decide) (by decide) (by decide) name),
          Disk.put_ne _ _ (indexFile_ne (by decide) (by decide) (by decide) name), Disk.put_same]

/-- **C91** is false when the completion with document id 0 contains all the terms: types 1 and 2 cannot be built (C42), the script goes on, and beside the new files of types 3
and 4 those of types 1 and 2 of a former run stay, of whatever collection they are. -/
theorem C91_false {name X : Str} (hn : OneWord name) {L : List (Str × Nat × List Str)} (hp : Pre.parse X = some L) (hv : ValidColl (Pre.collOf L))
    (hw4 : Suits4 (Pre.collOf L)) {c : List Str} (hc : (0, c) ∈ Pre.collOf L) (hall : ∀ r ∈ Pre.collOf L, ∀ t ∈ r.2, t ∈ c) (std : StdLib)
    (shuffle : Nat → List Str → List Str) {d : Disk} (hd : d (testData ++ collection name) = some X) (junk : Nat → Nat) (mem : Nat → Nat → W) :
    ∃ d' f3 f4, buildIndexes std junk mem name (install shuffle name d) = .ok d' ∧
      d' (indexFile 1 name) = d (indexFile 1 name) ∧ d' (indexFile 2 name) = d (indexFile 2 name) ∧
      d' (indexFile 3 name) = some f3 ∧ LoadsAs std (Pre.collOf L) 3 f3 ∧ d' (indexFile 4 name) = some f4 ∧ LoadsAs std (Pre.collOf L) 4 f4 := by
  obtain ⟨o3, f3, b3, l3⟩ := file3 hp hv hw4.toSuits3 std
  obtain ⟨o4, f4, b4, l4⟩ := file4 hp hv hw4 std
  obtain ⟨T, hT, hh⟩ := installed (shuffle := shuffle) hn hd hp
  have h3 := hh.put (file := f3) (index_not_text 3 name)
  have out : ∀ i, install shuffle name d (indexFile i name) = d (indexFile i name) := by
    intro i
    refine Disk.within_out _ _ fun ⟨t, e⟩ => ?_
    have := congrArg List.head? e
    revert this
    simp [testData, indexFile, buildDir, chars]
  refine ⟨((install shuffle name d).put (indexFile 3 name) f3).put (indexFile 4 name) f4, f3, f4, ?_, ?_, ?_, ?_, l3, Disk.put_same .., l4⟩
  · unfold buildIndexes
    dsimp only
    rw [goOn_thrown hT hh (thrown_program _ _ _ hp hv ((C42_false hv (mem 1) (c := c)).1 hc hall).1), M.ok_bind,
      goOn_thrown hT hh (thrown_program _ _ _ hp hv ((C42_false hv (mem 2) (c := c)).1 hc hall).2), M.ok_bind,
      goOn_ok hT hh (b3 (junk 3) (mem 3)), M.ok_bind, goOn_ok hT h3 (b4 (junk 4) (mem 4))]
  · rw [Disk.put_ne _ _ (indexFile_ne (by decide) (by decide) (by decide) name), Disk.put_ne _ _ (indexFile_ne (by decide) (by decide) (by decide) name), out]
  · rw [Disk.put_ne _ _ (indexFile_ne (by decide) (by decide) (by decide) name), Disk.put_ne _ _ (indexFile_ne (by decide) (by decide) (by decide) name), out]
  · rw [Disk.put_ne _ _ (indexFile_ne (by decide) (by decide) (by decide) name), Disk.put_same]

/-! ## Examples -/

/-- a checkout with the sample as the data set "c", a page, an index file of a former run of example.sh, and index files of former runs of script/build_indexes.py -/
def checkout (X : Str) : Disk := fun q =>
  if q = testData ++ collection [99] then some X
  else if q = chars ['w', 'e', 'b', '/', 'p'] then some [60]
  else if q = buildDir ++ exampleFile then some [1, 2]
  else if q = indexFile 1 [99] then some [3]
  else none

theorem oneC : OneWord [99] := by unfold OneWord; decide

theorem sampleValid : ValidColl (Pre.collOf sampleLines) := by rw [sampleText_coll]; exact sampleColl_valid

theorem sampleSuits : Suits2 (Pre.collOf sampleLines) ∧ Suits4 (Pre.collOf sampleLines) := by rw [sampleText_coll]; exact ⟨sampleColl_suits, sampleColl_suits4⟩

/-- "b", and two results for "c" -/
def twoRequests : List (Option Str × Option Str) := [(some [98], none), (some [99], some [50])]

theorem twoRequests_ok : ∀ r ∈ twoRequests, OkRequest r := by
  intro r hr
  simp only [twoRequests, List.mem_cons, List.not_mem_nil, or_false] at hr
  rcases hr with rfl | rfl
  · refine ⟨by decide, fun k hk => ?_⟩
    cases (show requestedK none = .ok 10 from rfl).symm.trans hk
    decide
  · refine ⟨by decide, fun k hk => ?_⟩
    cases (show requestedK (some [50]) = .ok 2 by decide +kernel).symm.trans hk
    decide

/-- the sample: the page is served, the old index file is replaced, and the image gives the same responses -/
example (shuffle : Nat → List Str → List Str) (junk : Nat) (mem : Nat → W) (base : Disk) :
    (∃ d' file, exampleBuild junk mem [99] (install shuffle [99] (checkout sampleText)) = .ok d' ∧ d' (buildDir ++ exampleFile) = some file ∧
      (∃ x, load (fun V => V.index1) (Index1.blank mem) file = .ok x ∧ IsIndex sampleColl x.ask) ∧ staticFile [] [47, 112] d' = some [60]) ∧
    ∃ d', image junk mem [99] base (install shuffle [99] (checkout sampleText)) = .ok d' ∧
      ∀ std std' mem₁ mem₂ mem₃ junk', imageRun std mem₁ twoRequests d' =
        exampleRun std' junk' mem₂ mem₃ [99] twoRequests (install shuffle [99] (checkout sampleText)) := by
  constructor
  · obtain ⟨file, h1, h2⟩ := C90_example_partial oneC sampleText_parse sampleValid sampleSuits.1.toSuits1
    obtain ⟨⟨d', a, b, _, c⟩, _⟩ := h2 shuffle (checkout sampleText) rfl junk mem
    refine ⟨d', file, a, b, ?_, (c _).trans rfl⟩
    rw [← sampleText_coll]
    exact h1 mem
  · obtain ⟨d', a, b⟩ := C90_image_partial oneC sampleText_parse sampleValid sampleSuits.1.toSuits1 shuffle (d := checkout sampleText) rfl junk mem base
    exact ⟨d', a, fun std std' mem₁ mem₂ mem₃ junk' => b std std' mem₁ mem₂ mem₃ junk' _ twoRequests_ok⟩

/-- the sample, with `C90_answers_partial` -/
example (shuffle : Nat → List Str → List Str) (std : StdLib) (junk : Nat) (mem mem' : Nat → W) :
    ∃ as, exampleRun std junk mem mem' [99] twoRequests (install shuffle [99] (checkout sampleText)) = .ok as ∧ as.length = 2 := by
  obtain ⟨as, h3, h4, _⟩ := C90_answers_partial oneC sampleText_parse sampleValid sampleSuits.1.toSuits1 (by decide) shuffle (d := checkout sampleText) rfl std junk mem mem'
    twoRequests (by
      rw [sampleText_coll]
      intro r hr
      simp only [twoRequests, List.mem_cons, List.not_mem_nil, or_false] at hr
      rcases hr with rfl | rfl
      · exact ⟨by decide, lastOk_of sampleColl_valid (by decide +kernel), 10, rfl, by decide, by decide, by decide⟩
      · exact ⟨by decide, lastOk_of sampleColl_valid (by decide +kernel), 2, by decide +kernel, by decide, by decide, by decide⟩)
  exact ⟨as, h3, h4⟩

/-- the checkout without preprocessing: the image is not made, and example.sh serves the old file -/
example (junk : Nat) (mem : Nat → W) (base : Disk) (std : StdLib) (mem' : Nat → W) (rs : List (Option Str × Option Str)) :
    image junk mem [99] base (checkout sampleText) = .error .thrown ∧
      exampleRun std junk mem mem' [99] rs (checkout sampleText) = Web.main std mem' [1, 2] rs := by
  obtain ⟨a, b, _⟩ := C90_false_fresh (name := [99]) (d := checkout sampleText) (by decide) junk mem
  exact ⟨a base, b [1, 2] (by decide) std mem' rs⟩

/-- the page of the checkout is not in the image -/
example (shuffle : Nat → List Str → List Str) (junk : Nat) (mem : Nat → W) :
    ∃ d', image junk mem [99] (fun _ => none) (install shuffle [99] (checkout sampleText)) = .ok d' ∧ staticFile (chars ['/']) [47, 112] d' = none := by
  obtain ⟨d', a, _⟩ := C90_image_partial oneC sampleText_parse sampleValid sampleSuits.1.toSuits1 shuffle (d := checkout sampleText) rfl junk mem (fun _ => none)
  exact ⟨d', a, C90_false_page a _⟩

/-- the four files of the sample -/
example (std : StdLib) (shuffle : Nat → List Str → List Str) (junk : Nat → Nat) (mem : Nat → Nat → W) :
    ∃ (f : Nat → List Nat) (d' : Disk), buildIndexes std junk mem [99] (install shuffle [99] (checkout sampleText)) = .ok d' ∧
      ∀ i, 1 ≤ i → i ≤ 4 → d' (indexFile i [99]) = some (f i) ∧ LoadsAs std sampleColl i (f i) := by
  obtain ⟨f, h1, h2⟩ := C91_files_partial oneC sampleText_parse sampleValid sampleSuits.1 sampleSuits.2 std
  obtain ⟨d', a, b, _⟩ := h2 shuffle (checkout sampleText) rfl junk mem
  refine ⟨f, d', a, fun i h h' => ⟨b i h h', ?_⟩⟩
  rw [← sampleText_coll]
  exact h1 i h h'

/-- "1 a" and "0 b a" -/
def coveredText : Str := [49, 32, 97, 10, 48, 32, 98, 32, 97, 10]

/-- the second completion has document id 0 and all the terms: the old file of type 1 stays -/
example (std : StdLib) (shuffle : Nat → List Str → List Str) (junk : Nat → Nat) (mem : Nat → Nat → W) :
    ∃ d' f, buildIndexes std junk mem [99] (install shuffle [99] (checkout coveredText)) = .ok d' ∧ d' (indexFile 1 [99]) = some [3] ∧
      d' (indexFile 3 [99]) = some f ∧ LoadsAs std [(1, [[97]]), (0, [[98], [97]])] 3 f := by
  have hp : Pre.parse coveredText = some [([49], 1, [[97]]), ([48], 0, [[98], [97]])] := by decide +kernel
  have hc : Pre.collOf [([49], 1, [[97]]), ([48], 0, [[98], [97]])] = [(1, [[97]]), (0, [[98], [97]])] := by decide +kernel
  have hv : ValidColl [(1, [[97]]), (0, [[98], [97]])] :=
    ⟨by decide, by decide, by decide, by decide, by decide, by decide, by decide, by decide, by decide, by decide⟩
  have hw : Suits4 [(1, [[97]]), (0, [[98], [97]])] :=
    { terms := ⟨_, hv.ready.numTerms, by decide +kernel⟩
      count := by decide
      doc0 := ⟨(1, [[97]]), by decide, by decide⟩
      ids := by decide }
  rw [← hc] at hv hw
  obtain ⟨d', f3, f4, a, b, _, c, e, _⟩ := C91_false oneC hp hv hw (c := [[98], [97]]) (by decide) (by decide) std shuffle (d := checkout coveredText) rfl junk mem
  rw [hc] at e
  exact ⟨d', f3, a, b.trans (by decide), c, e⟩

end AC.Props
