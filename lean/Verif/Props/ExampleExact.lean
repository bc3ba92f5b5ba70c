import Verif.Props.Example
import Verif.Proofs.StdLib
/-!
# C90 and C91 for every valid collection
-/
namespace AC.Props
open AC Spec Script Web

/-- an index of type `i` can be built from the collection, see C42 -/
def CanBuild (C : Coll) (i : Nat) : Prop :=
  (i = 1 ∨ i = 2 → ∃ t, IsTerm C t ∧ ∀ c, (0, c) ∈ C → t ∉ c) ∧ (i = 2 ∨ i = 3 ∨ i = 4 → ∃ r ∈ C.take (kept C.length), r.1 ≠ 0)

/-- the file `f` is loaded as the index of type `i` that is built from the collection -/
def IsFileOf (std : StdLib) (C : Coll) (i : Nat) (f : List Nat) : Prop :=
  (i = 1 → ∀ mem, ∃ x, load (fun V => V.index1) (Index1.blank mem) f = .ok x ∧ Index1.build (Pre.run C) mem = .ok x) ∧
  (i = 2 → ∀ mem, ∃ x, load (fun V => V.index2) (Index2.blank mem) f = .ok x ∧ Index2.build (Pre.run C) mem = .ok x) ∧
  (i = 3 → ∀ mem, ∃ x, load (fun V => V.index3) (Index3.blank mem) f = .ok x ∧ Index3.build (Pre.run C) mem = .ok x) ∧
  (i = 4 → ∃ m, blockSize (Pre.run C).univ cArg = .ok m ∧
    ∀ mem, ∃ x, load (fun V => V.index4) (Index4.blank mem) f = .ok x ∧ Index4.build std m (Pre.run C) mem = .ok x)

section
variable {X : Str} {L : List (Str × Nat × List Str)} (hp : Pre.parse X = some L) (hv : ValidColl (Pre.collOf L))
include hp hv

/-- what the program `build` does for type 1: one file, or an exception -/
theorem outcome1 (std : StdLib) : ∃ out file, (CanBuild (Pre.collOf L) 1 → IsFileOf std (Pre.collOf L) 1 file) ∧ ∀ junk mem,
    (CanBuild (Pre.collOf L) 1 → buildProgram (Index1.build · mem) Index1.printed (fun V => V.index1) junk X = .ok (out, file)) ∧
    (¬ CanBuild (Pre.collOf L) 1 → buildProgram (Index1.build · mem) Index1.printed (fun V => V.index1) junk X = .error .thrown) := by
  by_cases h : ∃ t, IsTerm (Pre.collOf L) t ∧ ∀ c, (0, c) ∈ Pre.collOf L → t ∉ c
  · have hc : CanBuild (Pre.collOf L) 1 := ⟨fun _ => h, fun h => absurd h (by decide)⟩
    have hb : ∀ mem, ∃ x, Index1.build (Pre.run (Pre.collOf L)) mem = .ok x := by
      intro mem
      rcases (C42_exact hv mem).1 with h' | h'
      · exact h'.1
      · exact absurd h h'.2
    obtain ⟨out, file, h1, _⟩ := programs (build := fun mem F => Index1.build F mem) (print := Index1.printed) (visit := fun V => V.index1) (blank := Index1.blank) hp hv hb (by
      intro mem mem' x y hx hy
      obtain ⟨file, z, h1, h2, h3, h4, _⟩ := C45_saved1 hv hx mem'
      obtain ⟨out, ho⟩ := Index1.printed_ok hx
      have e := (Index1.build_put (mem' := mem') hx).1
      rw [hy] at e h3
      cases h3
      refine ⟨out, file, ho, ?_, h1, h4, h2⟩
      rw [← ho]
      cases e
      rfl)
    exact ⟨out, file, fun _ => ⟨fun _ mem => loaded1 hp hv (h1 0 mem) mem, fun h => absurd h (by decide), fun h => absurd h (by decide), fun h => absurd h (by decide)⟩,
      fun junk mem => ⟨fun _ => h1 junk mem, fun h => absurd hc h⟩⟩
  · have hc : ¬ CanBuild (Pre.collOf L) 1 := fun hc => h (hc.1 (Or.inl rfl))
    refine ⟨[], [], fun h => absurd h hc, fun junk mem => ⟨fun h => absurd h hc, fun _ => thrown_program _ _ _ hp hv ?_⟩⟩
    rcases (C42_exact hv mem).1 with h' | h'
    · exact absurd h'.2 h
    · exact h'.1

/-- the same for type 2 -/
theorem outcome2 (std : StdLib) : ∃ out file, (CanBuild (Pre.collOf L) 2 → IsFileOf std (Pre.collOf L) 2 file) ∧ ∀ junk mem,
    (CanBuild (Pre.collOf L) 2 → buildProgram (Index2.build · mem) Index2.printed (fun V => V.index2) junk X = .ok (out, file)) ∧
    (¬ CanBuild (Pre.collOf L) 2 → buildProgram (Index2.build · mem) Index2.printed (fun V => V.index2) junk X = .error .thrown) := by
  by_cases h : (∃ r ∈ (Pre.collOf L).take (kept (Pre.collOf L).length), r.1 ≠ 0) ∧ ∃ t, IsTerm (Pre.collOf L) t ∧ ∀ c, (0, c) ∈ Pre.collOf L → t ∉ c
  · have hc : CanBuild (Pre.collOf L) 2 := ⟨fun _ => h.2, fun _ => h.1⟩
    have hb : ∀ mem, ∃ x, Index2.build (Pre.run (Pre.collOf L)) mem = .ok x := by
      intro mem
      rcases (C42_exact hv mem).2.1 with h' | h'
      · exact h'.1
      · exact absurd h h'.2
    obtain ⟨out, file, h1, _⟩ := programs (build := fun mem F => Index2.build F mem) (print := Index2.printed) (visit := fun V => V.index2) (blank := Index2.blank) hp hv hb (by
      intro mem mem' x y hx hy
      obtain ⟨file, z, h1, h2, h3, h4, _⟩ := C45_saved2 hv hx mem'
      have e := Index2.build_put (mem' := mem') hx
      rw [hy] at e h3
      cases h3
      refine ⟨_, file, rfl, ?_, h1, h4, h2⟩
      cases e
      rfl)
    exact ⟨out, file, fun _ => ⟨fun h => absurd h (by decide), fun _ mem => loaded2 hp hv (h1 0 mem) mem, fun h => absurd h (by decide), fun h => absurd h (by decide)⟩,
      fun junk mem => ⟨fun _ => h1 junk mem, fun h => absurd hc h⟩⟩
  · have hc : ¬ CanBuild (Pre.collOf L) 2 := fun hc => h ⟨hc.2 (Or.inl rfl), hc.1 (Or.inr rfl)⟩
    refine ⟨[], [], fun h => absurd h hc, fun junk mem => ⟨fun h => absurd h hc, fun _ => thrown_program _ _ _ hp hv ?_⟩⟩
    rcases (C42_exact hv mem).2.1 with h' | h'
    · exact absurd h'.2 h
    · exact h'.1

/-- the same for type 3 -/
theorem outcome3 (std : StdLib) : ∃ out file, (CanBuild (Pre.collOf L) 3 → IsFileOf std (Pre.collOf L) 3 file) ∧ ∀ junk mem,
    (CanBuild (Pre.collOf L) 3 → buildProgram (Index3.build · mem) Index3.printed (fun V => V.index3) junk X = .ok (out, file)) ∧
    (¬ CanBuild (Pre.collOf L) 3 → buildProgram (Index3.build · mem) Index3.printed (fun V => V.index3) junk X = .error .thrown) := by
  by_cases h : ∃ r ∈ (Pre.collOf L).take (kept (Pre.collOf L).length), r.1 ≠ 0
  · have hc : CanBuild (Pre.collOf L) 3 := ⟨fun h => absurd h (by decide), fun _ => h⟩
    have hb : ∀ mem, ∃ x, Index3.build (Pre.run (Pre.collOf L)) mem = .ok x := by
      intro mem
      rcases (C42_exact hv mem).2.2 with h' | h'
      · exact h'.1
      · exact absurd h h'.2
    obtain ⟨out, file, h1, _⟩ := programs (build := fun mem F => Index3.build F mem) (print := Index3.printed) (visit := fun V => V.index3) (blank := Index3.blank) hp hv hb (by
      intro mem mem' x y hx hy
      obtain ⟨file, z, h1, h2, h3, h4, _⟩ := C45_saved3 hv hx mem'
      have e := Index3.build_put (mem' := mem') hx
      rw [hy] at e h3
      cases h3
      refine ⟨_, file, rfl, ?_, h1, h4, h2⟩
      cases e
      rfl)
    exact ⟨out, file, fun _ => ⟨fun h => absurd h (by decide), fun h => absurd h (by decide), fun _ mem => loaded3 hp hv (h1 0 mem) mem, fun h => absurd h (by decide)⟩,
      fun junk mem => ⟨fun _ => h1 junk mem, fun h => absurd hc h⟩⟩
  · have hc : ¬ CanBuild (Pre.collOf L) 3 := fun hc => h (hc.2 (Or.inr (Or.inl rfl)))
    refine ⟨[], [], fun h => absurd h hc, fun junk mem => ⟨fun h => absurd h hc, fun _ => thrown_program _ _ _ hp hv ?_⟩⟩
    rcases (C42_exact hv mem).2.2 with h' | h'
    · exact absurd h'.2 h
    · exact h'.1

/-- the same for type 4 -/
theorem outcome4 (std : StdLib) : ∃ out file, (CanBuild (Pre.collOf L) 4 → IsFileOf std (Pre.collOf L) 4 file) ∧ ∀ junk mem,
    (CanBuild (Pre.collOf L) 4 → buildProgram (Index4.buildC std cArg · mem) Index4.printed (fun V => V.index4) junk X = .ok (out, file)) ∧
    (¬ CanBuild (Pre.collOf L) 4 → buildProgram (Index4.buildC std cArg · mem) Index4.printed (fun V => V.index4) junk X = .error .thrown) := by
  obtain ⟨m, hm⟩ := blockSize_ok (u := (Pre.run (Pre.collOf L)).univ) cArg_pos.1 cArg_pos.2
  have hbuild : ∀ mem, Index4.buildC std cArg (Pre.run (Pre.collOf L)) mem = Index4.build std m (Pre.run (Pre.collOf L)) mem := by
    intro mem
    unfold Index4.buildC
    rw [hm, M.ok_bind]
  by_cases h : ∃ r ∈ (Pre.collOf L).take (kept (Pre.collOf L).length), r.1 ≠ 0
  · have hc : CanBuild (Pre.collOf L) 4 := ⟨fun h => absurd h (by decide), fun _ => h⟩
    have hb : ∀ mem, ∃ x, Index4.buildC std cArg (Pre.run (Pre.collOf L)) mem = .ok x := by
      intro mem
      rw [hbuild]
      rcases C42_type4 hv std m mem with h' | h'
      · exact h'.1
      · exact absurd h h'.2
    obtain ⟨out, file, h1, _⟩ := programs (build := fun mem F => Index4.buildC std cArg F mem) (print := Index4.printed) (visit := fun V => V.index4) (blank := Index4.blank) hp hv hb (by
      intro mem mem' x y hx hy
      have hx := (hbuild mem).symm.trans hx
      have hy := (hbuild mem').symm.trans hy
      obtain ⟨file, z, h1, h2, h3, h4, _⟩ := C45_saved4 hv hx mem'
      have e := Index4.build_put (mem' := mem') hx
      rw [hy] at e h3
      cases h3
      refine ⟨_, file, rfl, ?_, h1, h4, h2⟩
      cases e
      rfl)
    exact ⟨out, file, fun _ => ⟨fun h => absurd h (by decide), fun h => absurd h (by decide), fun h => absurd h (by decide),
      fun _ => ⟨m, hm, fun mem => loaded4 hp hv hm (h1 0 mem) mem⟩⟩, fun junk mem => ⟨fun _ => h1 junk mem, fun h => absurd hc h⟩⟩
  · have hc : ¬ CanBuild (Pre.collOf L) 4 := fun hc => h (hc.2 (Or.inr (Or.inr rfl)))
    refine ⟨[], [], fun h => absurd h hc, fun junk mem => ⟨fun h => absurd h hc, fun _ => thrown_program _ _ _ hp hv ?_⟩⟩
    rw [hbuild]
    rcases C42_type4 hv std m mem with h' | h'
    · exact absurd h'.2 h
    · exact h'.1

end

/-- One of the programs of the script: the file is written, or stays as it is. -/
theorem goOn_step {α : Type} {build : Files → M α} {print : α → M (List Nat)} {visit : {σ : Type} → Visitor σ → α → σ → M (α × σ)} {junk : Nat} {c : Prop}
    {coll out X : Str} {d : Disk} {T : Texts} (hT : Pre.prepare X = some T) (h : HasTexts T coll d) (ho : out ∉ textPaths coll) {o file : List Nat}
    (hb : (c → buildProgram build print visit junk X = .ok (o, file)) ∧ (¬ c → buildProgram build print visit junk X = .error .thrown)) :
    ∃ d', goOn (makeIndex build print visit junk coll out) d = .ok d' ∧ HasTexts T coll d' ∧ (c → d' out = some file) ∧ (¬ c → d' out = d out) ∧
      ∀ q, q ≠ out → d' q = d q := by
  by_cases hc : c
  · exact ⟨_, goOn_ok hT h (hb.1 hc), h.put ho, fun _ => Disk.put_same .., fun h => absurd hc h, fun q hq => Disk.put_ne _ _ hq⟩
  · exact ⟨_, goOn_thrown hT h (hb.2 hc), h, fun h => absurd h hc, fun _ => rfl, fun _ _ => rfl⟩

theorem build_not_installed (shuffle : Nat → List Str → List Str) (name s : Str) (d : Disk) : install shuffle name d (buildDir ++ s) = d (buildDir ++ s) := by
  refine Disk.within_out _ _ fun ⟨t, e⟩ => ?_
  have := congrArg List.head? e
  revert this
  simp [testData, buildDir, chars]

/-- **C91**, the exact effect for every valid collection: the file of each type that can be built (C42) is the index of its type, that of each other type is the one that was there before
(or none), no other file changes, and when the script is run again, nothing changes. -/
theorem C91_exact {name X : Str} (hn : OneWord name) {L : List (Str × Nat × List Str)} (hp : Pre.parse X = some L) (hv : ValidColl (Pre.collOf L)) (std : StdLib) :
    ∃ f : Nat → List Nat, (∀ i, 1 ≤ i → i ≤ 4 → CanBuild (Pre.collOf L) i → IsFileOf std (Pre.collOf L) i (f i)) ∧
      ∀ (shuffle : Nat → List Str → List Str) (d : Disk), d (testData ++ collection name) = some X → ∀ (junk : Nat → Nat) (mem : Nat → Nat → W),
        ∃ d', buildIndexes std junk mem name (install shuffle name d) = .ok d' ∧
          (∀ i, 1 ≤ i → i ≤ 4 → (CanBuild (Pre.collOf L) i → d' (indexFile i name) = some (f i)) ∧
            (¬ CanBuild (Pre.collOf L) i → d' (indexFile i name) = d (indexFile i name))) ∧
          (∀ q, (∀ i, 1 ≤ i → i ≤ 4 → q ≠ indexFile i name) → d' q = install shuffle name d q) ∧
          ∀ junk' mem', buildIndexes std junk' mem' name d' = .ok d' := by
  obtain ⟨o1, f1, l1, b1⟩ := outcome1 hp hv std
  obtain ⟨o2, f2, l2, b2⟩ := outcome2 hp hv std
  obtain ⟨o3, f3, l3, b3⟩ := outcome3 hp hv std
  obtain ⟨o4, f4, l4, b4⟩ := outcome4 hp hv std
  have four : ∀ {p : Nat → Prop}, p 1 → p 2 → p 3 → p 4 → ∀ i, 1 ≤ i → i ≤ 4 → p i := by
    intro p h1 h2 h3 h4 i a b
    have : i = 1 ∨ i = 2 ∨ i = 3 ∨ i = 4 := by omega
    rcases this with rfl | rfl | rfl | rfl <;> assumption
  refine ⟨fun i => if i = 1 then f1 else if i = 2 then f2 else if i = 3 then f3 else f4, four l1 l2 l3 l4, ?_⟩
  intro shuffle d hd junk mem
  obtain ⟨T, hT, hh⟩ := installed (shuffle := shuffle) hn hd hp
  have ne : ∀ {i j : Nat}, i < 10 → j < 10 → i ≠ j → indexFile i name ≠ indexFile j name := fun hi hj h => indexFile_ne hi hj h name
  have run : ∀ (d : Disk), HasTexts T (testData ++ collection name) d → ∀ junk mem, ∃ d', buildIndexes std junk mem name d = .ok d' ∧
      HasTexts T (testData ++ collection name) d' ∧
      (∀ i, 1 ≤ i → i ≤ 4 → (CanBuild (Pre.collOf L) i → d' (indexFile i name) = some (if i = 1 then f1 else if i = 2 then f2 else if i = 3 then f3 else f4)) ∧
        (¬ CanBuild (Pre.collOf L) i → d' (indexFile i name) = d (indexFile i name))) ∧
      ∀ q, (∀ i, 1 ≤ i → i ≤ 4 → q ≠ indexFile i name) → d' q = d q := by
    intro d hh junk mem
    obtain ⟨d1, e1, t1, p1, n1, k1⟩ := goOn_step hT hh (index_not_text 1 name) (b1 (junk 1) (mem 1))
    obtain ⟨d2, e2, t2, p2, n2, k2⟩ := goOn_step hT t1 (index_not_text 2 name) (b2 (junk 2) (mem 2))
    obtain ⟨d3, e3, t3, p3, n3, k3⟩ := goOn_step hT t2 (index_not_text 3 name) (b3 (junk 3) (mem 3))
    obtain ⟨d4, e4, t4, p4, n4, k4⟩ := goOn_step hT t3 (index_not_text 4 name) (b4 (junk 4) (mem 4))
    refine ⟨d4, ?_, t4, four ⟨fun h => ?_, fun h => ?_⟩ ⟨fun h => ?_, fun h => ?_⟩ ⟨fun h => ?_, fun h => ?_⟩ ⟨fun h => ?_, fun h => ?_⟩, ?_⟩
    · unfold buildIndexes
      dsimp only
      rw [e1, M.ok_bind, e2, M.ok_bind, e3, M.ok_bind, e4]
    · rw [k4 _ (ne (by decide) (by decide) (by decide)), k3 _ (ne (by decide) (by decide) (by decide)), k2 _ (ne (by decide) (by decide) (by decide))]
      exact p1 h
    · rw [k4 _ (ne (by decide) (by decide) (by decide)), k3 _ (ne (by decide) (by decide) (by decide)), k2 _ (ne (by decide) (by decide) (by decide))]
      exact n1 h
    · rw [k4 _ (ne (by decide) (by decide) (by decide)), k3 _ (ne (by decide) (by decide) (by decide))]
      exact p2 h
    · rw [k4 _ (ne (by decide) (by decide) (by decide)), k3 _ (ne (by decide) (by decide) (by decide)), n2 h, k1 _ (ne (by decide) (by decide) (by decide))]
    · rw [k4 _ (ne (by decide) (by decide) (by decide))]
      exact p3 h
    · rw [k4 _ (ne (by decide) (by decide) (by decide)), n3 h, k2 _ (ne (by decide) (by decide) (by decide)), k1 _ (ne (by decide) (by decide) (by decide))]
    · exact p4 h
    · rw [n4 h, k3 _ (ne (by decide) (by decide) (by decide)), k2 _ (ne (by decide) (by decide) (by decide)), k1 _ (ne (by decide) (by decide) (by decide))]
    · intro q hq
      rw [k4 q (hq 4 (by decide) (by decide)), k3 q (hq 3 (by decide) (by decide)), k2 q (hq 2 (by decide) (by decide)), k1 q (hq 1 (by decide) (by decide))]
  obtain ⟨d', r1, r2, r3, r4⟩ := run _ hh junk mem
  refine ⟨d', r1, ?_, r4, ?_⟩
  · intro i h1 h4
    refine ⟨(r3 i h1 h4).1, fun h => ((r3 i h1 h4).2 h).trans ?_⟩
    exact build_not_installed ..
  · intro junk' mem'
    obtain ⟨d'', s1, _, s3, s4⟩ := run d' r2 junk' mem'
    rw [s1]
    congr 1
    funext q
    by_cases hq : ∃ i, 1 ≤ i ∧ i ≤ 4 ∧ q = indexFile i name
    · obtain ⟨i, h1, h4, rfl⟩ := hq
      by_cases hc : CanBuild (Pre.collOf L) i
      · rw [(s3 i h1 h4).1 hc, (r3 i h1 h4).1 hc]
      · exact (s3 i h1 h4).2 hc
    · exact s4 q fun i h1 h4 e => hq ⟨i, h1, h4, e⟩

/-- the names that the script gives to the files -/
theorem C91_names {i : Nat} (h : i < 10) (name : Str) :
    indexFile i name = [98, 117, 105, 108, 100, 47, 101, 102, 95, 116, 121, 112, 101] ++ [48 + i, 46] ++ name ++ [46, 98, 105, 110] := by
  have hd : Pre.dec i = [48 + i] := by
    have : i = 0 ∨ i = 1 ∨ i = 2 ∨ i = 3 ∨ i = 4 ∨ i = 5 ∨ i = 6 ∨ i = 7 ∨ i = 8 ∨ i = 9 := by omega
    rcases this with rfl | rfl | rfl | rfl | rfl | rfl | rfl | rfl | rfl | rfl <;> rfl
  unfold indexFile
  rw [hd]
  simp [buildDir, chars]

/-- **C91**: the index files of one data set are not those of another, the script leaves those of all other data sets as they are. -/
theorem C91_apart {name X : Str} (hn : OneWord name) {L : List (Str × Nat × List Str)} (hp : Pre.parse X = some L) (hv : ValidColl (Pre.collOf L)) (std : StdLib)
    (shuffle : Nat → List Str → List Str) {d d' : Disk} (hd : d (testData ++ collection name) = some X) {junk : Nat → Nat} {mem : Nat → Nat → W}
    (h : buildIndexes std junk mem name (install shuffle name d) = .ok d') {name' : Str} (hne : name' ≠ name) {i : Nat} (h1 : 1 ≤ i) (h4 : i ≤ 4) :
    d' (indexFile i name') = d (indexFile i name') := by
  obtain ⟨f, _, g⟩ := C91_exact hn hp hv std
  obtain ⟨d'', e, _, k, _⟩ := g shuffle d hd junk mem
  rw [h] at e
  cases e
  rw [k _ ?_]
  · exact build_not_installed ..
  · intro j j1 j4 e
    rw [C91_names (by omega), C91_names (by omega)] at e
    have e := (List.append_inj' e rfl).1
    exact hne ((List.append_inj e (by simp)).2)

theorem image_thrown {junk : Nat} {mem : Nat → W} {name X : Str} {T : Texts} {d base : Disk} (hT : Pre.prepare X = some T)
    (h : HasTexts T (testData ++ collection name) d)
    (hb : buildProgram (Index1.build · mem) Index1.printed (fun V => V.index1) junk X = .error .thrown) : image junk mem name base d = .error .thrown := by
  have hc := h.mono (dir := srcDir) (d' := copied base d) fun q _ => copied_at base d q
  rw [← List.append_assoc] at hc
  unfold image
  rw [makeIndex_eq _ _ _ _ hT hc, hb]
  rfl

/-- **C90**, the exact effect for every valid collection: when an index of type 1 can be built (C42), example.sh and the image serve the index of the collection, otherwise the
image cannot be made, and example.sh starts the server with the file that was there before (without one, the server ends). -/
theorem C90_exact {name X : Str} (hn : OneWord name) {L : List (Str × Nat × List Str)} (hp : Pre.parse X = some L) (hv : ValidColl (Pre.collOf L)) :
    ∃ file : List Nat, ((∃ t, IsTerm (Pre.collOf L) t ∧ ∀ c, (0, c) ∈ Pre.collOf L → t ∉ c) → ∀ mem, ∃ x,
        load (fun V => V.index1) (Index1.blank mem) file = .ok x ∧ Index1.build (Pre.run (Pre.collOf L)) mem = .ok x) ∧
      ∀ (shuffle : Nat → List Str → List Str) (d : Disk), d (testData ++ collection name) = some X → ∀ std junk mem mem' rs base,
        ((∃ t, IsTerm (Pre.collOf L) t ∧ ∀ c, (0, c) ∈ Pre.collOf L → t ∉ c) →
          exampleRun std junk mem mem' name rs (install shuffle name d) = Web.main std mem' file rs ∧
          ∃ d', image junk mem name base (install shuffle name d) = .ok d' ∧ imageRun std mem' rs d' = Web.main std mem' file rs) ∧
        ((¬ ∃ t, IsTerm (Pre.collOf L) t ∧ ∀ c, (0, c) ∈ Pre.collOf L → t ∉ c) →
          (∀ old, d (buildDir ++ exampleFile) = some old → exampleRun std junk mem mem' name rs (install shuffle name d) = Web.main std mem' old rs) ∧
          (d (buildDir ++ exampleFile) = none → exampleRun std junk mem mem' name rs (install shuffle name d) = .error .thrown) ∧
          image junk mem name base (install shuffle name d) = .error .thrown) := by
  obtain ⟨o1, f1, l1, b1⟩ := outcome1 hp hv StdLib.bySorting
  have can : CanBuild (Pre.collOf L) 1 ↔ ∃ t, IsTerm (Pre.collOf L) t ∧ ∀ c, (0, c) ∈ Pre.collOf L → t ∉ c :=
    ⟨fun h => h.1 (Or.inl rfl), fun h => ⟨fun _ => h, fun h => absurd h (by decide)⟩⟩
  rw [← can]
  refine ⟨f1, fun h => (l1 h).1 rfl, ?_⟩
  intro shuffle d hd std junk mem mem' rs base
  obtain ⟨T, hT, hh⟩ := installed (shuffle := shuffle) hn hd hp
  refine ⟨fun hc => ⟨?_, ?_⟩, fun hc => ?_⟩
  · unfold exampleRun exampleBuild
    rw [goOn_ok hT hh ((b1 junk mem).1 hc), M.ok_bind]
    unfold serverOf
    rw [Disk.put_same]
  · obtain ⟨d', a, b⟩ := image_file (base := base) hT hh ((b1 junk mem).1 hc)
    refine ⟨d', a, ?_⟩
    unfold imageRun serverOf
    rw [b]
  · have hr : exampleRun std junk mem mem' name rs (install shuffle name d) = serverOf std mem' (buildDir ++ exampleFile) rs (install shuffle name d) := by
      unfold exampleRun exampleBuild
      rw [goOn_thrown hT hh ((b1 junk mem).2 hc), M.ok_bind]
    rw [hr]
    unfold serverOf
    rw [build_not_installed]
    refine ⟨fun old ho => by rw [ho], fun ho => by rw [ho], image_thrown hT hh ((b1 junk mem).2 hc)⟩

/-- "1 a" and "0 b a", as a collection -/
theorem covered_parse : Pre.parse coveredText = some [([49], 1, [[97]]), ([48], 0, [[98], [97]])] := by decide +kernel

theorem covered_valid : ValidColl (Pre.collOf [([49], 1, [[97]]), ([48], 0, [[98], [97]])]) := by
  have hc : Pre.collOf [([49], 1, [[97]]), ([48], 0, [[98], [97]])] = [(1, [[97]]), (0, [[98], [97]])] := by decide +kernel
  rw [hc]
  exact ⟨by decide, by decide, by decide, by decide, by decide, by decide, by decide, by decide, by decide, by decide⟩

/-- all its terms are in the completion with document id 0, types 3 and 4 can be built from it and types 1 and 2 cannot -/
theorem covered_can (i : Nat) (h1 : 1 ≤ i) (h4 : i ≤ 4) : CanBuild (Pre.collOf [([49], 1, [[97]]), ([48], 0, [[98], [97]])]) i ↔ 3 ≤ i := by
  have hc : Pre.collOf [([49], 1, [[97]]), ([48], 0, [[98], [97]])] = [(1, [[97]]), (0, [[98], [97]])] := by decide +kernel
  rw [hc]
  constructor
  · intro h
    apply Decidable.byContradiction
    intro hi
    obtain ⟨t, ⟨r, hr, ht⟩, h'⟩ := h.1 (by omega)
    have h' := h' [[98], [97]] (by decide)
    simp only [List.mem_cons, List.not_mem_nil, or_false] at hr
    rcases hr with rfl | rfl
    · simp at ht
      exact h' (by simp [ht])
    · exact h' ht
  · intro h
    exact ⟨fun _ => by omega, fun _ => ⟨(1, [[97]]), by decide, by decide⟩⟩

/-- the script with this collection, in a directory with an old file of type 1, an index of another data set and none of type 3 -/
example (std : StdLib) (shuffle : Nat → List Str → List Str) (junk : Nat → Nat) (mem : Nat → Nat → W) :
    ∃ d' f, buildIndexes std junk mem [99] (install shuffle [99] ((checkout coveredText).put (indexFile 3 [100]) [7])) = .ok d' ∧
      d' (indexFile 1 [99]) = some [3] ∧ d' (indexFile 2 [99]) = none ∧ d' (indexFile 3 [99]) = some f ∧
      IsFileOf std (Pre.collOf [([49], 1, [[97]]), ([48], 0, [[98], [97]])]) 3 f ∧ d' (indexFile 3 [100]) = some [7] := by
  obtain ⟨f, l, h⟩ := C91_exact oneC covered_parse covered_valid std
  have hd : (checkout coveredText).put (indexFile 3 [100]) [7] (testData ++ collection [99]) = some coveredText := by decide
  obtain ⟨d', a, b, _⟩ := h shuffle _ hd junk mem
  have can := covered_can
  exact ⟨d', f 3, a, ((b 1 (by decide) (by decide)).2 (fun h => absurd ((can 1 (by decide) (by decide)).mp h) (by decide))).trans (by decide),
    ((b 2 (by decide) (by decide)).2 (fun h => absurd ((can 2 (by decide) (by decide)).mp h) (by decide))).trans (by decide),
    (b 3 (by decide) (by decide)).1 ((can 3 (by decide) (by decide)).mpr (by decide)), l 3 (by decide) (by decide) ((can 3 (by decide) (by decide)).mpr (by decide)),
    (C91_apart oneC covered_parse covered_valid std shuffle hd a (name' := [100]) (by decide) (by decide) (by decide)).trans (by decide)⟩

/-- example.sh with this collection serves the old file, the image is not made; with the sample both serve its index -/
example (std : StdLib) (shuffle : Nat → List Str → List Str) (junk : Nat) (mem mem' : Nat → W) (rs : List (Option Str × Option Str)) (base : Disk) :
    exampleRun std junk mem mem' [99] rs (install shuffle [99] (checkout coveredText)) = Web.main std mem' [1, 2] rs ∧
    image junk mem [99] base (install shuffle [99] (checkout coveredText)) = .error .thrown ∧
    ∃ file x, load (fun V => V.index1) (Index1.blank mem) file = .ok x ∧ Index1.build (Pre.run (Pre.collOf sampleLines)) mem = .ok x ∧
      exampleRun std junk mem mem' [99] rs (install shuffle [99] (checkout sampleText)) = Web.main std mem' file rs := by
  obtain ⟨_, _, h⟩ := C90_exact oneC covered_parse covered_valid
  obtain ⟨h1, _, h3⟩ := (h shuffle (checkout coveredText) (by decide) std junk mem mem' rs base).2 (fun h =>
    absurd ((covered_can 1 (by decide) (by decide)).mp ⟨fun _ => h, fun h => absurd h (by decide)⟩) (by decide))
  refine ⟨h1 _ (by decide), h3, ?_⟩
  obtain ⟨file, l, h⟩ := C90_exact oneC sampleText_parse sampleValid
  have sampleCan := sampleSuits.1.toSuits1.doc0
  obtain ⟨x, a, b⟩ := l sampleCan mem
  exact ⟨file, x, a, b, ((h shuffle (checkout sampleText) rfl std junk mem mem' rs base).1 sampleCan).1⟩

end AC.Props
