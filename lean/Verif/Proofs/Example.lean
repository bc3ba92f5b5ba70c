import Verif.Model.Example
import Verif.Props.Scripts
import Verif.Props.Deploy
/-!
# The scripts that build the indexes and start the server: how a program finds its files
-/
namespace AC
open Spec Script Props

theorem Disk.within_at (dir : Str) (f : Disk → Disk) (d : Disk) (p : Str) : d.within dir f (dir ++ p) = f (fun p => d (dir ++ p)) p := by
  unfold Disk.within
  rw [List.take_left, if_pos rfl, List.drop_left]

theorem Disk.within_out {dir : Str} (f : Disk → Disk) (d : Disk) {q : Str} (h : ¬ dir <+: q) : d.within dir f q = d q := by
  unfold Disk.within
  refine if_neg fun e => h ?_
  rw [← e]
  exact List.take_prefix ..

theorem Props.HasTexts.mono {T : Texts} {dir name : Str} {d d' : Disk} (h : HasTexts T name d) (hd : ∀ q ∈ textPaths name, d' (dir ++ q) = d q) : HasTexts T (dir ++ name) d' := by
  constructor
  · rw [List.append_assoc, hd _ (by simp [textPaths])]; exact h.dict
  · rw [List.append_assoc, hd _ (by simp [textPaths])]; exact h.mapped
  · rw [List.append_assoc, hd _ (by simp [textPaths])]; exact h.stats
  · rw [List.append_assoc, hd _ (by simp [textPaths])]; exact h.inverted
  · rw [List.append_assoc, hd _ (by simp [textPaths])]; exact h.forward

/-- Another file is written. -/
theorem Props.HasTexts.put {T : Texts} {name o file : Str} {d : Disk} (h : HasTexts T name d) (ho : o ∉ textPaths name) : HasTexts T name (d.put o file) := by
  refine h.mono (dir := []) fun q hq => ?_
  rw [List.nil_append]
  exact Disk.put_ne _ _ fun e => ho (e ▸ hq)

theorem Props.OneWord.collection {name : Str} (h : OneWord name) : OneWord (Script.collection name) := by
  obtain ⟨h0, h1, h2, h3⟩ := h
  have e : Script.collection name = name ++ (chars ['/'] ++ name ++ chars ['.', 'c', 'o', 'm', 'p', 'l', 'e', 't', 'i', 'o', 'n', 's']) := by
    unfold Script.collection; simp only [List.append_assoc]
  rw [e]
  refine ⟨by simp [h0], ?_, ?_, ?_⟩ <;> simp [h1, h2, h3, chars]

theorem installed {shuffle : Nat → List Str → List Str} {name X : Str} (hn : OneWord name) {d : Disk} (h : d (testData ++ collection name) = some X)
    {L : List (Str × Nat × List Str)} (hp : Pre.parse X = some L) :
    ∃ T, Pre.prepare X = some T ∧ HasTexts T (testData ++ collection name) (install shuffle name d) := by
  obtain ⟨T, hT, h1, _⟩ := C87_files_partial shuffle 300 hn.collection (d := fun p => d (testData ++ p)) h hp
  exact ⟨T, hT, h1.mono fun q _ => Disk.within_at ..⟩

/-- The program `build` on the disk is that on the text. -/
theorem makeIndex_eq {α : Type} (build : Files → M α) (print : α → M (List Nat)) (visit : {σ : Type} → Visitor σ → α → σ → M (α × σ)) (junk : Nat)
    {coll out X : Str} {d : Disk} {T : Texts} (hT : Pre.prepare X = some T) (h : HasTexts T coll d) :
    makeIndex build print visit junk coll out d = (do
      let r ← buildProgram build print visit junk X
      .ok (d.put out r.2)) := by
  unfold makeIndex
  rw [index_of_has build junk h, ← hT, buildProgram_eq]
  change (indexOf build junk X >>= _) = _
  cases indexOf build junk X with
  | error e => rfl
  | ok x =>
      rw [M.ok_bind, M.ok_bind]
      cases print x with
      | error e => rfl
      | ok o =>
          rw [M.ok_bind, M.ok_bind]
          cases save visit x <;> rfl

theorem goOn_ok {α : Type} {build : Files → M α} {print : α → M (List Nat)} {visit : {σ : Type} → Visitor σ → α → σ → M (α × σ)} {junk : Nat}
    {coll out X : Str} {d : Disk} {T : Texts} (hT : Pre.prepare X = some T) (h : HasTexts T coll d) {o file : List Nat}
    (hb : buildProgram build print visit junk X = .ok (o, file)) :
    goOn (makeIndex build print visit junk coll out) d = .ok (d.put out file) := by
  unfold goOn
  rw [makeIndex_eq build print visit junk hT h, hb]
  rfl

theorem goOn_thrown {α : Type} {build : Files → M α} {print : α → M (List Nat)} {visit : {σ : Type} → Visitor σ → α → σ → M (α × σ)} {junk : Nat}
    {coll out X : Str} {d : Disk} {T : Texts} (hT : Pre.prepare X = some T) (h : HasTexts T coll d)
    (hb : buildProgram build print visit junk X = .error .thrown) :
    goOn (makeIndex build print visit junk coll out) d = .ok d := by
  unfold goOn
  rw [makeIndex_eq build print visit junk hT h, hb]
  rfl

theorem build_not_text (name s : Str) : buildDir ++ s ∉ textPaths (testData ++ name) := by
  intro h
  obtain ⟨t, _, h⟩ := List.mem_map.mp h
  rw [List.append_assoc] at h
  have := congrArg List.head? h
  revert this
  simp [buildDir, testData, chars]

theorem thrown_program {α : Type} {build : Files → M α} (print : α → M (List Nat)) (visit : {σ : Type} → Visitor σ → α → σ → M (α × σ)) (junk : Nat)
    {X : Str} {L : List (Str × Nat × List Str)} (hp : Pre.parse X = some L) (hv : ValidColl (Pre.collOf L)) (hb : build (Pre.run (Pre.collOf L)) = .error .thrown) :
    buildProgram build print visit junk X = .error .thrown := by
  rw [buildProgram_eq, C48_index _ hp hv, hb]
  rfl

theorem indexFile_ne {i j : Nat} (hi : i < 10) (hj : j < 10) (h : i ≠ j) (name : Str) : indexFile i name ≠ indexFile j name := by
  intro e
  unfold indexFile at e
  have e := List.append_cancel_left e
  simp only [List.append_assoc] at e
  have e := List.append_cancel_left e
  have hd : ∀ i, i < 10 → Pre.dec i = [48 + i] := by decide
  rw [hd i hi, hd j hj] at e
  have := congrArg List.head? e
  simp at this
  omega

end AC
