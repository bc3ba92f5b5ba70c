import Verif.Proofs.Fingerprint
import Verif.Props.Saved
import Verif.Props.Letters
import Verif.Props.Multiple17
/-!
# C102: different collections have different index files
-/
namespace AC.Props
open AC Spec

section
variable {C D : Coll} (hC : ValidColl C) (hD : ValidColl D) {mem mem' : Nat → W} {file : List Nat}
include hC hD

/-- **C102**, type 1: two indexes that are saved as the same bytes are of the same collection, with the same document ids, whatever was in memory. Missing from the claim: a number of
terms that is a multiple of 17 (`C102_false`). -/
theorem C102_type1_partial (hw : Suits1 C) (hw' : Suits1 D) {x x' : Index1} (hb : Index1.build (Pre.run C) mem = .ok x) (hb' : Index1.build (Pre.run D) mem' = .ok x')
    (h : save (fun V => V.index1) x = .ok file) (h' : save (fun V => V.index1) x' = .ok file) : C = D := by
  obtain ⟨_, y, a1, a2, a3, _⟩ := C45_saved1 hC hb mem
  obtain ⟨_, y', b1, b2, b3, _⟩ := C45_saved1 hD hb' mem
  rw [h] at a1
  rw [h'] at b1
  cases a1
  cases b1
  rw [a2] at b2
  cases b2
  exact Index1.determines hC.ready hD.ready (Index1.rep_of_build hC hw a3) (Index1.rep_of_build hD hw' b3)

/-- **C102**, type 2. Missing from the claim: numbers of terms or of completions that are multiples of 17 (`C102_false`). -/
theorem C102_type2_partial (hw : Suits2 C) (hw' : Suits2 D) {x x' : Index2} (hb : Index2.build (Pre.run C) mem = .ok x) (hb' : Index2.build (Pre.run D) mem' = .ok x')
    (h : save (fun V => V.index2) x = .ok file) (h' : save (fun V => V.index2) x' = .ok file) : C = D := by
  obtain ⟨_, y, a1, a2, a3, _⟩ := C45_saved2 hC hb mem
  obtain ⟨_, y', b1, b2, b3, _⟩ := C45_saved2 hD hb' mem
  rw [h] at a1
  rw [h'] at b1
  cases a1
  cases b1
  rw [a2] at b2
  cases b2
  have r := Index2.rep_of_build hC hw a3
  have r' := Index2.rep_of_build hD hw' b3
  exact Base.determines hC.ready hD.ready r.base r'.base r.dict r'.dict

/-- **C102**, type 3. Missing from the claim: numbers of terms or of completions that are multiples of 17 (`C102_false`). -/
theorem C102_type3_partial (hw : Suits3 C) (hw' : Suits3 D) {x x' : Index3} (hb : Index3.build (Pre.run C) mem = .ok x) (hb' : Index3.build (Pre.run D) mem' = .ok x')
    (h : save (fun V => V.index3) x = .ok file) (h' : save (fun V => V.index3) x' = .ok file) : C = D := by
  obtain ⟨_, y, a1, a2, a3, _⟩ := C45_saved3 hC hb mem
  obtain ⟨_, y', b1, b2, b3, _⟩ := C45_saved3 hD hb' mem
  rw [h] at a1
  rw [h'] at b1
  cases a1
  cases b1
  rw [a2] at b2
  cases b2
  have r := Index3.rep_of_build hC hw a3
  have r' := Index3.rep_of_build hD hw' b3
  exact Base.determines hC.ready hD.ready r.base r'.base r.dict r'.dict

/-- **C102**, type 4, also with different block sizes and libraries. Missing from the claim: numbers of terms or of completions that are multiples of 17 (`C102_false`). -/
theorem C102_type4_partial (hw : Suits3 C) (hw' : Suits3 D) {std std' : StdLib} {m m' : Nat} {x x' : Index4} (hb : Index4.build std m (Pre.run C) mem = .ok x)
    (hb' : Index4.build std' m' (Pre.run D) mem' = .ok x') (h : save (fun V => V.index4) x = .ok file) (h' : save (fun V => V.index4) x' = .ok file) : C = D := by
  obtain ⟨_, y, a1, a2, a3, _⟩ := C45_saved4 hC hb mem
  obtain ⟨_, y', b1, b2, b3, _⟩ := C45_saved4 hD hb' mem
  rw [h] at a1
  rw [h'] at b1
  cases a1
  cases b1
  rw [a2] at b2
  cases b2
  obtain ⟨_, r⟩ := Index4.rep_of_build hC hw a3
  obtain ⟨_, r'⟩ := Index4.rep_of_build hD hw' b3
  exact Base.determines hC.ready hD.ready r.base r'.base r.dict r'.dict

end

/-- **C102 is false** when the number of terms is a multiple of 17: the last 16 terms can be replaced by any others in the same order, and the index that is built is the same, for
every type and everything in memory; hence so is the file. -/
theorem C102_false {C : Coll} {n : Nat} (hC : ValidColl C) (hn : NumTerms C n) (h17 : n % 17 = 0) {g : Str → Str} (hg : KeepsOrder C g) (hk : ∀ t, KeptTerm C t → g t = t)
    (mem : Nat → W) : Index1.build (Pre.run (withTerms g C)) mem = Index1.build (Pre.run C) mem ∧ Index2.build (Pre.run (withTerms g C)) mem = Index2.build (Pre.run C) mem ∧
      Index3.build (Pre.run (withTerms g C)) mem = Index3.build (Pre.run C) mem ∧
      ∀ std m, Index4.build std m (Pre.run (withTerms g C)) mem = Index4.build std m (Pre.run C) mem := by
  obtain ⟨e1, S, M, e2, e3⟩ := lost_terms hC hn h17 hg hk
  rw [e2] at e1 ⊢
  have e1' : FcDict.build S = FcDict.build (Pre.run C).terms := e1
  have hb : Base.build { Pre.run C with terms := S, maxLen := M } mem = Base.build (Pre.run C) mem := by
    unfold Base.build
    simp only [e1']
  refine ⟨?_, ?_, ?_, fun std m => ?_⟩
  · unfold Index1.build
    simp only [e1', e3]
  · unfold Index2.build
    simp only [hb]
  · unfold Index3.build
    simp only [hb]
  · unfold Index4.build
    simp only [hb]

/-! ## Examples -/

/-- the sample and the sample with "a" and "c" exchanged have different files, with type 2 -/
example (mem mem' : Nat → W) : ∃ x x' file file', Index2.build (Pre.run sampleColl) mem = .ok x ∧ Index2.build (Pre.run sampleSwapped) mem' = .ok x' ∧
    save (fun V => V.index2) x = .ok file ∧ save (fun V => V.index2) x' = .ok file' ∧ file ≠ file' := by
  obtain ⟨x, hb, _⟩ := Index2.exists sampleColl_valid.ready sampleColl_suits mem
  obtain ⟨x', hb', _⟩ := Index2.exists sampleSwapped_valid.ready sampleSwapped_suits mem'
  obtain ⟨file, _, h, _⟩ := C45_saved2 sampleColl_valid hb mem
  obtain ⟨file', _, h', _⟩ := C45_saved2 sampleSwapped_valid hb' mem
  refine ⟨x, x', file, file', hb, hb', h, h', ?_⟩
  rintro rfl
  exact absurd (C102_type2_partial sampleColl_valid sampleSwapped_valid sampleColl_suits sampleSwapped_suits hb hb' h h') (by decide)

/-- the same with the other types; for type 4 with different block sizes -/
example (std : StdLib) (mem mem' : Nat → W) : (∃ x x' file file', Index1.build (Pre.run sampleColl) mem = .ok x ∧ Index1.build (Pre.run sampleSwapped) mem' = .ok x' ∧
    save (fun V => V.index1) x = .ok file ∧ save (fun V => V.index1) x' = .ok file' ∧ file ≠ file') ∧
    (∃ x x' file file', Index3.build (Pre.run sampleColl) mem = .ok x ∧ Index3.build (Pre.run sampleSwapped) mem' = .ok x' ∧
      save (fun V => V.index3) x = .ok file ∧ save (fun V => V.index3) x' = .ok file' ∧ file ≠ file') ∧
    ∃ x x' file file', Index4.build std 2 (Pre.run sampleColl) mem = .ok x ∧ Index4.build std 3 (Pre.run sampleSwapped) mem' = .ok x' ∧
      save (fun V => V.index4) x = .ok file ∧ save (fun V => V.index4) x' = .ok file' ∧ file ≠ file' := by
  refine ⟨?_, ?_, ?_⟩
  · obtain ⟨x, hb, _⟩ := Index1.exists sampleColl_valid.ready sampleColl_suits.toSuits1 mem
    obtain ⟨x', hb', _⟩ := Index1.exists sampleSwapped_valid.ready sampleSwapped_suits.toSuits1 mem'
    obtain ⟨file, _, h, _⟩ := C45_saved1 sampleColl_valid hb mem
    obtain ⟨file', _, h', _⟩ := C45_saved1 sampleSwapped_valid hb' mem
    refine ⟨x, x', file, file', hb, hb', h, h', ?_⟩
    rintro rfl
    exact absurd (C102_type1_partial sampleColl_valid sampleSwapped_valid sampleColl_suits.toSuits1 sampleSwapped_suits.toSuits1 hb hb' h h') (by decide)
  · obtain ⟨x, hb, _⟩ := Index3.exists sampleColl_valid.ready sampleColl_suits.to3 mem
    obtain ⟨x', hb', _⟩ := Index3.exists sampleSwapped_valid.ready sampleSwapped_suits.to3 mem'
    obtain ⟨file, _, h, _⟩ := C45_saved3 sampleColl_valid hb mem
    obtain ⟨file', _, h', _⟩ := C45_saved3 sampleSwapped_valid hb' mem
    refine ⟨x, x', file, file', hb, hb', h, h', ?_⟩
    rintro rfl
    exact absurd (C102_type3_partial sampleColl_valid sampleSwapped_valid sampleColl_suits.to3 sampleSwapped_suits.to3 hb hb' h h') (by decide)
  · obtain ⟨x, _, hb, _⟩ := Index4.exists sampleColl_valid.ready sampleColl_suits.to3 std 2 mem
    obtain ⟨x', _, hb', _⟩ := Index4.exists sampleSwapped_valid.ready sampleSwapped_suits.to3 std 3 mem'
    obtain ⟨file, _, h, _⟩ := C45_saved4 sampleColl_valid hb mem
    obtain ⟨file', _, h', _⟩ := C45_saved4 sampleSwapped_valid hb' mem
    refine ⟨x, x', file, file', hb, hb', h, h', ?_⟩
    rintro rfl
    exact absurd (C102_type4_partial sampleColl_valid sampleSwapped_valid sampleColl_suits.to3 sampleSwapped_suits.to3 hb hb' h h') (by decide)

/-- "bz" in place of "bh" -/
def lastToZ (t : Str) : Str := if t = [98, 104] then [98, 122] else t

/-- a collection of 34 terms and the one with "bz" in place of the last term "bh": both are valid, they are different, and their indexes of type 1 are built and have the same file -/
example (mem mem' : Nat → W) : ValidColl coll34 ∧ ValidColl (withTerms lastToZ coll34) ∧ coll34 ≠ withTerms lastToZ coll34 ∧ ∃ x x' file, Index1.build (Pre.run coll34) mem = .ok x ∧
    Index1.build (Pre.run (withTerms lastToZ coll34)) mem' = .ok x' ∧ save (fun V => V.index1) x = .ok file ∧ save (fun V => V.index1) x' = .ok file := by
  have hr := coll34_valid.ready
  have hlen : (Pre.run coll34).terms.length = 34 := by decide +kernel
  have hlast : (Pre.run coll34).terms[33]'(by decide +kernel) = [98, 104] := by decide +kernel
  have hg : KeepsOrder coll34 lastToZ := by
    intro s t hs ht hlt
    have key : ∀ s ∈ (Pre.run coll34).terms, ∀ t ∈ (Pre.run coll34).terms, s < t → lastToZ s < lastToZ t := by decide +kernel
    exact key s ((hr.isTerm s).mp hs) t ((hr.isTerm t).mp ht) hlt
  have hk : ∀ t, KeptTerm coll34 t → lastToZ t = t := by
    intro t ht
    unfold lastToZ
    rw [if_neg]
    rintro rfl
    apply ht.2
    rw [← hlast]
    exact coll34_lost (by omega) _
  have h17 : (Pre.run coll34).terms.length % 17 = 0 := by rw [hlen]
  obtain ⟨x, hb, _⟩ := Index1.build_lossy hr h17 ⟨(34, [[97, 97]]), by decide, by decide⟩ (hr.minList coll34_suits.doc0) mem
  obtain ⟨file, y, h, _, hy, hy', _⟩ := C45_saved1 coll34_valid hb mem'
  refine ⟨coll34_valid, ⟨by decide, by decide +kernel, by decide +kernel, by decide +kernel, by decide +kernel, by decide +kernel, by decide +kernel, by decide +kernel, by decide +kernel,
    by decide +kernel⟩, by decide +kernel, x, y, file, hb, ?_, h, hy'⟩
  rw [(C102_false coll34_valid hr.numTerms h17 hg hk mem').1]
  exact hy

end AC.Props
