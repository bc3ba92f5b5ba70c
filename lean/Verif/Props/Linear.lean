import Verif.Proofs.FileLinear
import Verif.Props.Sizes
import Verif.Props.Build
import Verif.Props.Type4
/-!
# C100: the size of an index is linear in the collection
-/
namespace AC.Props
open AC Spec

section
variable {C : Coll} (hC : ValidColl C) {mem : Nat → W} {D : Nat} (hd : ∀ r ∈ C, r.1 < D)
include hC hd

/-- **C100**, type 1: the file has at most 177 bytes for every term, 4 for every letter and 9 for every document id up to the largest; and at least one bit for each of these ids. -/
theorem C100_type1 {x : Index1} (h : Index1.build (Pre.run C) mem = .ok x) :
    ∃ file, save (fun V => V.index1) x = .ok file ∧ file.length ≤ linearSize C D ∧ ∀ r ∈ C, r.1 < 8 * file.length := by
  obtain ⟨file, h1, h2⟩ := C60_file1 h
  have := Index1.build_lower hC.ready h h2
  exact ⟨file, h1, Index1.build_linear hC.ready hd h h2, fun r hr => by have := hC.ready.files.lt_univ r hr; omega⟩

/-- **C100**, type 2 -/
theorem C100_type2 {x : Index2} (h : Index2.build (Pre.run C) mem = .ok x) :
    ∃ file, save (fun V => V.index2) x = .ok file ∧ file.length ≤ linearSize C D ∧ ∀ r ∈ C, r.1 < 8 * file.length := by
  obtain ⟨file, h1, h2⟩ := C60_file2 x
  obtain ⟨h3, h4⟩ := Index2.build_linear hC.ready hd h
  exact ⟨file, h1, by omega, fun r hr => by have := hC.ready.files.lt_univ r hr; omega⟩

/-- **C100**, type 3 -/
theorem C100_type3 {x : Index3} (h : Index3.build (Pre.run C) mem = .ok x) :
    ∃ file, save (fun V => V.index3) x = .ok file ∧ file.length ≤ linearSize C D ∧ ∀ r ∈ C, r.1 < 8 * file.length := by
  obtain ⟨file, h1, h2⟩ := C60_file3 x
  obtain ⟨h3, h4⟩ := Index3.build_linear hC.ready hd h
  exact ⟨file, h1, by omega, fun r hr => by have := hC.ready.files.lt_univ r hr; omega⟩

/-- **C100**, type 4, for every block size -/
theorem C100_type4 {std : StdLib} {m : Nat} {x : Index4} (h : Index4.build std m (Pre.run C) mem = .ok x) :
    ∃ file, save (fun V => V.index4) x = .ok file ∧ file.length ≤ linearSize C D ∧ ∀ r ∈ C, r.1 < 8 * file.length := by
  obtain ⟨file, h1, h2⟩ := C60_file4 x
  obtain ⟨h3, h4⟩ := Index4.build_linear hC.ready hd h
  exact ⟨file, h1, by omega, fun r hr => by have := hC.ready.files.lt_univ r hr; omega⟩

end

/-- one completion of one letter -/
def loneColl (d : Nat) : Coll := [(d, [[97]])]

theorem loneColl_valid {d : Nat} (h : d < 2 ^ 32 - 1) : ValidColl (loneColl d) :=
  ⟨by simp [loneColl], by simp [loneColl], by simp [loneColl], by simp [loneColl], by simp [loneColl, IsText, space], by simp [loneColl], by simp [loneColl],
    by simpa [loneColl] using h, by simp [loneColl], by simp [loneColl]⟩

/-- **C100**: the document ids cannot be left out of the bound. For every document id (but 0), the collection of one completion of one letter with this id makes indexes of all types that
have a bit for each number up to the id, up to half a gigabyte. -/
theorem C100_gaps {d : Nat} (h0 : d ≠ 0) (h : d < 2 ^ 32 - 1) (std : StdLib) (m : Nat) (mem : Nat → W) :
    wordCount (loneColl d) = 1 ∧ letterCount (loneColl d) = 1 ∧
    (∃ x file, Index1.build (Pre.run (loneColl d)) mem = .ok x ∧ save (fun V => V.index1) x = .ok file ∧ d < 8 * file.length) ∧
    (∃ x file, Index2.build (Pre.run (loneColl d)) mem = .ok x ∧ save (fun V => V.index2) x = .ok file ∧ d < 8 * file.length) ∧
    (∃ x file, Index3.build (Pre.run (loneColl d)) mem = .ok x ∧ save (fun V => V.index3) x = .ok file ∧ d < 8 * file.length) ∧
    ∃ x file, Index4.build std m (Pre.run (loneColl d)) mem = .ok x ∧ save (fun V => V.index4) x = .ok file ∧ d < 8 * file.length := by
  have hC := loneColl_valid h
  have hm : (d, [[97]]) ∈ loneColl d := List.mem_cons_self ..
  have hd : ∀ r ∈ loneColl d, r.1 < d + 1 := by simp [loneColl]
  have hk : ∃ r ∈ (loneColl d).take (kept (loneColl d).length), r.1 ≠ 0 := ⟨(d, [[97]]), List.mem_cons_self .., h0⟩
  obtain ⟨⟨x1, b1⟩, ⟨x2, b2⟩, ⟨x3, b3⟩⟩ := C42_build_partial hC hk ⟨[97], ⟨_, hm, by simp⟩, fun c hc => by
    simp only [loneColl, List.mem_cons, List.not_mem_nil, or_false, Prod.mk.injEq] at hc
    exact absurd hc.1.symm h0⟩ mem
  obtain ⟨f1, s1, _, l1⟩ := C100_type1 hC hd b1
  obtain ⟨f2, s2, _, l2⟩ := C100_type2 hC hd b2
  obtain ⟨f3, s3, _, l3⟩ := C100_type3 hC hd b3
  have b4 : ∃ x, Index4.build std m (Pre.run (loneColl d)) mem = .ok x := by
    rcases C42_type4 hC std m mem with h | h
    · exact h.1
    · exact absurd hk h.2
  obtain ⟨x4, b4⟩ := b4
  obtain ⟨f4, s4, _, l4⟩ := C100_type4 hC hd b4
  exact ⟨rfl, rfl, ⟨x1, f1, b1, s1, l1 _ hm⟩, ⟨x2, f2, b2, s2, l2 _ hm⟩, ⟨x3, f3, b3, s3, l3 _ hm⟩, ⟨x4, f4, b4, s4, l4 _ hm⟩⟩

/-- The sample collection meets the conditions: its document ids are below 8. -/
example : ∃ x file, Index1.build (Pre.run sampleColl) (fun _ => 0) = .ok x ∧ save (fun V => V.index1) x = .ok file ∧ file.length ≤ linearSize sampleColl 8 ∧
    wordCount sampleColl ≠ 0 ∧ linearSize sampleColl 8 < 70000 := by
  obtain ⟨⟨x, h⟩, _⟩ := C42_build_partial sampleColl_valid ⟨(4, [[97, 98], [98]]), by decide, by decide⟩ sampleColl_suits.doc0 (fun _ => 0)
  obtain ⟨file, h1, h2, _⟩ := C100_type1 sampleColl_valid (D := 8) (by decide) h
  exact ⟨x, file, h, h1, h2, by decide, by decide⟩

/-- With the largest document id, an index of one letter takes more than 536 million bytes. -/
example (std : StdLib) (mem : Nat → W) : ∃ x file, Index3.build (Pre.run (loneColl 4294967294)) mem = .ok x ∧ save (fun V => V.index3) x = .ok file ∧ 536870911 < file.length := by
  obtain ⟨_, _, _, _, ⟨x, file, h1, h2, h3⟩, _⟩ := C100_gaps (d := 4294967294) (by decide) (by decide) std 0 mem
  exact ⟨x, file, h1, h2, by omega⟩

end AC.Props
