import Verif.Proofs.LossyConj
import Verif.Proofs.Suits
/-!
# The indexes of collections whose number of terms is a multiple of 17
-/
namespace AC
open Spec

section
variable {C : Coll} {F : Files} (h : Ready C F)
include h

theorem Ready.terms_ne0 (h0 : ∃ r ∈ C, r.1 ≠ 0) : F.terms ≠ [] := by
  obtain ⟨r, hr, _⟩ := h0
  have := h.coll.nonempty r hr
  obtain ⟨t, ht⟩ := List.exists_mem_of_ne_nil _ this
  exact List.ne_nil_of_mem (h.mem hr t ht)

theorem Index1.build_lossy (h17 : F.terms.length % 17 = 0) (h0 : ∃ r ∈ C, r.1 ≠ 0)
    (hmin : ∃ l ∈ F.inverted, 0 ∉ l) (mem : Nat → W) : ∃ x, Index1.build F mem = .ok x ∧ x.Rep17 F := by
  obtain ⟨ib, b1, b2, b3⟩ := InvBuilder.build_spec h.invLists
  obtain ⟨ii, b4, b5⟩ := b3 (mem 4)
  obtain ⟨docs, d1, d2⟩ := h.docs_build h0 (mem 0) (mem 1)
  obtain ⟨mn, m1, m2⟩ := h.minimal_build hmin (mem 2) (mem 3)
  obtain ⟨T, t1, t2, _⟩ := Props.C13_trie (F.mapped.map (·.2)) h.validIds h.nonempty_mapped F.levels
    (by
      obtain ⟨r, hr, he⟩ := h.files.levels
      rw [h.snd_mapped]
      exact ⟨_, List.mem_map.mpr ⟨r, hr, rfl⟩, by simpa using he⟩)
    (by
      rw [h.snd_mapped]
      intro c hc
      obtain ⟨r, hr, rfl⟩ := List.mem_map.mp hc
      simpa using h.files.lt_levels r hr)
  obtain ⟨dict, e1, e2⟩ := Lossy.build h.validTerms h17 (h.terms_ne0 h0)
  obtain ⟨fi, f1, f2⟩ := FwdIdx.build_spec h.fwdLists (mem 5)
  refine ⟨⟨T, docs, mn, dict, ii, fi, F.mapped.length⟩, ?_, ⟨t2, d2, m2, e2, e1, b5, f2⟩⟩
  unfold Index1.build
  rw [b1, M.ok_bind, d1, M.ok_bind, b2, m1, M.ok_bind, t1, M.ok_bind, e1, M.ok_bind, b4, M.ok_bind, f1, M.ok_bind]

theorem Base.build_lossy (h17 : F.terms.length % 17 = 0) (hc17 : F.mapped.length % 17 ≠ 0)
    (h0 : ∃ r ∈ C, r.1 ≠ 0) (mem : Nat → W) :
    ∃ x, Base.build F mem = .ok x ∧ x.Rep F.mapped ∧ Lossy x.dict F.terms ∧ FcDict.build F.terms = .ok x.dict := by
  have hn : F.mapped.length < 2 ^ 30 - 1 := by
    have := h.count_le; have := h.coll.size; rw [h.length_mapped]; omega
  have hu : ∀ r ∈ F.mapped, r.1 < F.univ := by
    intro r hr
    have : r.1 ∈ F.mapped.map (·.1) := List.mem_map.mpr ⟨r, hr, rfl⟩
    rw [h.fst_mapped] at this
    obtain ⟨r', hr', he⟩ := List.mem_map.mp this
    rw [← he]; exact h.files.lt_univ r' hr'
  obtain ⟨d, m, i1, i2, i3, i4, i5⟩ := IntDict.build_spec h.validIds hu (by rw [h.fst_mapped]; exact h.coll.docs) hc17
  have hpos : 0 < F.mapped.length := by omega
  have w1 := ceilLog2_pos (F.mapped.length + 1) (by omega)
  have w32 := ceilLog2_le (F.mapped.length + 1) 32 (by omega)
  have wlt := lt_two_pow_ceilLog2 (F.mapped.length + 1) (by omega)
  obtain ⟨cv, c1, c2, _⟩ := CV.build_spec (toWords m) (ceilLog2 (F.mapped.length + 1)) (mem 6) w1 (by omega)
  obtain ⟨docs, d1, d2⟩ := h.docs_build h0 (mem 0) (mem 1)
  obtain ⟨dict, e1, e2⟩ := Lossy.build h.validTerms h17 (h.terms_ne0 h0)
  refine ⟨⟨d, docs, dict, cv⟩, ?_, ⟨i2, d2, ?_⟩, e2, e1⟩
  · unfold Base.build
    rw [i1, M.ok_bind]
    dsimp only
    rw [c1, M.ok_bind, invert_spec i3 (by omega) hu i4 i5, d1, M.ok_bind, e1, M.ok_bind]
  · intro i hi
    have hm := i4 i hi
    obtain ⟨hl, he⟩ := List.getElem?_eq_some_iff.mp hm
    obtain ⟨w, g1, g2⟩ := CV.get_spec c2 (F.mapped[i]).1 (by simpa [toWords] using hl)
    refine ⟨w, g1, ?_⟩
    rw [g2]
    simp only [toWords, List.getElem_map, he, BitVec.toNat_ofNat]
    rw [Nat.mod_eq_of_lt (show i < 2 ^ 64 by omega), Nat.mod_eq_of_lt (by omega)]

theorem Index2.build_lossy (h17 : F.terms.length % 17 = 0) (hc17 : F.mapped.length % 17 ≠ 0)
    (h0 : ∃ r ∈ C, r.1 ≠ 0) (hmin : ∃ l ∈ F.inverted, 0 ∉ l) (mem : Nat → W) : ∃ x, Index2.build F mem = .ok x ∧ x.Rep17 F := by
  obtain ⟨ib, b1, b2, b3⟩ := InvBuilder.build_spec h.invLists
  obtain ⟨ii, b4, b5⟩ := b3 (mem 4)
  obtain ⟨mn, m1, m2⟩ := h.minimal_build hmin (mem 2) (mem 3)
  obtain ⟨x, x1, x2, x3, x4⟩ := Base.build_lossy h h17 hc17 h0 mem
  refine ⟨⟨x, mn, ii⟩, ?_, ⟨x2, x3, x4, m2, b5⟩⟩
  unfold Index2.build
  rw [b1, M.ok_bind, x1, M.ok_bind, b2, m1, M.ok_bind, b4, M.ok_bind]

theorem Index3.build_lossy (h17 : F.terms.length % 17 = 0) (hc17 : F.mapped.length % 17 ≠ 0)
    (h0 : ∃ r ∈ C, r.1 ≠ 0) (mem : Nat → W) : ∃ x, Index3.build F mem = .ok x ∧ x.Rep17 F := by
  obtain ⟨ib, b1, b2, b3⟩ := InvBuilder.build_spec h.invLists
  obtain ⟨ii, b4, b5⟩ := b3 (mem 4)
  obtain ⟨x, x1, x2, x3, x4⟩ := Base.build_lossy h h17 hc17 h0 mem
  refine ⟨⟨x, ii⟩, ?_, ⟨x2, x3, x4, b5⟩⟩
  unfold Index3.build
  rw [b1, M.ok_bind, x1, M.ok_bind, b4, M.ok_bind]

end

end AC
