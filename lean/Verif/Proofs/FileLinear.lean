import Verif.Proofs.FileBound1
import Verif.Spec.Linear
/-!
# The sizes of indexes, in terms of the collection
-/
namespace AC
open Spec

theorem wordCount_eq (C : Coll) : wordCount C = (C.flatMap (·.2)).length := by
  unfold wordCount
  induction C with
  | nil => rfl
  | cons r C ih => rw [List.map_cons, List.sum_cons, ih, List.flatMap_cons, List.length_append]

theorem letterCount_eq (C : Coll) : letterCount C = ((C.flatMap (·.2)).map List.length).sum := by
  unfold letterCount
  induction C with
  | nil => rfl
  | cons r C ih => rw [List.map_cons, List.sum_cons, ih, List.flatMap_cons, List.map_append, List.sum_append]

/-- the pointers of the elements take at least one bit each -/
theorem EF.build_lower {vs : List W} {e : EF} (h : EF.build vs = .ok e) : vs.length ≤ 8 * e.bytes := by
  obtain ⟨hne, hsw⟩ := EF.build_sorted h
  obtain ⟨u, hu⟩ : ∃ u, vs.getLast? = some u := ⟨_, List.getLast?_eq_some_getLast hne⟩
  obtain ⟨h1, h2, h3, h4, h5, h6, h7, h8, h9, _⟩ := EF.build_sizes (EF.pairwise_of_sortedW vs hsw) hu h
  unfold EF.bytes DA.bytes BV.bytes vecBytes
  rw [h4]
  unfold wordsFor
  generalize u.toNat / 2 ^ e.l = q at h3
  omega

namespace Ready
variable {C : Coll} {F : Files} (h : Ready C F)
include h

theorem dict_linear {dict : FC} (e : FcDict.build F.terms = .ok dict) : dict.bytes 4 1 ≤ 3 * wordCount C + 4 * letterCount C + 1200 := by
  have b4 : dict.bytes 4 1 ≤ F.terms.length + max 1 1 * FC.cost F.terms + Elem.byte.cap * Elem.byte.width + 200 := by
    refine FC.build_bound FC.plain_byte (by decide) (by decide) (by decide) e (fun s hs x hx => ?_)
    have := h.validTerms.text s hs x hx
    omega
  have k2 : Elem.byte.cap * Elem.byte.width ≤ 1000 := by decide
  rw [show max 1 1 = 1 from rfl] at b4
  have hs := nodup_subset_sum (fun t : Str => t.length) (nodup_of_strict h.files.terms) (B := C.flatMap (·.2)) (fun t ht => by
    rw [List.mem_flatMap]
    exact (h.files.memTerms t).mp ht)
  have hc : ∀ l : List Str, FC.cost l = 2 * l.length + 4 * (l.map fun t => t.length).sum := by
    intro l
    induction l with
    | nil => simp [FC.cost]
    | cons s l ih =>
        have : FC.cost (s :: l) = (2 + 4 * s.length) + FC.cost l := by simp [FC.cost]
        rw [this, ih, List.map_cons, List.sum_cons, List.length_cons]
        omega
  have ht := h.termCount_le
  rw [hc] at b4
  rw [wordCount_eq, letterCount_eq]
  have e : (C.flatMap (·.2)).map List.length = (C.flatMap (·.2)).map fun t => t.length := rfl
  rw [e]
  omega

theorem univ_le {D : Nat} (hd : ∀ r ∈ C, r.1 < D) : F.univ ≤ D := by
  obtain ⟨r, hr, he⟩ := h.files.univ
  have := hd r hr
  omega

theorem base_linear {mem : Nat → W} {x : Base} (hx : Base.build F mem = .ok x) {D : Nat} (hd : ∀ r ∈ C, r.1 < D) :
    x.completions.bytes 8 4 + x.docs.bytes + x.dict.bytes 4 1 + x.lexids.bytes ≤ 37 * wordCount C + 4 * letterCount C + 8 * D + 3000 := by
  unfold Base.build at hx
  obtain ⟨⟨c, d⟩, e1, hx⟩ := bind_ok hx
  obtain ⟨lex, e2, hx⟩ := bind_ok hx
  obtain ⟨docs, e3, hx⟩ := bind_ok hx
  obtain ⟨dict, e4, hx⟩ := bind_ok hx
  cases hx
  have hu := h.univ_le hd
  have hc := h.cost_ids
  have hn := h.count_le
  have hm := h.length_mapped
  obtain ⟨_, i2⟩ := IntDict.build_fits h.validIds e1
  have b1 : c.bytes 8 4 ≤ (F.mapped.map (·.2)).length + max 4 1 * FC.cost (F.mapped.map (·.2)) + Elem.u32.cap * Elem.u32.width + 200 := by
    unfold IntDict.build at e1
    dsimp only at e1
    obtain ⟨v', _, e1⟩ := bind_ok e1
    obtain ⟨d', e5, e1⟩ := bind_ok e1
    cases e1
    refine FC.build_bound FC.plain_u32 (by decide) (by decide) (by decide) e5 (fun s hs x hx => ?_)
    have := (h.validIds.elems s hs x hx).2
    omega
  have b2 := UL.build_bound e3 (by
    show (invert d F.mapped.length).length < _
    rw [invert, invertLoop_len, List.length_replicate]
    exact h.mapped_lt)
  have b3 := h.dict_linear e4
  have b4 := CV.build_bound e2
  simp only [invert, invertLoop_len, List.length_replicate] at b2
  simp only [toWords, List.length_map] at b4
  rw [List.length_map] at b1
  have k1 : Elem.u32.cap * Elem.u32.width ≤ 1000 := by decide
  simp only [show max 4 1 = 4 from rfl] at b1
  rw [← wordCount_eq] at hn hc
  dsimp only
  omega

/-- the map from the documents takes at least a bit for each document id -/
theorem base_lower {mem : Nat → W} {x : Base} (hx : Base.build F mem = .ok x) : F.univ ≤ 8 * x.lexids.bytes := by
  unfold Base.build at hx
  obtain ⟨⟨c, d⟩, e1, hx⟩ := bind_ok hx
  obtain ⟨lex, e2, hx⟩ := bind_ok hx
  obtain ⟨docs, e3, hx⟩ := bind_ok hx
  obtain ⟨dict, e4, hx⟩ := bind_ok hx
  cases hx
  obtain ⟨_, i2⟩ := IntDict.build_fits h.validIds e1
  have hb := CV.build_bytes e2
  have hm := h.length_mapped
  have hne := List.length_pos_iff.mpr h.coll.ne
  have hw := ceilLog2_pos (F.mapped.length + 1) (by omega)
  simp only [toWords, List.length_map] at hb
  have : d.length * 1 ≤ d.length * ceilLog2 (F.mapped.length + 1) := Nat.mul_le_mul_left _ hw
  dsimp only
  omega

theorem minimal_len {ib : InvBuilder} (hb : InvBuilder.mk' F.univ F.inverted = .ok ib) : ib.minimal.length = F.terms.length := by
  obtain ⟨ib', c1, c2, c3⟩ := InvBuilder.build_spec h.invLists
  rw [hb] at c1
  cases c1
  rw [c2, List.length_map, h.files.numLists]

end Ready

section
variable {C : Coll} {F : Files} (h : Ready C F) {mem : Nat → W} {D : Nat} (hd : ∀ r ∈ C, r.1 < D)
include h

include hd in
theorem Index1.build_linear {x : Index1} (hx : Index1.build F mem = .ok x) {n : Nat} (hn : x.bytes = .ok n) : n ≤ linearSize C D := by
  unfold Index1.build at hx
  obtain ⟨ib, e1, hx⟩ := bind_ok hx
  obtain ⟨docs, e2, hx⟩ := bind_ok hx
  obtain ⟨minimal, e3, hx⟩ := bind_ok hx
  obtain ⟨compl, e4, hx⟩ := bind_ok hx
  obtain ⟨dict, e5, hx⟩ := bind_ok hx
  obtain ⟨inv, e6, hx⟩ := bind_ok hx
  obtain ⟨fwd, e7, hx⟩ := bind_ok hx
  cases hx
  unfold Index1.bytes at hn
  obtain ⟨c, e8, hn⟩ := bind_ok hn
  cases hn
  have hm := h.mapped_lt
  have hml := h.length_mapped
  have hcl := h.count_le
  have htc := h.termCount_le
  have hsz := h.coll.size
  have b1 := Trie.build_bound e4 e8
  have w1 := h.words_succ
  have hlev : F.levels ≤ 64 := by
    obtain ⟨r, hr, he⟩ := h.files.levels
    have := h.coll.short r hr
    omega
  have b2 := UL.build_bound e2 (by rw [List.length_map]; exact hm)
  rw [List.length_map] at b2
  have hl := h.minimal_len e1
  have b3 := UL.build_bound e3 (by omega)
  have b4 := h.dict_linear e5
  have b5 := InvIdx.build_bound h.invLists e1 e6
  have hp := h.postings_le
  have b6 := FwdIdx.build_bound e7
  have hfl := h.univ_le hd
  rw [← h.files.numDocs] at hfl
  have hfs := h.forward_le
  rw [← wordCount_eq] at w1 hcl htc hp hfs
  unfold linearSize
  dsimp only
  omega

theorem Index1.build_lower {x : Index1} (hx : Index1.build F mem = .ok x) {n : Nat} (hn : x.bytes = .ok n) : F.univ ≤ 8 * n := by
  unfold Index1.build at hx
  obtain ⟨ib, e1, hx⟩ := bind_ok hx
  obtain ⟨docs, e2, hx⟩ := bind_ok hx
  obtain ⟨minimal, e3, hx⟩ := bind_ok hx
  obtain ⟨compl, e4, hx⟩ := bind_ok hx
  obtain ⟨dict, e5, hx⟩ := bind_ok hx
  obtain ⟨inv, e6, hx⟩ := bind_ok hx
  obtain ⟨fwd, e7, hx⟩ := bind_ok hx
  cases hx
  unfold Index1.bytes at hn
  obtain ⟨c, e8, hn⟩ := bind_ok hn
  cases hn
  have key : F.forward.length ≤ 8 * fwd.bytes := by
    unfold FwdIdx.build at e7
    rw [readLists_eq] at e7
    dsimp only at e7
    obtain ⟨d, f1, e7⟩ := bind_ok e7
    obtain ⟨p, f2, e7⟩ := bind_ok e7
    cases e7
    have h2 := EF.build_lower f2
    simp only [toWords, List.length_map, List.length_append, List.length_cons, List.length_nil, ends_length] at h2
    unfold FwdIdx.bytes
    dsimp only
    omega
  rw [h.files.numDocs] at key
  dsimp only
  omega

include hd in
theorem Index2.build_linear {x : Index2} (hx : Index2.build F mem = .ok x) : x.bytes ≤ linearSize C D ∧ F.univ ≤ 8 * x.bytes := by
  unfold Index2.build at hx
  obtain ⟨ib, e1, hx⟩ := bind_ok hx
  obtain ⟨base, e2, hx⟩ := bind_ok hx
  obtain ⟨minimal, e3, hx⟩ := bind_ok hx
  obtain ⟨inv, e4, hx⟩ := bind_ok hx
  cases hx
  have h1 := h.base_linear e2 hd
  have h0 := h.base_lower e2
  have h2 := InvIdx.build_bound h.invLists e1 e4
  have hp := h.postings_le
  have hl := h.minimal_len e1
  have ht := h.termCount_le
  have hs := h.coll.size
  have h3 := UL.build_bound e3 (by omega)
  rw [← wordCount_eq] at hp ht
  unfold Index2.bytes linearSize
  dsimp only
  omega

include hd in
theorem Index3.build_linear {x : Index3} (hx : Index3.build F mem = .ok x) : x.bytes ≤ linearSize C D ∧ F.univ ≤ 8 * x.bytes := by
  unfold Index3.build at hx
  obtain ⟨ib, e1, hx⟩ := bind_ok hx
  obtain ⟨base, e2, hx⟩ := bind_ok hx
  obtain ⟨inv, e3, hx⟩ := bind_ok hx
  cases hx
  have h1 := h.base_linear e2 hd
  have h0 := h.base_lower e2
  have h2 := InvIdx.build_bound h.invLists e1 e3
  have hp := h.postings_le
  rw [← wordCount_eq] at hp
  unfold Index3.bytes linearSize
  dsimp only
  omega

include hd in
theorem Index4.build_linear {std : StdLib} {m : Nat} {x : Index4} (hx : Index4.build std m F mem = .ok x) :
    x.bytes ≤ linearSize C D ∧ F.univ ≤ 8 * x.bytes := by
  unfold Index4.build at hx
  obtain ⟨ib, e1, hx⟩ := bind_ok hx
  obtain ⟨base, e2, hx⟩ := bind_ok hx
  obtain ⟨inv, e3, hx⟩ := bind_ok hx
  cases hx
  have h1 := h.base_linear e2 hd
  have h0 := h.base_lower e2
  have hpl := h.postings_lt
  have h2 := BlkIdx.build_bound ⟨h.invLists, by omega⟩ e1 e3
  have hp := h.postings_le
  rw [← wordCount_eq] at hp
  unfold Index4.bytes linearSize
  dsimp only
  omega

end

end AC
