import Verif.Proofs.Fits
import Verif.Proofs.SpaceIdx
import Verif.Proofs.DebugAllStore
import Verif.Model.Sizes
/-!
# Bounds on the sizes of indexes of types 2, 3 and 4

Crude bounds that hold of every valid collection.
-/
namespace AC
open Spec

theorem EF.build_bound {vs : List W} {e : EF} (h : EF.build vs = .ok e) : e.bytes ≤ 9 * vs.length + 200 := by
  obtain ⟨hne, hsw⟩ := EF.build_sorted h
  obtain ⟨u, hu⟩ : ∃ u, vs.getLast? = some u := ⟨_, List.getLast?_eq_some_getLast hne⟩
  obtain ⟨h1, h2, h3, h4, h5, h6, h7, h8, h9, _⟩ := EF.build_sizes (EF.pairwise_of_sortedW vs hsw) hu h
  have hn : vs.length ≠ 0 := fun hc => hne (List.length_eq_zero_iff.mp hc)
  have hh := EF.high_le (u := u.toNat) hn
  rw [← h1] at hh
  have hl : vs.length * e.l ≤ vs.length * 63 := Nat.mul_le_mul_left _ (by omega)
  unfold EF.bytes DA.bytes BV.bytes vecBytes
  rw [h4, h5, h7, h8]
  unfold wordsFor ceilDiv
  omega

theorem CV.build_bound {vs : List W} {w : Nat} {a : W} {x : CV} (h : CV.build vs w a = .ok x) : x.bytes ≤ 8 * vs.length + 40 := by
  have hw : w ≤ 64 := by
    rcases Nat.lt_or_ge 64 w with hw | hw
    · rw [CV.build_width0 vs w a (by omega)] at h
      cases h
    · exact hw
  rw [CV.build_bytes h]
  have : vs.length * w ≤ vs.length * 64 := Nat.mul_le_mul_left _ hw
  omega

theorem UL.build_bound {v : List Nat} {a b : W} {x : UL} (h : UL.build v a b = .ok x) (hv : v.length < 2 ^ 30 - 1) : x.bytes ≤ 9 * v.length + 200 := by
  unfold UL.build at h
  obtain ⟨t, e1, h⟩ := bind_ok h
  obtain ⟨c, e2, h⟩ := bind_ok h
  cases h
  have h1 := CT.bytes_le hv e1
  unfold CV.buildAuto at e2
  split at e2
  · cases e2
  · have h2 := CV.build_bound e2
    rw [show (toWords v).length = v.length by simp [toWords]] at h2
    unfold UL.bytes
    dsimp only
    omega

theorem FC.build_bound {E : Elem} (hE : FC.Plain E) {p c : Nat} (hp : E.ptr = 256 ^ p) (hp8 : p ≤ 8) (hc4 : c ≤ 4) {lcpOf : List Nat → List Nat → Nat}
    {ss : List (List Nat)} {d : FC} (h : FC.build E lcpOf ss = .ok d) (hx : ∀ s ∈ ss, ∀ x ∈ s, x < 256 ^ c) :
    d.bytes p c ≤ ss.length + max c 1 * FC.cost ss + E.cap * E.width + 200 := by
  unfold FC.build at h
  obtain ⟨d', e, h⟩ := bind_ok h
  cases h
  have hpp : 0 < 256 ^ p := Nat.pow_pos (by decide)
  obtain ⟨_, a2, a3, a4⟩ := FC.buildLoop_fits (K := ss.length) hE hp _ _ _ _ e hx ⟨Nat.le_refl _, by simpa using hpp, by simpa using hpp, by simp, by simp⟩
  simp only [List.length_cons, List.length_nil] at a2 a3 a4
  have q1 : d'.ptrHeaders.length * p ≤ d'.ptrHeaders.length * 8 := Nat.mul_le_mul_left _ hp8
  have q2 : d'.ptrBuckets.length * p ≤ d'.ptrBuckets.length * 8 := Nat.mul_le_mul_left _ hp8
  have q3 : d'.headers.length * c ≤ max c 1 * d'.headers.length := by
    rw [Nat.mul_comm]
    exact Nat.mul_le_mul_right _ (by omega)
  have q4 : 1 * d'.buckets.length ≤ max c 1 * d'.buckets.length := Nat.mul_le_mul_right _ (by omega)
  have q5 : max c 1 * (d'.headers.length + d'.buckets.length) ≤ max c 1 * FC.cost ss := Nat.mul_le_mul_left _ (by omega)
  rw [Nat.mul_add] at q5
  unfold FC.bytes vecBytes
  simp only [List.length_append, List.length_replicate]
  rw [a2] at q1 ⊢
  rw [a3] at q2 ⊢
  omega

theorem InvIdx.build_bound {u : Nat} {lists : List (List Nat)} (h : InvLists u lists) {b : InvBuilder}
    {a : W} {x : InvIdx} (hb : InvBuilder.mk' u lists = .ok b) (hx : b.build a = .ok x) :
    x.bytes ≤ 60 * (lists.map List.length).sum + 1000 := by
  obtain ⟨b', init, e1, e2⟩ := InvBuilder.addAll_spec lists ⟨0, u, [0], [], BVB.empty⟩ [] [] (u := u)
    (by
      refine ⟨?_, rfl, rfl, rfl, rfl, rfl, by simp, by intro i l hl; simp at hl, by simp [BVB.empty]⟩
      exact BVB.empty_wf)
    (fun l hl => h.valid hl)
  rw [List.nil_append] at e2
  have hinit : b'.pointers.dropLast = init := by rw [e2.ptrs]; simp
  unfold InvBuilder.mk' at hb
  rw [e1, M.ok_bind] at hb
  cases hb
  unfold InvBuilder.build at hx
  obtain ⟨p, f1, hx⟩ := bind_ok hx
  cases hx
  have hc := count_le_sum (lists := lists) (fun l hl => (h.each l hl).1)
  have hsz := e2.size
  have hl := e2.len
  have hp := EF.build_bound f1
  have hw : b'.bvb.bits.length = wordsFor b'.bvb.size := e2.wf.len
  unfold wordsFor at hw
  rw [hinit, show (toWords init).length = init.length by simp [toWords]] at hp
  unfold InvIdx.bytes BV.bytes vecBytes BV.build
  dsimp only
  omega

theorem BlkIdx.build_bound {u m : Nat} {lists : List (List Nat)} (hL : BlkLists u lists) {std : StdLib} {b : BlkBuilder} {mem : Nat → W} {x : BlkIdx}
    (hb : BlkBuilder.mk' std m u lists = .ok b) (hx : b.build mem = .ok x) : x.bytes ≤ 140 * (lists.map List.length).sum + 1000 := by
  obtain ⟨b', s, docss, e1, h⟩ := BlkBuilder.addAll_inv hL std m
  unfold BlkBuilder.mk' at hb
  rw [e1, M.ok_bind] at hb
  cases hb
  unfold BlkBuilder.build at hx
  obtain ⟨p1, f1, hx⟩ := bind_ok hx
  obtain ⟨p2, f2, hx⟩ := bind_ok hx
  obtain ⟨p3, f3, hx⟩ := bind_ok hx
  cases hx
  have htot := h.total
  rw [postingsIn_all] at htot
  have hsl := stored_length lists b'.blocks docss 0 h.blocks.len
  have hcnt : (stored lists 0 b'.blocks docss).length ≤ ((stored lists 0 b'.blocks docss).map rowTotal).sum := by
    have := sum_map_le (fun _ => 1) rowTotal 1 (stored lists 0 b'.blocks docss) (fun x hx => by have := h.pos x hx; omega)
    rw [Nat.one_mul] at this
    refine Nat.le_trans (Nat.le_of_eq ?_) this
    generalize stored lists 0 b'.blocks docss = l
    clear this
    induction l with
    | nil => rfl
    | cons a l ih => simp only [List.map_cons, List.sum_cons, List.length_cons, ← ih]; omega
  have s1 := h.st1.size
  have s2 := h.st2.size
  have s3 := h.st3.size
  have l1 := h.st1.len
  have l2 := h.st2.len
  have l3 := h.st3.len
  have hb1 := sum_map_le wDocs rowTotal 288 (stored lists 0 b'.blocks docss) (fun x hx => by have := h.pos x hx; unfold wDocs; omega)
  have hb2 := sum_map_le wOffs rowTotal 448 (stored lists 0 b'.blocks docss) (fun x hx => by have := h.pos x hx; unfold wOffs; omega)
  have hb3 := sum_map_le wTerms rowTotal 38 (stored lists 0 b'.blocks docss) (fun x hx => by have := h.pos x hx; unfold wTerms; omega)
  have g1 := EF.build_bound f1
  have g2 := EF.build_bound f2
  have g3 := EF.build_bound f3
  simp only [toWords, List.length_map, List.length_dropLast] at g1 g2 g3
  have w1 : b'.lists.bits.length = wordsFor b'.lists.size := h.st1.wf.len
  have w2 : b'.offs.bits.length = wordsFor b'.offs.size := h.st2.wf.len
  have w3 : b'.terms.bits.length = wordsFor b'.terms.size := h.st3.wf.len
  unfold wordsFor at w1 w2 w3
  unfold BlkIdx.bytes BV.bytes vecBytes BV.build
  dsimp only
  omega

namespace Ready
variable {C : Coll} {F : Files} (h : Ready C F)
include h

theorem cost_ids : FC.cost (F.mapped.map (·.2)) = 2 * C.length + 4 * (C.flatMap (·.2)).length := by
  rw [h.snd_mapped]
  generalize rankOf F.terms = f
  clear h
  induction C with
  | nil => rfl
  | cons r C ih =>
      have : FC.cost ((r :: C).map (fun r => r.2.map f)) = (2 + 4 * r.2.length) + FC.cost (C.map (fun r => r.2.map f)) := by simp [FC.cost]
      rw [this, ih]
      simp only [List.flatMap_cons, List.length_append, List.length_cons]
      omega

theorem cost_terms : FC.cost F.terms < 2 ^ 34 := by
  have hr := h.validTerms.room
  have : FC.cost F.terms ≤ 4 * (F.terms.map (fun s => s.length + 2)).sum := by
    generalize F.terms = l
    clear hr
    induction l with
    | nil => simp [FC.cost]
    | cons s l ih =>
        have : FC.cost (s :: l) = (2 + 4 * s.length) + FC.cost l := by simp [FC.cost]
        rw [this]
        simp only [List.map_cons, List.sum_cons]
        omega
  omega

theorem bound_base {mem : Nat → W} {x : Base} (hx : Base.build F mem = .ok x) :
    x.completions.bytes 8 4 + x.docs.bytes + x.dict.bytes 4 1 + x.lexids.bytes ≤ 90 * 2 ^ 30 := by
  unfold Base.build at hx
  obtain ⟨⟨c, d⟩, e1, hx⟩ := bind_ok hx
  obtain ⟨lex, e2, hx⟩ := bind_ok hx
  obtain ⟨docs, e3, hx⟩ := bind_ok hx
  obtain ⟨dict, e4, hx⟩ := bind_ok hx
  cases hx
  have hu := h.univ_lt
  have hc := h.cost_ids
  have hn := h.count_le
  have hsz := h.coll.size
  have hm := h.length_mapped
  have ht := h.termCount_le
  obtain ⟨_, i2⟩ := IntDict.build_fits h.validIds e1
  have b1 : c.bytes 8 4 ≤ (F.mapped.map (·.2)).length + max 4 1 * FC.cost (F.mapped.map (·.2)) + Elem.u32.cap * Elem.u32.width + 200 := by
    unfold IntDict.build at e1
    dsimp only at e1
    obtain ⟨v', _, e1⟩ := bind_ok e1
    obtain ⟨d', e5, e1⟩ := bind_ok e1
    cases e1
    refine FC.build_bound FC.plain_u32 (by decide) (by decide) (by decide) e5 (fun s hs x hx => ?_)
    have := (h.validIds.elems s hs x hx).2
    omega
  have b2 := UL.build_bound e3 (by
    show (invert d F.mapped.length).length < _
    rw [invert, invertLoop_len, List.length_replicate]
    exact h.mapped_lt)
  have b3 : dict.bytes 4 1 ≤ F.terms.length + max 1 1 * FC.cost F.terms + Elem.byte.cap * Elem.byte.width + 200 := by
    refine FC.build_bound FC.plain_byte (by decide) (by decide) (by decide) e4 (fun s hs x hx => ?_)
    have := h.validTerms.text s hs x hx
    omega
  have b4 := CV.build_bound e2
  have hct := h.cost_terms
  simp only [invert, invertLoop_len, List.length_replicate] at b2
  simp only [toWords, List.length_map] at b4
  rw [List.length_map] at b1
  have k1 : Elem.u32.cap * Elem.u32.width ≤ 1000 := by decide
  have k2 : Elem.byte.cap * Elem.byte.width ≤ 1000 := by decide
  simp only [show max 4 1 = 4 from rfl, show max 1 1 = 1 from rfl] at b1 b3
  dsimp only
  omega

end Ready

theorem Index2.build_bound {C : Coll} {F : Files} (h : Ready C F) {mem : Nat → W} {x : Index2} (hx : Index2.build F mem = .ok x) : x.bytes ≤ 73 * 2 ^ 32 := by
  unfold Index2.build at hx
  obtain ⟨ib, e1, hx⟩ := bind_ok hx
  obtain ⟨base, e2, hx⟩ := bind_ok hx
  obtain ⟨minimal, e3, hx⟩ := bind_ok hx
  obtain ⟨inv, e4, hx⟩ := bind_ok hx
  cases hx
  have h1 := h.bound_base e2
  have h2 := InvIdx.build_bound h.invLists e1 e4
  have hp := h.postings_lt
  obtain ⟨ib', b1, b2, b3⟩ := InvBuilder.build_spec h.invLists
  rw [e1] at b1
  cases b1
  have hl : ib.minimal.length < 2 ^ 30 - 1 := by
    have := h.termCount_le
    have := h.coll.size
    rw [b2, List.length_map, h.files.numLists]
    omega
  have h3 := UL.build_bound e3 hl
  unfold Index2.bytes
  dsimp only
  omega

theorem Index3.build_bound {C : Coll} {F : Files} (h : Ready C F) {mem : Nat → W} {x : Index3} (hx : Index3.build F mem = .ok x) : x.bytes ≤ 73 * 2 ^ 32 := by
  unfold Index3.build at hx
  obtain ⟨ib, e1, hx⟩ := bind_ok hx
  obtain ⟨base, e2, hx⟩ := bind_ok hx
  obtain ⟨inv, e3, hx⟩ := bind_ok hx
  cases hx
  have h1 := h.bound_base e2
  have h2 := InvIdx.build_bound h.invLists e1 e3
  have hp := h.postings_lt
  unfold Index3.bytes
  dsimp only
  omega

theorem Index4.build_bound {C : Coll} {F : Files} (h : Ready C F) {std : StdLib} {m : Nat} {mem : Nat → W} {x : Index4}
    (hx : Index4.build std m F mem = .ok x) : x.bytes ≤ 73 * 2 ^ 32 := by
  unfold Index4.build at hx
  obtain ⟨ib, e1, hx⟩ := bind_ok hx
  obtain ⟨base, e2, hx⟩ := bind_ok hx
  obtain ⟨inv, e3, hx⟩ := bind_ok hx
  cases hx
  have h1 := h.bound_base e2
  have hp := h.postings_lt
  have h2 := BlkIdx.build_bound ⟨h.invLists, by omega⟩ e1 e3
  unfold Index4.bytes
  dsimp only
  omega

end AC
