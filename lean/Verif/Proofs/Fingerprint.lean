import Verif.Spec.Fingerprint
import Verif.Spec.Lossy
import Verif.Proofs.Unicode
import Verif.Proofs.LossyPrefix
import Verif.Proofs.Conj4
import Verif.Proofs.FcLoss
import Verif.Proofs.Suits
/-!
# What an index determines
-/
namespace AC
open Spec

/-- a dictionary represents one list only -/
theorem FC.Rep.unique {E : Elem} {m : Nat} {d : FC} {L L' : List (List Nat)} (h : FC.Rep E m d L) (h' : FC.Rep E m d L') : L = L' := by
  have hl : L.length = L'.length := by rw [← h.size, ← h'.size]
  refine List.ext_getElem hl fun i h1 h2 => ?_
  obtain ⟨o, a1, _, _, a4⟩ := h.extract i h1 (List.replicate (m + E.cap) 0) 0 (by simp)
  obtain ⟨o', b1, _, _, b4⟩ := h'.extract i h2 (List.replicate (m + E.cap) 0) 0 (by simp)
  rw [a1] at b1
  simp only [Except.ok.injEq, Prod.mk.injEq] at b1
  obtain ⟨rfl, e⟩ := b1
  rw [← a4, ← b4, e]

theorem UL.Rep.unique {u : UL} {v v' : List Nat} (h : u.Rep v) (h' : u.Rep v') : v = v' := by
  have hl : v.length = v'.length := by rw [← h.size, ← h'.size]
  refine List.ext_getElem hl fun i h1 h2 => ?_
  have a := h.access i h1
  rw [h'.access i h2] at a
  simp only [Except.ok.injEq] at a
  rw [List.getD_eq_getElem?_getD, List.getD_eq_getElem?_getD, List.getElem?_eq_getElem h1, List.getElem?_eq_getElem h2] at a
  exact a.symm

theorem FwdIdx.Rep.unique {fi : FwdIdx} {n n' : Nat} {l l' : List (List Nat)} (h : fi.Rep n l) (h' : fi.Rep n' l') : l = l' := by
  have hl : l.length = l'.length := by rw [← h.docs, ← h'.docs]
  refine List.ext_getElem hl fun i h1 h2 => ?_
  obtain ⟨p, a1, a2⟩ := h.at' i h1
  obtain ⟨p', b1, b2⟩ := h'.at' i h2
  rw [a1] at b1
  simp only [Except.ok.injEq, FwdIt.mk.injEq] at b1
  obtain ⟨rfl, e, _⟩ := b1
  refine List.ext_getElem e fun j g1 g2 => ?_
  obtain ⟨x, c1, c2⟩ := a2 j g1
  obtain ⟨x', d1, d2⟩ := b2 j g2
  rw [c1] at d1
  cases d1
  rw [← c2, ← d2]

section
variable {C D : Coll} {F G : Files} (hC : Ready C F) (hD : Ready D G)
include hC hD

/-- the terms and the completions as numbers determine the collection -/
theorem Ready.determined (ht : F.terms = G.terms) (hm : F.mapped = G.mapped) : C = D := by
  have e1 := hC.files.mapped
  have e2 := hD.files.mapped
  rw [hm, e2, ← ht] at e1
  have hl : C.length = D.length := by
    have := congrArg List.length e1
    rw [List.length_map, List.length_map] at this
    exact this.symm
  refine List.ext_getElem hl fun i h1 h2 => ?_
  have e : (D.map fun r => (r.1, r.2.map (rankOf F.terms)))[i]'(by simpa using h2) = (C.map fun r => (r.1, r.2.map (rankOf F.terms)))[i]'(by simpa using h1) := by
    simp only [e1]
  rw [List.getElem_map, List.getElem_map, Prod.mk.injEq] at e
  refine Prod.ext e.1.symm ?_
  have hc := hC.mem (List.getElem_mem h1)
  have hd := hD.mem (List.getElem_mem h2)
  rw [← ht] at hd
  have e' := e.2
  generalize C[i].2 = c at hc e'
  generalize D[i].2 = d at hd e'
  have hlen : c.length = d.length := by
    have := congrArg List.length e'
    rw [List.length_map, List.length_map] at this
    exact this.symm
  refine List.ext_getElem hlen fun j g1 g2 => ?_
  have e3 : (d.map (rankOf F.terms))[j]'(by simpa using g2) = (c.map (rankOf F.terms))[j]'(by simpa using g1) := by simp only [e']
  rw [List.getElem_map, List.getElem_map] at e3
  exact rankOf_inj (hc _ (List.getElem_mem g1)) (hd _ (List.getElem_mem g2)) e3.symm

theorem Base.determines {x : Base} (h : x.Rep F.mapped) (h' : x.Rep G.mapped) (d : FC.Rep Elem.byte MAX_CHARS x.dict F.terms)
    (d' : FC.Rep Elem.byte MAX_CHARS x.dict G.terms) : C = D := by
  refine hC.determined hD (d.unique d') ?_
  have e1 := h.docs.unique h'.docs
  have e2 := h.completions.unique h'.completions
  have hl : F.mapped.length = G.mapped.length := by
    have := congrArg List.length e1
    rw [List.length_map, List.length_map] at this
    exact this
  refine List.ext_getElem hl fun i h1 h2 => ?_
  have a : (F.mapped.map (·.1))[i]'(by simpa using h1) = (G.mapped.map (·.1))[i]'(by simpa using h2) := by simp only [e1]
  have b : (F.mapped.map (·.2))[i]'(by simpa using h1) = (G.mapped.map (·.2))[i]'(by simpa using h2) := by simp only [e2]
  rw [List.getElem_map, List.getElem_map] at a b
  exact Prod.ext a b

theorem Index1.determines {x : Index1} (h : x.Rep F) (h' : x.Rep G) : C = D := by
  have e1 := h.docs.unique h'.docs
  have e2 := h.forward.unique h'.forward
  have ht := h.dict.unique h'.dict
  refine hC.determined hD ht ?_
  rw [hC.fst_mapped, hD.fst_mapped] at e1
  have hl : C.length = D.length := by
    have := congrArg List.length e1
    rw [List.length_map, List.length_map] at this
    exact this
  rw [hC.files.mapped, hD.files.mapped]
  refine List.ext_getElem (by rw [List.length_map, List.length_map]; exact hl) fun i h1 h2 => ?_
  rw [List.length_map] at h1 h2
  have a : (C.map (·.1))[i]'(by simpa using h1) = (D.map (·.1))[i]'(by simpa using h2) := by simp only [e1]
  rw [List.getElem_map, List.getElem_map] at a
  rw [List.getElem_map, List.getElem_map]
  refine Prod.ext a ?_
  show C[i].2.map _ = D[i].2.map _
  rw [← hC.files.forward _ (List.getElem_mem h1), ← hD.files.forward _ (List.getElem_mem h2), e2, a]

end

/-! ## Lost terms are not in the index -/

namespace FC

/-- the last 16 strings are not in the dictionary when their number is a multiple of 17 -/
theorem build_lost (E : Elem) (lcpOf : List Nat → List Nat → Nat) {K R R' : List (List Nat)} {n : Nat} (hK : K.length = 17 * n + 1) (hR : R.length = 16) (hR' : R'.length = 16) :
    build E lcpOf (K ++ R) = build E lcpOf (K ++ R') := by
  have l1 : (K ++ R).length = 17 * (n + 1) := by rw [List.length_append]; omega
  have l2 : (K ++ R').length = 17 * (n + 1) := by rw [List.length_append]; omega
  have hnb : (17 * (n + 1) + 16) / 17 = n + 1 := by omega
  have ht : tail (17 * (n + 1)) = 0 := by
    have : 17 * (n + 1) - 17 * (n + 1) / 17 * 17 = 0 := by omega
    unfold tail
    simp only [this]
    rfl
  unfold build
  simp only [l1, l2, hnb, ht]
  rw [buildLoop_append E lcpOf 0 (n + 1) K R _ (by omega), buildLoop_append E lcpOf 0 (n + 1) K R' _ (by omega)]

end FC

section
variable {C : Coll} {n : Nat} (hC : ValidColl C) (hn : NumTerms C n) (h17 : n % 17 = 0) {g : Str → Str} (hg : KeepsOrder C g) (hk : ∀ t, KeptTerm C t → g t = t)
include hC hn h17 hg hk

theorem lost_terms : FcDict.build (Pre.run (withTerms g C)).terms = FcDict.build (Pre.run C).terms ∧ ∃ S M, Pre.run (withTerms g C) = { Pre.run C with terms := S, maxLen := M } ∧
    S.length = (Pre.run C).terms.length := by
  have hm : Pre.Mono (Pre.extractDict C) g := fun s hs t ht hlt => hg s t ((Pre.mem_extractDict C s).mp hs) ((Pre.mem_extractDict C t).mp ht) hlt
  have hr := Pre.run_renamed hm
  have hlen : (Pre.run C).terms.length % 17 = 0 := by
    rw [← hC.ready.numTerms_eq hn]
    exact h17
  have hpos : 0 < (Pre.run C).terms.length := by
    obtain ⟨r, hr⟩ := List.exists_mem_of_ne_nil _ hC.ne
    obtain ⟨t, ht⟩ := List.exists_mem_of_ne_nil _ (hC.nonempty r hr)
    exact List.length_pos_of_mem (hC.ready.mem hr t ht)
  have h16 : 16 ≤ (Pre.run C).terms.length := by omega
  have hkept := hC.ready.kept h16
  refine ⟨?_, _, _, hr, by rw [List.length_map]; rfl⟩
  have e : (Pre.run (withTerms g C)).terms = (Pre.run C).terms.map g := by
    show (Pre.run (Pre.renamed g C)).terms = _
    rw [hr]
    rfl
  rw [e]
  generalize (Pre.run C).terms = L at *
  have hsplit : L.map g = L.take (L.length - 16) ++ (L.drop (L.length - 16)).map g := by
    conv => lhs; rw [← List.take_append_drop (L.length - 16) L, List.map_append]
    congr 1
    conv => rhs; rw [← List.map_id (L.take _)]
    exact List.map_congr_left fun t ht => hk t ((hkept t).mpr ht)
  rw [hsplit]
  conv => rhs; rw [← List.take_append_drop (L.length - 16) L]
  exact FC.build_lost _ _ (n := L.length / 17 - 1) (by rw [List.length_take]; omega) (by rw [List.length_map, List.length_drop]; omega) (by rw [List.length_drop]; omega)

end
end AC
