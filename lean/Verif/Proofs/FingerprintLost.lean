import Verif.Proofs.Fingerprint
import Verif.Proofs.DocMap
import Verif.Proofs.Renumber
import Verif.Model.Autocomplete4
/-!
# Lost completions are not in the index
-/
namespace AC
open Spec

theorem IntDict.build_lost (univ : Nat) {K R R' : List (Nat × Ids)} {n : Nat} (hK : K.length = 17 * n + 1) (hR : R.length = 16) (hR' : R'.length = 16) :
    IntDict.build univ (K ++ R) = IntDict.build univ (K ++ R') := by
  have l1 : (K ++ R).length = 17 * (n + 1) := by rw [List.length_append]; omega
  have l2 : (K ++ R').length = 17 * (n + 1) := by rw [List.length_append]; omega
  have hnb : (17 * (n + 1) + 16) / 17 = n + 1 := by omega
  have ht : FC.tail (17 * (n + 1)) = 0 := by
    have : 17 * (n + 1) - 17 * (n + 1) / 17 * 17 = 0 := by omega
    unfold FC.tail
    simp only [this]
    rfl
  have key : ∀ X : List (Nat × Ids), X.length = 16 → (K ++ X).take (17 * n + 1) = K := by
    intro X _
    rw [← hK, List.take_left']
    rfl
  unfold IntDict.build
  simp only [l1, l2, hnb, ht]
  rw [IntDict.lexLoop_eq _ _ _ _ _ (by omega), IntDict.lexLoop_eq _ _ _ _ _ (by omega)]
  simp only [Nat.add_one_ne_zero, if_false, Nat.add_sub_cancel, Nat.add_zero]
  rw [key R hR, key R' hR', List.map_append, List.map_append, FC.build_lost _ _ (n := n) (by rw [List.length_map]; exact hK) (by rw [List.length_map]; exact hR)
    (R' := R'.map (·.2)) (by rw [List.length_map]; exact hR')]

section
variable {K R R' : Coll} (hs : SameTerms R R')
include hs

theorem SameTerms.append (d : Nat) (t : Str) : (∃ c, (d, c) ∈ K ++ R ∧ t ∈ c) ↔ ∃ c, (d, c) ∈ K ++ R' ∧ t ∈ c := by
  have := hs d t
  constructor
  · rintro ⟨c, hc, ht⟩
    rcases List.mem_append.mp hc with hc | hc
    · exact ⟨c, List.mem_append_left _ hc, ht⟩
    · obtain ⟨c', h1, h2⟩ := this.mp ⟨c, hc, ht⟩
      exact ⟨c', List.mem_append_right _ h1, h2⟩
  · rintro ⟨c, hc, ht⟩
    rcases List.mem_append.mp hc with hc | hc
    · exact ⟨c, List.mem_append_left _ hc, ht⟩
    · obtain ⟨c', h1, h2⟩ := this.mpr ⟨c, hc, ht⟩
      exact ⟨c', List.mem_append_right _ h1, h2⟩

end

section
variable {C D : Coll} {F G : Files} (hC : Ready C F) (hD : Ready D G) (hs : ∀ d t, (∃ c, (d, c) ∈ C ∧ t ∈ c) ↔ ∃ c, (d, c) ∈ D ∧ t ∈ c)
include hC hD hs

theorem sameTerms_terms : F.terms = G.terms := by
  refine eq_of_ordered (R := fun s t : Str => s < t) (fun x y h h' => absurd (Pre.str_trans _ _ _ h h') (List.lt_irrefl _)) hC.files.terms hD.files.terms fun t => ?_
  rw [hC.files.memTerms, hD.files.memTerms]
  constructor
  · rintro ⟨r, hr, ht⟩
    obtain ⟨c, h1, h2⟩ := (hs r.1 t).mp ⟨r.2, hr, ht⟩
    exact ⟨_, h1, h2⟩
  · rintro ⟨r, hr, ht⟩
    obtain ⟨c, h1, h2⟩ := (hs r.1 t).mpr ⟨r.2, hr, ht⟩
    exact ⟨_, h1, h2⟩

theorem sameTerms_univ_le : F.univ ≤ G.univ := by
  obtain ⟨r, hr, e⟩ := hC.files.univ
  obtain ⟨t, ht⟩ := List.exists_mem_of_ne_nil _ (hC.coll.nonempty r hr)
  obtain ⟨c, h1, _⟩ := (hs r.1 t).mp ⟨r.2, hr, ht⟩
  have := hD.files.lt_univ _ h1
  simp only at this
  omega

theorem sameTerms_inverted : F.inverted = G.inverted := by
  have ht := sameTerms_terms hC hD hs
  have hl : F.inverted.length = G.inverted.length := by rw [hC.files.numLists, hD.files.numLists, ht]
  refine List.ext_getElem hl fun i h1 h2 => ?_
  have g1 : i < F.terms.length := by rw [← hC.files.numLists]; exact h1
  have g2 : i < G.terms.length := by rw [← hD.files.numLists]; exact h2
  have e1 : F.inverted.getD i [] = F.inverted[i] := by rw [List.getD_eq_getElem?_getD, List.getElem?_eq_getElem h1]; rfl
  have e2 : G.inverted.getD i [] = G.inverted[i] := by rw [List.getD_eq_getElem?_getD, List.getElem?_eq_getElem h2]; rfl
  rw [← e1, ← e2]
  refine eq_of_ordered (R := fun a b : Nat => a < b) (fun x y h h' => by omega) (hC.files.sortedList i g1) (hD.files.sortedList i g2) fun d => ?_
  rw [hC.files.memList i d g1, hD.files.memList i d g2, ht]
  exact hs d _

end

section
variable {K R R' : Coll} (hC : ValidColl (K ++ R)) (hD : ValidColl (K ++ R')) {n : Nat} (hK : K.length = 17 * n + 1) (hR : R.length = 16) (hR' : R'.length = 16) (hs : SameTerms R R')
include hC hD hK hR hR' hs

theorem lost_completions : (Pre.run (K ++ R)).univ = (Pre.run (K ++ R')).univ ∧ (Pre.run (K ++ R)).inverted = (Pre.run (K ++ R')).inverted ∧
    ∀ mem, Base.build (Pre.run (K ++ R)) mem = Base.build (Pre.run (K ++ R')) mem := by
  have hs' := SameTerms.append (K := K) hs
  have hu : (Pre.run (K ++ R)).univ = (Pre.run (K ++ R')).univ :=
    Nat.le_antisymm (sameTerms_univ_le hC.ready hD.ready hs') (sameTerms_univ_le hD.ready hC.ready fun d t => (hs' d t).symm)
  have ht := sameTerms_terms hC.ready hD.ready hs'
  refine ⟨hu, sameTerms_inverted hC.ready hD.ready hs', fun mem => ?_⟩
  have hl : (Pre.run (K ++ R)).mapped.length = (Pre.run (K ++ R')).mapped.length := by
    rw [hC.ready.length_mapped, hD.ready.length_mapped, List.length_append, List.length_append, hR, hR']
  have hd : IntDict.build (Pre.run (K ++ R)).univ (Pre.run (K ++ R)).mapped = IntDict.build (Pre.run (K ++ R')).univ (Pre.run (K ++ R')).mapped := by
    rw [hC.ready.files.mapped, hD.ready.files.mapped, hu, ht, List.map_append, List.map_append]
    exact IntDict.build_lost _ (n := n) (by rw [List.length_map]; exact hK) (by rw [List.length_map]; exact hR) (by rw [List.length_map]; exact hR')
  unfold Base.build
  rw [hd, hl, ht]

end
end AC
