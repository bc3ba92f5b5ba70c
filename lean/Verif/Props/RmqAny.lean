import Verif.Props.Rmq
import Verif.Proofs.CartesianTreeAny
import Verif.Spec.StrictWeak
/-!
# C93: range-minimum queries for any order
-/
namespace AC.Props
open AC

/-- **C93**: the structure built from a list of any elements with a comparator that is a strict weak order answers `rmq(a, b)` by the leftmost of the best positions of
`[a, b]`: no element of the range is better, and all elements of the range before it are worse. -/
theorem C93_rmq {α : Type} {comp : α → α → Bool} (hcomp : Spec.StrictWeak comp) (v : List α) (after : W) (hv : v.length < 2 ^ 30 - 1) :
    ∃ t, CT.buildBy comp v after = .ok t ∧ CT.size t = v.length ∧
      ∀ a b, a ≤ b → (hb : b < v.length) → ∃ m, ∃ _ : a ≤ m, ∃ _ : m ≤ b, CT.rmq t a b = .ok m ∧
        (∀ k (_ : k ≤ b), a ≤ k → comp v[k] v[m] = false) ∧ (∀ k (_ : k < m), a ≤ k → comp v[m] v[k] = true) := by
  obtain ⟨f, hf⟩ := CT.exists_ranks hcomp.irrefl hcomp.trans hcomp.neg v
  obtain ⟨t, h1, h2, h3⟩ := C15_rmq (v.map f) after (by rw [List.length_map]; exact hv)
  refine ⟨t, by rw [CT.buildBy_map hf]; exact h1, by rw [h2, List.length_map], ?_⟩
  intro a b hab hb
  obtain ⟨m, m1, m2, m3, m4, m5⟩ := h3 a b hab (by rw [List.length_map]; exact hb)
  simp only [List.getElem_map] at m4 m5
  refine ⟨m, m1, m2, m3, fun k hk hak => ?_, fun k hk hak => ?_⟩
  · have := m4 k hk hak
    cases hc : comp v[k] v[m] with
    | false => rfl
    | true =>
        have := (hf _ (List.getElem_mem _) _ (List.getElem_mem _)).mp hc
        omega
  · exact (hf _ (List.getElem_mem _) _ (List.getElem_mem _)).mpr (m5 k hk hak)

/-- **C93**: with numbers and `std::less` it is the structure of the indexes. -/
theorem C93_less (v : List Nat) (after : W) : CT.buildBy (fun x y => decide (x < y)) v after = CT.build v after := by
  have hf : CT.Ranks (fun x y => decide (x < y)) v id := fun x _ y _ => by simp
  rw [CT.buildBy_map hf, List.map_id]

/-- **C93**: a different order of the same list, `std::greater`: the leftmost maximum. -/
theorem C93_greater (v : List Nat) (after : W) (hv : v.length < 2 ^ 30 - 1) :
    ∃ t, CT.buildBy (fun x y => decide (y < x)) v after = .ok t ∧
      ∀ a b, a ≤ b → (hb : b < v.length) → ∃ m, ∃ _ : a ≤ m, ∃ _ : m ≤ b, CT.rmq t a b = .ok m ∧
        (∀ k (_ : k ≤ b), a ≤ k → v[k] ≤ v[m]) ∧ (∀ k (_ : k < m), a ≤ k → v[k] < v[m]) := by
  have hc : Spec.StrictWeak (fun x y : Nat => decide (y < x)) :=
    ⟨fun x => by simp, fun x y z h1 h2 => by simp only [decide_eq_true_eq] at *; omega, fun x y z h1 h2 h3 h4 => by
      simp only [decide_eq_false_iff_not] at *; omega⟩
  obtain ⟨t, h1, _, h3⟩ := C93_rmq hc v after hv
  refine ⟨t, h1, fun a b hab hb => ?_⟩
  obtain ⟨m, m1, m2, m3, m4, m5⟩ := h3 a b hab hb
  refine ⟨m, m1, m2, m3, fun k hk hak => ?_, fun k hk hak => ?_⟩
  · have := m4 k hk hak
    simp only [decide_eq_false_iff_not] at this
    omega
  · exact of_decide_eq_true (m5 k hk hak)

/-- five pairs, compared by their second parts: of the two best ones the leftmost is found -/
example : ((CT.buildBy (fun x y : Nat × Nat => decide (x.2 < y.2)) [(1, 5), (2, 3), (3, 4), (4, 3), (5, 9)] 0) >>= fun t => do
    let x ← CT.rmq t 0 4; let y ← CT.rmq t 2 4; .ok (x, y)) = .ok (1, 3) := by decide +kernel

example : Spec.StrictWeak (fun x y : Nat × Nat => decide (x.2 < y.2)) :=
  ⟨fun x => by simp, fun x y z h1 h2 => by simp only [decide_eq_true_eq] at *; omega, fun x y z h1 h2 h3 h4 => by
    simp only [decide_eq_false_iff_not] at *; omega⟩

end AC.Props
