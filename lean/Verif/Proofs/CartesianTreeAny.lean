import Verif.Model.CartesianTreeAny
/-!
# An order of finitely many elements is that of numbers
-/
namespace AC.CT

/-- a map to numbers under which the comparator is that of the numbers, on the elements of a list -/
def Ranks {α : Type} (comp : α → α → Bool) (v : List α) (f : α → Nat) : Prop := ∀ x ∈ v, ∀ y ∈ v, (comp x y = true ↔ f x < f y)

theorem filter_le {α : Type} {p q : α → Bool} : ∀ {v : List α}, (∀ x ∈ v, p x = true → q x = true) → (v.filter p).length ≤ (v.filter q).length
  | [], _ => by simp
  | x :: v, h => by
      have ih := filter_le (v := v) (fun y hy => h y (List.mem_cons_of_mem _ hy))
      have hx := h x (List.mem_cons_self ..)
      simp only [List.filter_cons]
      by_cases hp : p x = true
      · rw [if_pos hp, if_pos (hx hp)]
        simp only [List.length_cons]
        omega
      · rw [if_neg hp]
        split
        · simp only [List.length_cons]; omega
        · exact ih

theorem filter_lt {α : Type} {p q : α → Bool} {z : α} : ∀ {v : List α}, (∀ x ∈ v, p x = true → q x = true) → z ∈ v → p z ≠ true → q z = true →
    (v.filter p).length < (v.filter q).length
  | [], _, hz, _, _ => by cases hz
  | x :: v, h, hz, h1, h2 => by
      have hv := fun y hy => h y (List.mem_cons_of_mem _ hy)
      have hx := h x (List.mem_cons_self ..)
      simp only [List.filter_cons]
      rcases List.mem_cons.mp hz with rfl | hz
      · rw [if_neg h1, if_pos h2]
        have := filter_le hv
        simp only [List.length_cons]
        omega
      · have ih := filter_lt hv hz h1 h2
        by_cases hp : p x = true
        · rw [if_pos hp, if_pos (hx hp)]
          simp only [List.length_cons]
          omega
        · rw [if_neg hp]
          split
          · simp only [List.length_cons]; omega
          · exact ih

theorem exists_ranks {α : Type} {comp : α → α → Bool} (irrefl : ∀ x, comp x x = false) (trans : ∀ x y z, comp x y = true → comp y z = true → comp x z = true)
    (neg : ∀ x y z, comp x z = true → comp x y = true ∨ comp y z = true) (v : List α) : ∃ f, Ranks comp v f := by
  refine ⟨fun x => (v.filter (fun y => comp y x)).length, fun x hx y _ => ⟨fun h => ?_, fun h => ?_⟩⟩
  · exact filter_lt (z := x) (fun z _ hz => trans z x y hz h) hx (by rw [irrefl x]; decide) h
  · cases hc : comp x y with
    | true => rfl
    | false =>
        have : (v.filter (fun z => comp z y)).length ≤ (v.filter (fun z => comp z x)).length :=
          filter_le (fun z _ hz => (neg z x y hz).resolve_right (by rw [hc]; decide))
        exact absurd h (Nat.not_lt.mpr this)

theorem popLoopBy_map {α : Type} {comp : α → α → Bool} {v : List α} {f : α → Nat} (hf : Ranks comp v f) {val : α} (hv : val ∈ v) : ∀ (st : List α) (bp : BVB), (∀ x ∈ st, x ∈ v) →
    popLoop (f val) (st.map f) bp = ⟨(popLoopBy comp val st bp).stack.map f, (popLoopBy comp val st bp).bp⟩ ∧ ∀ x ∈ (popLoopBy comp val st bp).stack, x ∈ v
  | [], bp, h => ⟨rfl, h⟩
  | x :: st, bp, h => by
      unfold popLoopBy
      rw [List.map_cons]
      unfold popLoop
      by_cases hc : comp val x = true
      · rw [if_pos hc, if_pos ((hf val hv x (h x (List.mem_cons_self ..))).mp hc)]
        exact popLoopBy_map hf hv st _ (fun y hy => h y (List.mem_cons_of_mem _ hy))
      · rw [if_neg hc, if_neg (fun hl => hc ((hf val hv x (h x (List.mem_cons_self ..))).mpr hl))]
        exact ⟨rfl, h⟩

theorem pushesBy_map {α : Type} {comp : α → α → Bool} {v : List α} {f : α → Nat} (hf : Ranks comp v f) : ∀ (w : List α) (b : BuilderOf α), (∀ x ∈ w, x ∈ v) → (∀ x ∈ b.stack, x ∈ v) →
    (w.map f).foldl push ⟨b.stack.map f, b.bp⟩ = ⟨(w.foldl (pushBy comp) b).stack.map f, (w.foldl (pushBy comp) b).bp⟩
  | [], _, _, _ => rfl
  | x :: w, b, hw, hb => by
      have hx := hw x (List.mem_cons_self ..)
      obtain ⟨e, h⟩ := popLoopBy_map hf hx b.stack (b.bp.pushBack false) hb
      rw [List.map_cons, List.foldl_cons, List.foldl_cons]
      have : push ⟨b.stack.map f, b.bp⟩ (f x) = ⟨(pushBy comp b x).stack.map f, (pushBy comp b x).bp⟩ := by
        unfold push pushBy
        dsimp only
        rw [e]
        rfl
      rw [this]
      refine pushesBy_map hf w _ (fun y hy => hw y (List.mem_cons_of_mem _ hy)) ?_
      intro y hy
      rcases List.mem_cons.mp hy with rfl | hy
      · exact hx
      · exact h y hy

theorem drainOf_map {α : Type} (f : α → Nat) : ∀ (st : List α) (bp : BVB), drain (st.map f) bp = drainOf st bp
  | [], _ => rfl
  | _ :: st, bp => drainOf_map f st (bp.pushBack true)

theorem buildBy_map {α : Type} {comp : α → α → Bool} {v : List α} {f : α → Nat} (hf : Ranks comp v f) (after : W) : buildBy comp v after = build (v.map f) after := by
  unfold buildBy build
  have := pushesBy_map hf v ⟨[], BVB.empty⟩ (fun _ h => h) (by simp)
  rw [List.map_nil] at this
  rw [this]
  unfold finalize finalizeOf
  dsimp only
  rw [drainOf_map]

end AC.CT
