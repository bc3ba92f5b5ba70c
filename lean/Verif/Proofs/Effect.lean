import Verif.Proofs.Programs
import Verif.Proofs.Asks
import Verif.Proofs.All2
/-!
# The benchmark of effectiveness
-/
namespace AC
open Spec

theorem map_fst_zip_take {α β : Type} (l : List α) (m : List β) (n : Nat) (hm : m.length = n) (hn : n ≤ l.length) :
    (l.zip m).map (fun x => x.1) = l.take n := by
  induction m generalizing l n with
  | nil => subst hm; simp
  | cons y m ih =>
    subst hm
    cases l with
    | nil => simp at hn
    | cons x l =>
      simp only [List.zip_cons_cons, List.map_cons, List.length_cons, List.take_succ_cons]
      rw [ih l _ rfl (by simpa using hn)]

/-- what a client reads from the vector of scores -/
theorem Pool.Holds.scores_take {p : Pool} {E : Coll} (h : p.Holds (E.map (fun r => joined r.2))) (hs : E.length ≤ p.scores.length)
    (hr : p.results = .ok (E.map shown)) : p.size = E.length ∧ p.scores.take p.size = E.map (·.1) := by
  have h1 : p.size = E.length := by
    unfold Pool.size
    rw [h.offsets]
    simp
  refine ⟨h1, ?_⟩
  rw [h.results (by simpa using hs)] at hr
  injection hr with hr
  have := congrArg (List.map (·.1)) hr
  rw [List.map_map] at this
  rw [h1, show E.map (·.1) = E.map ((fun x => x.1) ∘ shown) from rfl, ← this]
  exact (map_fst_zip_take p.scores (E.map (fun r => joined r.2)) E.length (by simp) hs).symm

/-- the results that one search has and the other has not, by document ids -/
theorem filter_shown {C : Coll} (hd : (C.map (·.1)).Nodup) {E E' : Coll} (h1 : ∀ r ∈ E, r ∈ C) (h2 : ∀ r ∈ E', r ∈ C) :
    (E'.map (·.1)).filter (fun d => decide (d ∉ E.map (·.1))) = ((E'.map shown).filter (fun r => decide (r ∉ E.map shown))).map (·.1) := by
  have hinj : ∀ r ∈ C, ∀ r' ∈ C, r.1 = r'.1 → r = r' := by
    intro r hr r' hr' e
    have := fst_inj hd (E := [r]) (E' := [r']) (by simpa using hr) (by simpa using hr') (by simp [e])
    simpa using this
  rw [List.filter_map, List.filter_map, List.map_map]
  have e : E'.filter ((fun d => decide (d ∉ E.map (·.1))) ∘ fun x => x.1) = E'.filter ((fun r => decide (r ∉ E.map shown)) ∘ shown) := by
    refine List.filter_congr (fun r hr => ?_)
    dsimp only [Function.comp]
    congr 1
    refine propext (not_congr ?_)
    constructor
    · intro hm
      obtain ⟨e, he, ed⟩ := List.mem_map.mp hm
      have := hinj e (h1 e he) r (h2 r hr) ed
      subst this
      exact List.mem_map.mpr ⟨_, he, rfl⟩
    · intro hm
      obtain ⟨e, he, ed⟩ := List.mem_map.mp hm
      exact List.mem_map.mpr ⟨e, he, congrArg (·.1) ed⟩
  rw [e]
  rfl

/-- a result of the larger class that is not among the results of the smaller one is better than one of them, unless these are fewer than `k` -/
theorem Spec.Best.better {C : Coll} (hd : (C.map (·.1)).Nodup) {P Q : List Str → Prop} (hpq : ∀ r ∈ C, P r.2 → Q r.2) {k : Nat} {E E' : Coll}
    (h : Spec.Best C P k E) (h' : Spec.Best C Q k E') {r : Nat × List Str} (hr : r ∈ E') (hn : r ∉ E) : E.length < k ∨ ∃ e ∈ E, r.1 < e.1 := by
  apply Classical.byContradiction
  intro hc
  rw [not_or] at hc
  obtain ⟨c1, c2⟩ := hc
  have hk : E.length = k := Nat.le_antisymm h.le (Nat.le_of_not_lt c1)
  have hsub : ∀ e ∈ E, e ∈ E' := by
    intro e he
    apply Classical.byContradiction
    intro hne
    have := (h'.complete e (h.sound e he).1 (hpq e (h.sound e he).1 (h.sound e he).2) hne).2 r hr
    exact c2 ⟨e, he, this⟩
  have hnd : (r :: E).Nodup := by
    rw [List.nodup_cons]
    refine ⟨hn, h.sorted.imp ?_⟩
    intro a b hab e
    subst e
    exact Nat.lt_irrefl _ hab
  have := nodup_subset_length' (A := r :: E) (B := E') hnd (fun x hx => by
    rcases List.mem_cons.mp hx with rfl | hx
    · exact hr
    · exact hsub x hx)
  have := h'.le
  simp only [List.length_cons] at *
  omega

/-- what prefix search finds, conjunctive search finds -/
theorem foundBy_conj {C : Coll} {pre pre' : List Str → Str → List Str → Prop} (hp : pre = PrefixFound C ∨ pre = PrefixFound2 C) (q : Str) (k : Nat) :
    ∀ r ∈ C, foundBy C pre ⟨false, q, k⟩ r.2 → foundBy C pre' ⟨true, q, k⟩ r.2 := by
  intro r _ hf
  have hf' : PrefixFound C (completeTerms q) (lastTerm q) r.2 := by
    rcases hp with rfl | rfl
    · exact hf
    · exact hf.1
  obtain ⟨x, hx1, hx2⟩ := hf'
  have hsub : ∀ t ∈ completeTerms q ++ [x], t ∈ r.2 := fun t ht => hx2.subset ht
  exact ⟨fun t ht _ => hsub t (by simp [ht]), x, hsub x (by simp), hx1⟩

/-- with repetitions in the first list: every element of the second removes one -/
theorem setDifference_length : ∀ (fuel : Nat) (b a : List Nat), b.Pairwise (· ≤ ·) → a.Pairwise (· < ·) → b.length + a.length < fuel →
    (setDifference fuel b a).length + (a.filter (fun x => decide (x ∈ b))).length = b.length
  | 0, _, _, _, _, h => by omega
  | _ + 1, [], a, _, _, _ => by simp [setDifference]
  | _ + 1, x :: b, [], _, _, _ => by simp [setDifference]
  | fuel + 1, x :: b, y :: a, hb, ha, h => by
      have hb' := List.pairwise_cons.mp hb
      have ha' := List.pairwise_cons.mp ha
      simp only [List.length_cons] at h
      rw [setDifference]
      split
      case isTrue hxy =>
        have ih := setDifference_length fuel b (y :: a) hb'.2 ha (by simp only [List.length_cons]; omega)
        have e : (y :: a).filter (fun z => decide (z ∈ x :: b)) = (y :: a).filter (fun z => decide (z ∈ b)) := by
          refine List.filter_congr (fun z hz => ?_)
          have : z ≠ x := by
            rcases List.mem_cons.mp hz with rfl | hz
            · omega
            · have := ha'.1 z hz; omega
          simp [this]
        rw [e]
        simp only [List.length_cons]
        omega
      case isFalse hxy =>
        split
        case isTrue hyx =>
          have ih := setDifference_length fuel (x :: b) a hb ha'.2 (by simp only [List.length_cons]; omega)
          have : y ∉ x :: b := by
            intro hm
            rcases List.mem_cons.mp hm with e | hm
            · omega
            · have := hb'.1 y hm; omega
          rw [List.filter_cons_of_neg (by simpa using this)]
          exact ih
        case isFalse hyx =>
          have exy : x = y := by omega
          subst exy
          have ih := setDifference_length fuel b a hb'.2 ha'.2 (by omega)
          have e : a.filter (fun z => decide (z ∈ x :: b)) = a.filter (fun z => decide (z ∈ b)) := by
            refine List.filter_congr (fun z hz => ?_)
            have := ha'.1 z hz
            have : z ≠ x := by omega
            simp [this]
          rw [List.filter_cons_of_pos (by simp), e]
          simp only [List.length_cons]
          omega

theorem Shows.ok {terms : List Str} {E : Coll} {o : M Scratch} (h : Shows terms E o) {s : Scratch} (ho : o = .ok s) :
    s.WF ∧ s.pool.results = .ok (E.map shown) ∧ s.pool.Holds (E.map (fun r => joined r.2)) := by
  rw [ho] at h
  rcases h with ⟨e, _⟩ | ⟨s', e, hw, h1, _, _, h3⟩
  · simp at e
  · cases e; exact ⟨hw, h1, h3⟩

theorem Shows.both {terms : List Str} {E : Coll} {o o' : M Scratch} (h : Shows terms E o) (h' : Shows terms E o') :
    (o = .error .oob ∧ o' = .error .oob) ∨ ∃ s s', o = .ok s ∧ o' = .ok s' := by
  rcases h with ⟨e1, e2, _⟩ | ⟨s, e1, _, e2, e3, _⟩
  · rcases h' with ⟨f1, f2, _⟩ | ⟨s', f1, _, f2, f3, _⟩
    · exact Or.inl ⟨e1, f1⟩
    · exact absurd f3 e2
  · rcases h' with ⟨f1, f2, _⟩ | ⟨s', f1, _, f2, f3, _⟩
    · exact absurd e3 f2
    · exact Or.inr ⟨s, s', e1, f1⟩

/-- the elements that two lists of results have in common, by document ids -/
theorem filter_common {C : Coll} (hd : (C.map (·.1)).Nodup) {E E' : Coll} (h1 : ∀ r ∈ E, r ∈ C) (h2 : ∀ r ∈ E', r ∈ C) :
    (E'.map (·.1)).filter (fun d => decide (d ∈ E.map (·.1))) = ((E'.map shown).filter (fun r => decide (r ∈ E.map shown))).map (·.1) := by
  have hinj : ∀ r ∈ C, ∀ r' ∈ C, r.1 = r'.1 → r = r' := by
    intro r hr r' hr' e
    have := fst_inj hd (E := [r]) (E' := [r']) (by simpa using hr) (by simpa using hr') (by simp [e])
    simpa using this
  rw [List.filter_map, List.filter_map, List.map_map]
  have e : E'.filter ((fun d => decide (d ∈ E.map (·.1))) ∘ fun x => x.1) = E'.filter ((fun r => decide (r ∈ E.map shown)) ∘ shown) := by
    refine List.filter_congr (fun r hr => ?_)
    dsimp only [Function.comp]
    congr 1
    refine propext ?_
    constructor
    · intro hm
      obtain ⟨e, he, ed⟩ := List.mem_map.mp hm
      have := hinj e (h1 e he) r (h2 r hr) ed
      subst this
      exact List.mem_map.mpr ⟨_, he, rfl⟩
    · intro hm
      obtain ⟨e, he, ed⟩ := List.mem_map.mp hm
      exact List.mem_map.mpr ⟨e, he, congrArg (·.1) ed⟩
  rw [e]
  rfl

end AC
