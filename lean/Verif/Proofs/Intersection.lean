import Verif.Proofs.InvertedIndex
import Verif.Proofs.All2
/-!
# The intersection iterator
-/
namespace AC

/-- iterators over the lists `ls` -/
def Its (ii : InvIdx) (u : Nat) (its : List CEI) (ls : List (List Nat)) : Prop :=
  All2 (fun it l => ∃ p, ii.ItAt u l it p) its ls

/-- the document is in all lists -/
def InAll (ls : List (List Nat)) (d : Nat) : Prop := ∀ l ∈ ls, d ∈ l

namespace Inter
variable {ii : InvIdx} {u : Nat}

theorem id32_of_le {u x : Nat} (hu : u < 2 ^ 32) (h : x ≤ u) : id32 x = x := Nat.mod_eq_of_lt (by omega)

/-- the state of `next()` -/
structure LoopInv (ii : InvIdx) (u : Nat) (ls : List (List Nat)) (s : Inter) : Prop where
  its : Its ii u s.its ls
  le : s.candidate ≤ u
  i : s.i ≤ s.its.length
  vals : ∀ j (hj : j < s.its.length), j < s.i → (s.its[j]).value = s.candidate

theorem nextLoop_spec (hd : ii.numDocs = u) (hu : u < 2 ^ 32) {ls : List (List Nat)} (hne : ls ≠ []) :
    ∀ (fuel val : Nat) (s : Inter), LoopInv ii u ls s → (val = s.candidate ∨ val < u) →
      (u - s.candidate) * (s.its.length + 1) + (s.its.length - s.i) < fuel →
      ∃ s', nextLoop ii fuel val s = .ok s' ∧ Its ii u s'.its ls ∧ s.candidate ≤ s'.candidate ∧ s'.candidate ≤ u ∧
        (s'.candidate = u ∨ ∀ it ∈ s'.its, it.value = s'.candidate) ∧
        (∀ d, InAll ls d → s.candidate ≤ d → s'.candidate ≤ d) := by
  intro fuel
  induction fuel with
  | zero => intro val s _ _ h; omega
  | succ fuel ih =>
      intro val s h hval hf
      unfold nextLoop
      split
      · rename_i hc
        have hi : s.i < s.its.length := by have := h.i; omega
        have hlen := All2.length h.its
        have hi2 : s.i < ls.length := by omega
        obtain ⟨p, hp⟩ := All2.get h.its s.i hi hi2
        obtain ⟨it', p', e1, e2, e3, e4⟩ := hp.nextGeq h.le
        rw [rd_ok hi]
        simp only [M.ok_bind]
        rw [e1]
        simp only [M.ok_bind]
        rw [wr_ok hi]
        simp only [M.ok_bind]
        rw [id32_of_le hu e2.value_le]
        have hits : Its ii u (s.its.set s.i it') ls := All2.set h.its hi2 ⟨p', e2⟩
        split
        · rename_i hv
          have hlt : s.candidate < it'.value := by omega
          have hle := e2.value_le
          obtain ⟨s', f1, f2, f3, f4, f5, f6⟩ := ih it'.value ⟨it'.value, 0, s.its.set s.i it'⟩
            ⟨hits, hle, by simp, by intro j _ hj; simp at hj⟩ (Or.inl rfl) (by
              simp only [List.length_set]
              have h1 : (u - s.candidate) * (s.its.length + 1) =
                  (u - it'.value) * (s.its.length + 1) + (it'.value - s.candidate) * (s.its.length + 1) := by
                rw [← Nat.add_mul]; congr 1; omega
              have h2 : 1 * (s.its.length + 1) ≤ (it'.value - s.candidate) * (s.its.length + 1) :=
                Nat.mul_le_mul_right _ (by omega)
              omega)
          simp only at f3 f6
          refine ⟨s', f1, f2, by omega, f4, f5, ?_⟩
          intro d hd' hcd
          have : it'.value ≤ d := e4 d (hd' _ (List.getElem_mem hi2)) hcd
          exact f6 d hd' this
        · rename_i hv
          have hv' : it'.value = s.candidate := by omega
          obtain ⟨s', f1, f2, f3, f4, f5, f6⟩ := ih it'.value ⟨s.candidate, s.i + 1, s.its.set s.i it'⟩
            ⟨hits, h.le, by simp only [List.length_set]; omega, by
              intro j hj hji
              simp only [List.getElem_set]
              split
              · exact hv'
              · exact h.vals j (by simpa using hj) (by simp only at hji; omega)⟩ (Or.inl hv') (by
              simp only [List.length_set]; omega)
          exact ⟨s', f1, f2, f3, f4, f5, f6⟩
      · rename_i hc
        refine ⟨s, rfl, h.its, Nat.le_refl _, h.le, ?_, fun d _ hd => hd⟩
        by_cases hval' : val < ii.numDocs
        · right
          have hi : s.i = s.its.length := Classical.not_not.mp (fun hn => hc ⟨hval', hn⟩)
          intro it hit
          obtain ⟨j, hj, rfl⟩ := List.getElem_of_mem hit
          exact h.vals j hj (by omega)
        · left
          have := h.le
          omega

/-- the iterator is about to enumerate `R` -/
structure Enum (ii : InvIdx) (u : Nat) (s : Inter) (ls : List (List Nat)) (R : List Nat) : Prop where
  docs : ii.numDocs = u
  univ : u < 2 ^ 32
  ne : ls ≠ []
  its : Its ii u s.its ls
  le : s.candidate ≤ u
  here : s.candidate = u ∨ ∀ it ∈ s.its, it.value = s.candidate
  sorted : R.Pairwise (· < ·)
  mem : ∀ d, d ∈ R ↔ InAll ls d ∧ s.candidate ≤ d

theorem Its.bound {its : List CEI} {ls : List (List Nat)} (h : Its ii u its ls) (hne : ls ≠ []) (d : Nat) (hd : InAll ls d) :
    d < u := by
  have hl : 0 < ls.length := List.length_pos_iff.mpr hne
  obtain ⟨p, hp⟩ := All2.get h 0 (by rw [All2.length h]; exact hl) hl
  exact hp.bound d (hd _ (List.getElem_mem hl))

/-- what an enumeration of `R` does -/
theorem Enum.step {s : Inter} {ls : List (List Nat)} {R : List Nat} (h : Enum ii u s ls R) :
    (R = [] → s.hasNext ii = false) ∧
    (∀ d R', R = d :: R' → s.hasNext ii = true ∧ s.candidate = d ∧ ∃ s', s.inc ii = .ok s' ∧ Enum ii u s' ls R') := by
  have hl : 0 < ls.length := List.length_pos_iff.mpr h.ne
  have hlen := All2.length h.its
  have hcand : s.candidate < u → InAll ls s.candidate := by
    intro hlt
    have hv := h.here.resolve_left (by omega)
    intro l hl'
    obtain ⟨j, hj, rfl⟩ := List.getElem_of_mem hl'
    obtain ⟨p, hp⟩ := All2.get h.its j (by omega) hj
    have := hv _ (List.getElem_mem (by omega : j < s.its.length))
    rw [← this]
    exact (hp.value_mem (by omega)).2
  have hiff : s.candidate < u ↔ s.candidate ∈ R := by
    constructor
    · intro hlt; exact (h.mem _).mpr ⟨hcand hlt, Nat.le_refl _⟩
    · intro hm; exact Its.bound h.its h.ne _ ((h.mem _).mp hm).1
  have hhas : s.hasNext ii = decide (s.candidate < u) := by unfold hasNext; rw [h.docs]
  constructor
  · intro hR
    rw [hhas, decide_eq_false]
    rw [hiff, hR]; simp
  · intro d R' hR
    have hlt : s.candidate < u := by
      have hm := (h.mem d).mp (by rw [hR]; exact List.mem_cons_self ..)
      have := Its.bound h.its h.ne d hm.1
      omega
    have hd : s.candidate = d := by
      have hm := (h.mem d).mp (by rw [hR]; exact List.mem_cons_self ..)
      have hs := h.sorted
      have hc := hiff.mp hlt
      rw [hR] at hs hc
      rcases List.mem_cons.mp hc with hc | hc
      · exact hc
      · have := (List.pairwise_cons.mp hs).1 _ hc; omega
    refine ⟨by rw [hhas]; exact decide_eq_true hlt, hd, ?_⟩
    have hv := h.here.resolve_left (by omega)
    have h0 : 0 < s.its.length := by omega
    obtain ⟨p, hp⟩ := All2.get h.its 0 h0 hl
    have hv0 := hv _ (List.getElem_mem h0)
    obtain ⟨hplt, _⟩ := hp.value_mem (by omega)
    obtain ⟨it', e1, e2⟩ := hp.next hplt
    obtain ⟨n1, n2⟩ := hp.next_value e2 hplt
    have hits : Its ii u (s.its.set 0 it') ls := All2.set h.its hl ⟨_, e2⟩
    obtain ⟨s', f1, f2, f3, f4, f5, f6⟩ := nextLoop_spec (ii := ii) (u := u) h.docs h.univ h.ne
      ((ii.numDocs + 2) * ((s.its.set 0 it').length + 1) + 1) 0 ⟨it'.value, 1, s.its.set 0 it'⟩
      ⟨hits, e2.value_le, by simp only [List.length_set]; omega, by
        intro j hj hj1
        have : j = 0 := by simp only at hj1; omega
        subst this
        simp⟩ (Or.inr (by omega)) (by
        simp only [List.length_set]
        rw [h.docs]
        have : (u - it'.value) * (s.its.length + 1) ≤ u * (s.its.length + 1) := Nat.mul_le_mul_right _ (by omega)
        have : (u + 2) * (s.its.length + 1) = u * (s.its.length + 1) + 2 * (s.its.length + 1) := Nat.add_mul ..
        omega)
    refine ⟨s', ?_, ?_⟩
    · unfold inc
      rw [rd_ok h0]
      simp only [M.ok_bind]
      rw [e1]
      simp only [M.ok_bind]
      rw [wr_ok h0]
      simp only [M.ok_bind]
      rw [id32_of_le h.univ e2.value_le]
      exact f1
    · have hs := h.sorted
      rw [hR] at hs
      obtain ⟨s1, s2⟩ := List.pairwise_cons.mp hs
      refine ⟨h.docs, h.univ, h.ne, f2, f4, f5, s2, ?_⟩
      intro x
      simp only at f3 f6
      have hx0 := h.mem x
      rw [hR] at hx0
      constructor
      · intro hx
        obtain ⟨m1, m2⟩ := hx0.mp (List.mem_cons_of_mem _ hx)
        have := s1 x hx
        have := n2 x (m1 _ (List.getElem_mem hl)) (by omega)
        exact ⟨m1, f6 x m1 this⟩
      · intro ⟨m1, m2⟩
        rcases List.mem_cons.mp (hx0.mpr ⟨m1, by omega⟩) with hx | hx
        · omega
        · exact hx

theorem collect_spec : ∀ (R : List Nat) (fuel : Nat) (s : Inter) (ls : List (List Nat)), Enum ii u s ls R → R.length < fuel →
    collect ii fuel s = .ok R := by
  intro R
  induction R with
  | nil =>
      intro fuel s ls h hf
      obtain ⟨fuel, rfl⟩ := Nat.exists_eq_succ_of_ne_zero (by omega : fuel ≠ 0)
      unfold collect
      rw [h.step.1 rfl]; rfl
  | cons d R ih =>
      intro fuel s ls h hf
      obtain ⟨fuel, rfl⟩ := Nat.exists_eq_succ_of_ne_zero (by omega : fuel ≠ 0)
      obtain ⟨h1, h2, s', h3, h4⟩ := h.step.2 d R rfl
      unfold collect
      rw [h1, h3, if_pos rfl]
      simp only [M.ok_bind]
      rw [ih fuel s' ls h4 (by simpa using hf)]
      simp only [M.ok_bind, h2]

theorem iterators_spec {lists : List (List Nat)} (h : ii.Rep u lists) : ∀ ids : List Nat,
    (∀ id ∈ ids, 0 < id ∧ id ≤ lists.length) →
    ∃ its, iterators ii ids = .ok its ∧ Its ii u its (ids.map (fun id => lists.getD (id - 1) [])) := by
  intro ids
  induction ids with
  | nil => intro _; exact ⟨[], rfl, .nil⟩
  | cons id ids ih =>
      intro hv
      obtain ⟨v1, v2⟩ := hv id (List.mem_cons_self ..)
      obtain ⟨its, e1, e2⟩ := ih (fun i hi => hv i (List.mem_cons_of_mem _ hi))
      obtain ⟨it, f1, f2⟩ := InvIdx.iterator_spec h (id - 1) (by omega)
      refine ⟨it :: its, ?_, ?_⟩
      · unfold iterators
        rw [InvIdx.iteratorOf_pos v1, f1]
        simp only [M.ok_bind]
        rw [e1]
        rfl
      · rw [List.map_cons]
        refine .cons ⟨0, ?_⟩ e2
        rw [List.getD_eq_getElem?_getD, List.getElem?_eq_getElem (by omega)]
        exact f2

theorem mk'_spec (std : StdLib) {lists : List (List Nat)} (h : ii.Rep u lists) (ids : List Nat) (hne : ids ≠ [])
    (hv : ∀ id ∈ ids, 0 < id ∧ id ≤ lists.length) (R : List Nat) (hs : R.Pairwise (· < ·))
    (hR : ∀ d, d ∈ R ↔ ∀ id ∈ ids, d ∈ lists.getD (id - 1) []) :
    ∃ s ls, mk' std ii ids = .ok s ∧ Enum ii u s ls R := by
  obtain ⟨its, e1, e2⟩ := iterators_spec h ids hv
  obtain ⟨ls, p1, p2⟩ := All2.perm (std.sort_perm (fun it : CEI => it.off.n) its).symm e2
  have hlen := All2.length p2
  have hl : 0 < ls.length := by
    rw [← p1.length_eq, List.length_map]; exact List.length_pos_iff.mpr hne
  have h0 : 0 < (std.sort (fun it : CEI => it.off.n) its).length := by omega
  obtain ⟨p, hp⟩ := All2.get p2 0 h0 hl
  obtain ⟨it', f1, f2⟩ := hp.access (i := 0) (Nat.zero_le _)
  have hits : Its ii u ((std.sort (fun it : CEI => it.off.n) its).set 0 it') ls := All2.set p2 hl ⟨_, f2⟩
  have hdocs := h.docs
  have hpos : 0 < u := by
    obtain ⟨id, hid⟩ := List.exists_mem_of_ne_nil _ hne
    obtain ⟨v1, v2⟩ := hv id hid
    obtain ⟨g1, g2, g3⟩ := h.valid.each lists[id - 1] (List.getElem_mem (by omega))
    obtain ⟨x, hx⟩ := List.exists_mem_of_ne_nil _ g1
    have := g3 x hx; omega
  obtain ⟨s', q1, q2, q3, q4, q5, q6⟩ := nextLoop_spec (ii := ii) (u := u) h.docs h.valid.univ (List.length_pos_iff.mp hl)
    ((ii.numDocs + 2) * (((std.sort (fun it : CEI => it.off.n) its).set 0 it').length + 1) + 1) 0
    ⟨it'.value, 1, (std.sort (fun it : CEI => it.off.n) its).set 0 it'⟩
    ⟨hits, f2.value_le, by simp only [List.length_set]; omega, by
      intro j hj hj1
      have : j = 0 := by simp only at hj1; omega
      subst this
      simp⟩ (Or.inr hpos) (by
      simp only [List.length_set]
      rw [h.docs]
      generalize (std.sort (fun it : CEI => it.off.n) its).length = k
      have : (u - it'.value) * (k + 1) ≤ u * (k + 1) := Nat.mul_le_mul_right _ (by omega)
      have : (u + 2) * (k + 1) = u * (k + 1) + 2 * (k + 1) := Nat.add_mul ..
      omega)
  refine ⟨s', ls, ?_, ?_⟩
  · unfold mk'
    rw [e1]
    simp only [M.ok_bind]
    rw [rd_ok h0]
    simp only [M.ok_bind]
    rw [f1]
    simp only [M.ok_bind]
    rw [wr_ok h0]
    simp only [M.ok_bind]
    rw [id32_of_le h.valid.univ f2.value_le]
    exact q1
  · refine ⟨h.docs, h.valid.univ, List.length_pos_iff.mp hl, q2, q4, q5, hs, ?_⟩
    intro d
    have hin : InAll ls d ↔ ∀ id ∈ ids, d ∈ lists.getD (id - 1) [] := by
      unfold InAll
      constructor
      · intro hd id hid
        exact hd _ (p1.mem_iff.mp (List.mem_map.mpr ⟨id, hid, rfl⟩))
      · intro hd l hl'
        obtain ⟨id, hid, rfl⟩ := List.mem_map.mp (p1.mem_iff.mpr hl')
        exact hd id hid
    rw [hR, ← hin]
    constructor
    · intro hd
      refine ⟨hd, q6 d hd ?_⟩
      have hd0 := hd _ (List.getElem_mem hl)
      show it'.value ≤ d
      rw [f2.value]
      obtain ⟨j, hj, he⟩ := List.getElem_of_mem hd0
      have h1 : 0 < ls[0].length := by omega
      rw [List.getElem?_eq_getElem h1, ← he]
      simp only [Option.getD_some]
      cases j with
      | zero => exact Nat.le_refl _
      | succ j => exact Nat.le_of_lt (List.pairwise_iff_getElem.mp f2.sorted 0 (j + 1) h1 hj (by omega))
    · intro hd; exact hd.1

end Inter
end AC
