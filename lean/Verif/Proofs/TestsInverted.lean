import Verif.Spec.Tests
import Verif.Proofs.TestsCommon
import Verif.Proofs.Intersection
/-!
# The tests of the inverted index
-/
namespace AC.Tests

/-! ## Increasing lists of numbers -/

theorem inc_nodup {A : List Nat} (h : A.Pairwise (· < ·)) : A.Nodup := h.imp (fun h => Nat.ne_of_lt h)

theorem inc_ext {A B : List Nat} (hA : A.Pairwise (· < ·)) (hB : B.Pairwise (· < ·)) (h : ∀ x, x ∈ A ↔ x ∈ B) : A = B := by
  refine List.Perm.eq_of_pairwise (le := (· < ·)) ?_ hA hB ?_
  · intro a b _ _ h1 h2; omega
  · rw [List.perm_ext_iff_of_nodup (inc_nodup hA) (inc_nodup hB)]
    exact h

theorem inc_ge : ∀ {A : List Nat} {b : Nat}, A.Pairwise (· < ·) → (∀ x ∈ A, b ≤ x) → ∀ {u : Nat}, (∀ x ∈ A, x < u) → b ≤ u → A.length + b ≤ u
  | [], _, _, _, _, _, h => by simpa using h
  | a :: A, b, h, hb, u, hu, hbu => by
      obtain ⟨h1, h2⟩ := List.pairwise_cons.mp h
      have := hb a (by simp)
      have := hu a (by simp)
      have := inc_ge (b := b + 1) h2 (fun x hx => by have := h1 x hx; omega) (fun x hx => hu x (by simp [hx])) (by omega)
      simp only [List.length_cons]
      omega

theorem inc_length {A : List Nat} {u : Nat} (h : A.Pairwise (· < ·)) (hu : ∀ x ∈ A, x < u) : A.length ≤ u :=
  inc_ge (b := 0) h (fun _ _ => Nat.zero_le _) hu (Nat.zero_le _)

/-! ## The lists -/

theorem listOk_spec {ii : InvIdx} {u : Nat} {l : List Nat} : ∀ (xs : List Nat) (it : CEI) (p : Nat), ii.ItAt u l it p →
    p + xs.length = l.length → listOk ii xs it = .ok (decide (xs = l.drop p))
  | [], it, p, h, hl => by
      rw [List.drop_eq_nil_of_le (by simp at hl; omega)]
      simp [listOk]
  | x :: xs, it, p, h, hl => by
      have hp : p < l.length := by simp at hl; omega
      obtain ⟨it', e1, e2⟩ := h.next hp
      have hv := h.value
      rw [List.getElem?_eq_getElem hp, Option.getD_some] at hv
      unfold listOk
      rw [hv, List.drop_eq_getElem_cons hp]
      by_cases hx : l[p] = x
      · rw [if_neg (by simpa using hx), e1, M.ok_bind, listOk_spec xs it' (p + 1) e2 (by simp at hl; omega)]
        subst hx
        simp only [List.cons.injEq, true_and]
      · rw [if_pos hx]
        have : ¬ x :: xs = l[p] :: l.drop (p + 1) := by
          intro h; injection h with h1 _; exact hx h1.symm
        rw [decide_eq_false this]

/-- the comparison of the lists of the index with those of the file -/
theorem listsOk_spec {ii : InvIdx} {u : Nat} {lists : List (List Nat)} (R : ii.Rep u lists) : ∀ (A : List (List Nat)) (t : Nat),
    t + A.length = lists.length → listsOk ii A t = .ok (decide (A = lists.drop t))
  | [], t, hl => by
      rw [List.drop_eq_nil_of_le (by simp at hl; omega)]
      simp [listsOk]
  | l :: ls, t, hl => by
      have ht : t < lists.length := by simp at hl; omega
      obtain ⟨it, e1, e2⟩ := InvIdx.iterator_spec R t ht
      unfold listsOk
      rw [e1, M.ok_bind, e2.size, List.drop_eq_getElem_cons ht]
      by_cases hlen : l.length = lists[t].length
      · rw [if_neg (by simpa using hlen), listOk_spec l it 0 e2 (by omega), M.ok_bind, List.drop_zero]
        by_cases he : l = lists[t]
        · simp only [he, decide_true, if_true, List.cons.injEq, true_and]
          exact listsOk_spec R ls (t + 1) (by simp at hl; omega)
        · rw [decide_eq_false he, decide_eq_false (fun h => he (by injection h))]
          rfl
      · rw [if_pos hlen, decide_eq_false (fun h => hlen (by injection h with h; rw [h]))]

/-! ## The expected intersections -/

theorem fill_spec {ii : InvIdx} {u : Nat} {l : List Nat} (hu : u < 2 ^ 32) : ∀ (n i : Nat) (it : CEI) (p : Nat) (v : List Nat), ii.ItAt u l it p →
    i + n = l.length → l.length ≤ v.length → v.take i = l.take i →
    ∃ v', fill ii n i it v = .ok v' ∧ v'.length = v.length ∧ v'.take l.length = l
  | 0, i, it, p, v, h, hn, hv, ht => by
      refine ⟨v, rfl, rfl, ?_⟩
      rw [← hn, Nat.add_zero, ht, List.take_of_length_le (by omega)]
  | n + 1, i, it, p, v, h, hn, hv, ht => by
      obtain ⟨it', e1, e2⟩ := h.access (i := i) (by omega)
      have hi : i < l.length := by omega
      have hval := e2.value
      rw [List.getElem?_eq_getElem hi, Option.getD_some] at hval
      have hlt := e2.bound _ (List.getElem_mem hi)
      unfold fill
      rw [e1, M.ok_bind, hval, id32, Nat.mod_eq_of_lt (by omega), wr_ok (by omega), M.ok_bind]
      obtain ⟨v', f1, f2, f3⟩ := fill_spec hu n (i + 1) it' i (v.set i l[i]) e2 (by omega) (by simpa using hv) (by
        rw [List.take_succ_eq_append_getElem hi, List.take_succ_eq_append_getElem (by simp; omega), List.getElem_set_self, List.take_set_of_le (Nat.le_refl _), ht])
      exact ⟨v', f1, by simpa using f2, f3⟩

theorem loadList_spec {ii : InvIdx} {u : Nat} {lists : List (List Nat)} (R : ii.Rep u lists) {id : Nat} (h0 : 1 ≤ id) (h1 : id ≤ lists.length)
    {v : List Nat} (hv : v.length = u) :
    ∃ v', loadList ii id v = .ok ((lists.getD (id - 1) []).length, v') ∧ v'.length = u ∧
      v'.take (lists.getD (id - 1) []).length = lists.getD (id - 1) [] := by
  have ht : id - 1 < lists.length := by omega
  have hg : lists.getD (id - 1) [] = lists[id - 1] := by simp [ht]
  obtain ⟨it, e1, e2⟩ := InvIdx.iterator_spec R (id - 1) ht
  have hl := R.valid.each _ (List.getElem_mem ht)
  obtain ⟨v', f1, f2, f3⟩ := fill_spec R.valid.univ lists[id - 1].length 0 it 0 v e2 (by omega) (by rw [hv]; exact inc_length hl.2.1 hl.2.2) (by simp)
  refine ⟨v', ?_, by omega, by rw [hg]; exact f3⟩
  unfold loadList InvIdx.iteratorOf
  rw [if_neg (by omega), e1, M.ok_bind, e2.size, f1, M.ok_bind, hg]

theorem intersectInto_spec {a b v : List Nat} (h : a.length ≤ v.length) :
    ∃ v', intersectInto a b v = .ok ((a.filter (b.contains ·)).length, v') ∧ v'.length = v.length ∧
      v'.take (a.filter (b.contains ·)).length = a.filter (b.contains ·) := by
  have := List.length_filter_le (b.contains ·) a
  refine ⟨_, by unfold intersectInto; rw [if_pos (by omega)], ?_, ?_⟩
  · rw [List.length_append, List.length_drop]; omega
  · exact List.take_left

/-- the documents of `A` that are in the lists of all terms -/
def meet (lists : List (List Nat)) (ids : List Nat) (A : List Nat) : List Nat :=
  A.filter fun d => ids.all fun id => (lists.getD (id - 1) []).contains d

theorem others_spec {ii : InvIdx} {u : Nat} {lists : List (List Nat)} (R : ii.Rep u lists) : ∀ (ids : List Nat) (A first second inter : List Nat),
    (∀ id ∈ ids, 1 ≤ id ∧ id ≤ lists.length) → first.length = u → second.length = u → inter.length = u → first.take A.length = A →
    ∃ f s i, others ii ids A.length first second inter = .ok ((meet lists ids A).length, f, s, i) ∧ f.length = u ∧ s.length = u ∧ i.length = u ∧
      f.take (meet lists ids A).length = meet lists ids A
  | [], A, first, second, inter, _, l1, l2, l3, hA => by
      have : meet lists [] A = A := List.filter_eq_self.mpr fun _ _ => rfl
      rw [this]
      exact ⟨first, second, inter, rfl, l1, l2, l3, hA⟩
  | id :: ids, A, first, second, inter, hids, l1, l2, l3, hA => by
      obtain ⟨g1, g2⟩ := hids id (List.mem_cons_self ..)
      obtain ⟨s', e1, e2, e3⟩ := loadList_spec R g1 g2 l2
      have hle : A.length ≤ u := by
        rw [← hA, List.length_take]; omega
      obtain ⟨i', f1, f2, f3⟩ := intersectInto_spec (a := A) (b := lists.getD (id - 1) []) (v := inter) (by omega)
      obtain ⟨f, s, i, k1, k2, k3, k4, k5⟩ := others_spec R ids _ i' s' first (fun id h => hids id (List.mem_cons_of_mem _ h)) (by omega) e2 l1 f3
      have hm : meet lists ids (A.filter ((lists.getD (id - 1) []).contains ·)) = meet lists (id :: ids) A := by
        unfold meet
        rw [List.filter_filter]
        congr 1
        funext d
        rw [List.all_cons, Bool.and_comm]
      rw [hm] at k1 k5
      refine ⟨f, s, i, ?_, k2, k3, k4, k5⟩
      unfold others
      rw [e1, M.ok_bind]
      dsimp only
      rw [hA, e3, f1, M.ok_bind]
      exact k1

theorem enumOk_spec {ii : InvIdx} {u : Nat} {ls : List (List Nat)} {F : List Nat} : ∀ (R : List Nat) (fuel n : Nat) (s : Inter),
    Inter.Enum ii u s ls R → R.length < fuel → (F.drop n).take R.length = R → enumOk ii F fuel n s = .ok (some (n + R.length))
  | [], fuel + 1, n, s, h, _, _ => by
      unfold enumOk
      rw [h.step.1 rfl]
      simp
  | d :: R, fuel + 1, n, s, h, hf, hF => by
      obtain ⟨h1, h2, s', h3, h4⟩ := h.step.2 d R rfl
      have hn : n < F.length := by
        have := congrArg List.length hF
        rw [List.length_take, List.length_drop, List.length_cons] at this
        omega
      rw [List.drop_eq_getElem_cons hn, List.length_cons, List.take_succ_cons] at hF
      injection hF with hF1 hF2
      unfold enumOk
      rw [h1, if_pos rfl, rd_ok hn, M.ok_bind, h2, hF1, if_neg (by simp), h3, M.ok_bind,
        enumOk_spec R fuel (n + 1) s' h4 (by simp at hf; omega) hF2]
      simp only [List.length_cons]
      congr 2
      omega
  | _, 0, _, _, _, hf, _ => by omega

theorem queryOk_spec {std : StdLib} {ii : InvIdx} {u : Nat} {lists : List (List Nat)} (R : ii.Rep u lists) {q : Ids} (h2 : 2 ≤ q.length)
    (hq : ∀ id ∈ q, 1 ≤ id ∧ id ≤ lists.length) {first second inter : List Nat} (l1 : first.length = u) (l2 : second.length = u)
    (l3 : inter.length = u) :
    ∃ f s i, queryOk std ii q first second inter = .ok (true, f, s, i) ∧ f.length = u ∧ s.length = u ∧ i.length = u := by
  match q, h2 with
  | [], h => simp at h
  | [_], h => simp at h
  | id1 :: id2 :: ids, _ =>
    obtain ⟨a1, a2⟩ := hq id1 (by simp)
    obtain ⟨b1, b2⟩ := hq id2 (by simp)
    have hi1 : id1 - 1 < lists.length := by omega
    have hl1 : (lists.getD (id1 - 1) []).Pairwise (· < ·) ∧ ∀ x ∈ lists.getD (id1 - 1) [], x < u := by
      rw [show lists.getD (id1 - 1) [] = lists[id1 - 1] by simp [hi1]]
      exact (R.valid.each _ (List.getElem_mem hi1)).2
    obtain ⟨f1, e1, e2, e3⟩ := loadList_spec R a1 a2 l1
    obtain ⟨s1, e4, e5, e6⟩ := loadList_spec R b1 b2 l2
    obtain ⟨i1, e7, e8, e9⟩ := intersectInto_spec (a := lists.getD (id1 - 1) []) (b := lists.getD (id2 - 1) []) (v := inter)
      (by have := inc_length hl1.1 hl1.2; omega)
    obtain ⟨f, s, i, k1, k2, k3, k4, k5⟩ := others_spec R ids _ i1 s1 f1 (fun id h => hq id (by simp [h])) (by omega) e5 e2 e9
    have hm : meet lists ids ((lists.getD (id1 - 1) []).filter ((lists.getD (id2 - 1) []).contains ·)) =
        meet lists (id2 :: ids) (lists.getD (id1 - 1) []) := by
      unfold meet
      rw [List.filter_filter]
      congr 1
      funext d
      rw [List.all_cons, Bool.and_comm]
    rw [hm] at k1 k5
    obtain ⟨st, ls, g1, g2⟩ := Inter.mk'_spec std R (id1 :: id2 :: ids) (by simp) (fun id h => hq id h)
      (meet lists (id2 :: ids) (lists.getD (id1 - 1) [])) (hl1.1.filter _) (by
        intro d
        unfold meet
        simp only [List.mem_filter, List.all_eq_true, List.contains_iff_mem, List.mem_cons, forall_eq_or_imp])
    have hlen : (meet lists (id2 :: ids) (lists.getD (id1 - 1) [])).length < ii.numDocs + 1 := by
      have h1 := inc_length hl1.1 hl1.2
      have h2 := List.length_filter_le (fun d => (id2 :: ids).all fun id => (lists.getD (id - 1) []).contains d) (lists.getD (id1 - 1) [])
      rw [R.docs]
      unfold meet
      omega
    refine ⟨f, s, i, ?_, k2, k3, k4⟩
    unfold queryOk
    dsimp only
    rw [e1, M.ok_bind]
    dsimp only
    rw [e4, M.ok_bind]
    dsimp only
    rw [e3, e6, e7, M.ok_bind]
    dsimp only
    rw [k1, M.ok_bind]
    dsimp only
    rw [g1, M.ok_bind, enumOk_spec _ _ 0 st g2 hlen (by simpa using k5), M.ok_bind]
    simp

theorem queriesOk_spec {std : StdLib} {ii : InvIdx} {u : Nat} {lists : List (List Nat)} (R : ii.Rep u lists) : ∀ (qs : List Ids),
    (∀ q ∈ qs, 2 ≤ q.length ∧ ∀ id ∈ q, 1 ≤ id ∧ id ≤ lists.length) → ∀ {first second inter : List Nat}, first.length = u → second.length = u →
    inter.length = u → queriesOk std ii qs first second inter = .ok true
  | [], _, _, _, _, _, _, _ => rfl
  | q :: qs, hqs, first, second, inter, l1, l2, l3 => by
      obtain ⟨h1, h2⟩ := hqs q (List.mem_cons_self ..)
      obtain ⟨f, s, i, e1, e2, e3, e4⟩ := queryOk_spec (std := std) R h1 h2 l1 l2 l3
      unfold queriesOk
      rw [e1, M.ok_bind]
      exact queriesOk_spec R qs (fun q h => hqs q (List.mem_cons_of_mem _ h)) e2 e3 e4

/-! ## The generation of the queries -/

theorem draw_spec (std : StdLib) (l : List Nat) : (unique (std.sort id l)).Pairwise (· < ·) ∧ (∀ x, x ∈ unique (std.sort id l) ↔ x ∈ l) := by
  obtain ⟨h1, h2, _⟩ := unique_spec (l := std.sort id l) (std.sort_sorted id l)
  exact ⟨h1, fun x => by rw [h2, (std.sort_perm id l).mem_iff]⟩

theorem two_le_iff {l : List Nat} (h : l.Pairwise (· < ·)) : 2 ≤ l.length ↔ ∃ x ∈ l, ∃ y ∈ l, x ≠ y := by
  match l with
  | [] => simp
  | [a] => simp
  | a :: b :: l =>
    have := (List.pairwise_cons.mp h).1 b (by simp)
    simp only [List.length_cons, Nat.le_add_left, true_iff]
    exact ⟨a, by simp, b, by simp, by omega⟩

theorem genQuery_ok (std : StdLib) {draw : Nat → List Nat} : ∀ (fuel i j : Nat), i ≤ j → j < i + fuel → (∃ x ∈ draw j, ∃ y ∈ draw j, x ≠ y) →
    ∃ q r, genQuery std draw fuel i = .ok q ∧ 2 ≤ q.length ∧ q.Pairwise (· < ·) ∧ ∀ x, x ∈ q ↔ x ∈ draw r
  | 0, i, j, h1, h2, _ => by omega
  | fuel + 1, i, j, h1, h2, hd => by
      obtain ⟨p1, p2⟩ := draw_spec std (draw i)
      unfold genQuery
      dsimp only
      split
      · rename_i h; exact ⟨_, i, rfl, h, p1, p2⟩
      · rename_i h
        have hne : i ≠ j := by
          rintro rfl
          apply h
          rw [two_le_iff p1]
          obtain ⟨x, hx, y, hy, hxy⟩ := hd
          exact ⟨x, (p2 x).mpr hx, y, (p2 y).mpr hy, hxy⟩
        exact genQuery_ok std fuel (i + 1) j (by omega) (by omega) hd

theorem genQuery_diverge (std : StdLib) {draw : Nat → List Nat} (h : ∀ i, ∀ x ∈ draw i, ∀ y ∈ draw i, x = y) : ∀ (fuel i : Nat),
    genQuery std draw fuel i = .error .diverge
  | 0, _ => rfl
  | fuel + 1, i => by
      obtain ⟨p1, p2⟩ := draw_spec std (draw i)
      unfold genQuery
      dsimp only
      rw [if_neg, genQuery_diverge std h fuel]
      rw [two_le_iff p1]
      rintro ⟨x, hx, y, hy, hxy⟩
      exact hxy (h i x ((p2 x).mp hx) y ((p2 y).mp hy))

theorem genQueries_ok (std : StdLib) {numTerms fuel : Nat} : ∀ (draws : List (Nat → List Nat)), (∀ draw ∈ draws, Drawn numTerms fuel draw) →
    ∃ qs, genQueries std fuel draws = .ok qs ∧ qs.length = draws.length ∧ ∀ q ∈ qs, 2 ≤ q.length ∧ ∀ id ∈ q, 1 ≤ id ∧ id ≤ numTerms
  | [], _ => ⟨[], rfl, rfl, by simp⟩
  | draw :: draws, h => by
      obtain ⟨h1, j, hj, h2⟩ := h draw (List.mem_cons_self ..)
      obtain ⟨q, r, e1, e2, _, e3⟩ := genQuery_ok std fuel 0 j (by omega) (by omega) h2
      obtain ⟨qs, f1, f2, f3⟩ := genQueries_ok std draws fun d hd => h d (List.mem_cons_of_mem _ hd)
      refine ⟨q :: qs, ?_, by simp [f2], ?_⟩
      · unfold genQueries
        rw [e1, M.ok_bind, f1, M.ok_bind]
      · intro q' hq'
        rcases List.mem_cons.mp hq' with rfl | hq'
        · exact ⟨e2, fun id hid => h1 r id ((e3 id).mp hid)⟩
        · exact f3 q' hq'

/-! ## The tests -/

theorem inverted_spec {u : Nat} {lists : List (List Nat)} (h : InvLists u lists) (after : W) : inverted u lists after = .ok true := by
  obtain ⟨b, e1, _, e3⟩ := InvBuilder.build_spec h
  obtain ⟨ii, f1, R⟩ := e3 after
  unfold inverted
  rw [e1, M.ok_bind, f1, M.ok_bind, if_neg (by rw [R.docs, R.terms]; simp), listsOk_spec R lists 0 (by simp)]
  simp

theorem intersections_spec (std : StdLib) {fuel u : Nat} {lists : List (List Nat)} (h : InvLists u lists) (after : W) {draws : List (Nat → List Nat)}
    (hd : ∀ draw ∈ draws, Drawn lists.length fuel draw) : intersections std fuel u lists after draws = .ok true := by
  obtain ⟨b, e1, _, e3⟩ := InvBuilder.build_spec h
  obtain ⟨ii, f1, R⟩ := e3 after
  obtain ⟨qs, g1, _, g2⟩ := genQueries_ok std draws hd
  unfold intersections
  rw [e1, M.ok_bind, f1, M.ok_bind, if_neg (by rw [R.docs, R.terms]; simp), g1, M.ok_bind]
  exact queriesOk_spec R qs g2 (by simp [R.docs]) (by simp [R.docs]) (by simp [R.docs])

theorem intersections_diverge (std : StdLib) (fuel : Nat) {u : Nat} {l : List Nat} (h : InvLists u [l]) (after : W) {draw : Nat → List Nat}
    {draws : List (Nat → List Nat)} (hd : ∀ i, ∀ x ∈ draw i, 1 ≤ x ∧ x ≤ 1) :
    intersections std fuel u [l] after (draw :: draws) = .error .diverge := by
  obtain ⟨b, e1, _, e3⟩ := InvBuilder.build_spec h
  obtain ⟨ii, f1, R⟩ := e3 after
  unfold intersections
  rw [e1, M.ok_bind, f1, M.ok_bind, if_neg (by rw [R.docs, R.terms]; simp)]
  unfold genQueries
  rw [genQuery_diverge std (fun i x hx y hy => by have := hd i x hx; have := hd i y hy; omega)]
  rfl

end AC.Tests
