import Verif.Proofs.Type4
/-!
# Conjunctive queries with two indexes of type 4 made of the same lists
-/
namespace AC
open Spec

/-! ## A library that sees keys only -/

theorem keyInsert_map {α β : Type} (key : β → Nat) (f : α → β) (x : α) : ∀ l : List α,
    keyInsert key (f x) (l.map f) = (keyInsert (fun a => key (f a)) x l).map f
  | [] => rfl
  | y :: l => by
      simp only [List.map_cons, keyInsert]
      split
      · rfl
      · rw [keyInsert_map key f x l]; rfl

theorem keySort_map {α β : Type} (key : β → Nat) (f : α → β) : ∀ l : List α, keySort key (l.map f) = (keySort (fun a => key (f a)) l).map f
  | [] => rfl
  | x :: l => by
      show keyInsert key (f x) (keySort key (l.map f)) = _
      rw [keySort_map key f l, keyInsert_map]; rfl

theorem StdLib.bySorting_byKeys : StdLib.bySorting.ByKeys := by
  refine ⟨fun key f q => keySort_map key f q, ?_⟩
  intro α β key f q
  cases q with
  | nil => rfl
  | cons x q =>
      show keySort key (q.map f) ++ [f x] = (keySort (fun a => key (f a)) q ++ [x]).map f
      rw [keySort_map, List.map_append]; rfl

/-! ## Related lists as images of one list -/

section
variable {α β : Type} {R : α → β → Prop}

theorem All2.pairs {as : List α} {bs : List β} (h : All2 R as bs) : ∃ z : List {p : α × β // R p.1 p.2}, as = z.map (fun p => p.1.1) ∧ bs = z.map (fun p => p.1.2) := by
  induction h with
  | nil => exact ⟨[], rfl, rfl⟩
  | cons h _ ih =>
      obtain ⟨z, h1, h2⟩ := ih
      exact ⟨⟨(_, _), h⟩ :: z, by rw [h1]; rfl, by rw [h2]; rfl⟩

theorem All2.of_pairs : ∀ z : List {p : α × β // R p.1 p.2}, All2 R (z.map (fun p => p.1.1)) (z.map (fun p => p.1.2))
  | [] => .nil
  | p :: z => .cons p.2 (All2.of_pairs z)

variable {f : α → Nat} {g : β → Nat}

theorem StdLib.ByKeys.make_all2 {std : StdLib} (hs : std.ByKeys) (hfg : ∀ a b, R a b → f a = g b) {as : List α} {bs : List β} (h : All2 R as bs) :
    All2 R (std.makeHeap f as) (std.makeHeap g bs) := by
  obtain ⟨z, rfl, rfl⟩ := h.pairs
  rw [hs.make, hs.make, show (fun p : {p : α × β // R p.1 p.2} => f p.1.1) = fun p => g p.1.2 from funext (fun p => hfg _ _ p.2)]
  exact All2.of_pairs _

theorem StdLib.ByKeys.pop_all2 {std : StdLib} (hs : std.ByKeys) (hfg : ∀ a b, R a b → f a = g b) {as : List α} {bs : List β} (h : All2 R as bs) :
    All2 R (std.popHeap f as) (std.popHeap g bs) := by
  obtain ⟨z, rfl, rfl⟩ := h.pairs
  rw [hs.pop, hs.pop, show (fun p : {p : α × β // R p.1 p.2} => f p.1.1) = fun p => g p.1.2 from funext (fun p => hfg _ _ p.2)]
  exact All2.of_pairs _

theorem All2.dropLast {as : List α} {bs : List β} (h : All2 R as bs) : All2 R as.dropLast bs.dropLast := by
  obtain ⟨z, rfl, rfl⟩ := h.pairs
  rw [← List.map_dropLast, ← List.map_dropLast]
  exact All2.of_pairs _

theorem All2.set2 {as : List α} {bs : List β} (h : All2 R as bs) {a : α} {b : β} (hab : R a b) (i : Nat) : All2 R (as.set i a) (bs.set i b) := by
  have hl := h.length
  apply All2.of_get
  · simpa using hl
  · intro j h1 h2
    rw [List.getElem_set, List.getElem_set]
    split
    · exact hab
    · exact h.get j (by simpa using h1) (by simpa using h2)

theorem rd_alike {as : List α} {bs : List β} (h : All2 R as bs) (i : Nat) : Alike R (rd as i) (rd bs i) := by
  have hl := h.length
  by_cases hi : i < as.length
  · rw [rd_ok hi, rd_ok (hl ▸ hi)]
    exact Alike.ok (h.get i hi (hl ▸ hi))
  · refine Or.inl ⟨.oob, ?_, ?_⟩
    · simp only [rd, List.getElem?_eq_none (show as.length ≤ i by omega)]
    · simp only [rd, List.getElem?_eq_none (show bs.length ≤ i by omega)]

theorem wr_all2 {as : List α} {bs : List β} (h : All2 R as bs) {a : α} {b : β} (hab : R a b) (i : Nat) : Alike (All2 R) (wr as i a) (wr bs i b) := by
  have hl := h.length
  by_cases hi : i < as.length
  · rw [wr_ok hi, wr_ok (hl ▸ hi)]
    exact Alike.ok (h.set2 hab i)
  · refine Or.inl ⟨.oob, ?_, ?_⟩
    · simp only [wr, if_neg hi]
    · simp only [wr, if_neg (show ¬ i < bs.length by omega)]

theorem Heap.child_alike (hfg : ∀ a b, R a b → f a = g b) {as : List α} {bs : List β} (h : All2 R as bs) (pos : Nat) :
    Alike (fun x y : Nat => x = y) (Heap.child f as pos) (Heap.child g bs pos) := by
  have hl := h.length
  unfold Heap.child
  dsimp only
  rw [hl]
  split
  · refine Alike.bind (rd_alike h _) (fun a b hab => Alike.bind (rd_alike h _) (fun a' b' hab' => Alike.ok ?_))
    rw [hfg _ _ hab, hfg _ _ hab']
  · exact Alike.ok rfl

theorem Heap.sink_alike (hfg : ∀ a b, R a b → f a = g b) : ∀ (fuel pos : Nat) {as : List α} {bs : List β}, All2 R as bs →
    Alike (All2 R) (Heap.sink f fuel pos as) (Heap.sink g fuel pos bs)
  | 0, _, _, _, _ => Or.inl ⟨_, rfl, rfl⟩
  | fuel + 1, pos, as, bs, h => by
      have hl := h.length
      unfold Heap.sink
      rw [hl]
      split
      · refine Alike.bind (Heap.child_alike hfg h pos) ?_
        rintro i _ rfl
        refine Alike.bind (rd_alike h _) (fun a b hab => Alike.bind (rd_alike h _) (fun a' b' hab' => ?_))
        rw [hfg _ _ hab, hfg _ _ hab']
        split
        · refine Alike.bind (wr_all2 h hab' _) (fun q q' hq => Alike.bind (wr_all2 hq hab _) (fun q q' hq => ?_))
          exact Heap.sink_alike hfg fuel i hq
        · exact Alike.ok h
      · exact Alike.ok h

theorem Heap.heapify_alike (hfg : ∀ a b, R a b → f a = g b) {as : List α} {bs : List β} (h : All2 R as bs) :
    Alike (All2 R) (Heap.heapify f as) (Heap.heapify g bs) := by
  unfold Heap.heapify
  rw [h.length]
  exact Heap.sink_alike hfg _ _ h

theorem Heap.pop_alike {std : StdLib} (hs : std.ByKeys) (hfg : ∀ a b, R a b → f a = g b) {as : List α} {bs : List β} (h : All2 R as bs) :
    Alike (All2 R) (Heap.pop std f as) (Heap.pop std g bs) := by
  cases h with
  | nil => exact Or.inl ⟨_, rfl, rfl⟩
  | cons h1 h2 => exact Alike.ok (hs.pop_all2 hfg (.cons h1 h2)).dropLast

end

/-! ## The cuts -/

theorem postingsIn_cut_unique {lists : List (List Nat)} {m : Nat} {A B : List Nat} (hA : IsCut lists m A) (hB : IsCut lists m B) : A = B := by
  have le : ∀ {X : List Nat}, IsCut lists m X → ∀ {j x : Nat}, X[j]? = some x → x ≤ lists.length ∧ (x = lists.length → j + 1 = X.length) := by
    intro X hX j x hx
    have h1 := hX.last
    rw [List.getLast?_eq_getElem?] at h1
    obtain ⟨l1, l2⟩ := List.getElem?_eq_some_iff.mp h1
    obtain ⟨j1, j2⟩ := List.getElem?_eq_some_iff.mp hx
    have hp := (List.pairwise_cons.mp hX.incr).2
    rcases Nat.lt_or_ge j (X.length - 1) with hc | hc
    · have := List.pairwise_iff_getElem.mp hp j (X.length - 1) j1 l1 hc
      omega
    · have : j = X.length - 1 := by omega
      subst this
      omega
  have half : ∀ {X Y : List Nat}, IsCut lists m X → IsCut lists m Y → ∀ (j lo : Nat), (0 :: X)[j]? = some lo → (0 :: Y)[j]? = some lo →
      ∀ x : Nat, X[j]? = some x → ∃ y, Y[j]? = some y ∧ y ≤ x := by
    intro X Y hX hY j lo h1 h2 x hx
    cases hy : Y[j]? with
    | none =>
        exfalso
        have hjl : Y.length ≤ j := List.getElem?_eq_none_iff.mp hy
        have hx1 := List.pairwise_iff_getElem.mp hX.incr
        obtain ⟨j1, j2⟩ := List.getElem?_eq_some_iff.mp hx
        obtain ⟨j3, j4⟩ := List.getElem?_eq_some_iff.mp h1
        have hlt := hx1 j (j + 1) j3 (by simpa using j1) (by omega)
        rw [j4, List.getElem_cons_succ, j2] at hlt
        have hlast := hY.last
        cases j with
        | zero =>
            have : Y = [] := List.length_eq_zero_iff.mp (by omega)
            rw [this] at hlast; cases hlast
        | succ j =>
            rw [List.getElem?_cons_succ] at h2
            have := (List.getElem?_eq_some_iff.mp h2).1
            rw [List.getLast?_eq_getElem?, show Y.length - 1 = j by omega, h2] at hlast
            cases hlast
            have := (le hX hx).1
            omega
    | some y =>
        refine ⟨y, rfl, ?_⟩
        apply Nat.le_of_not_lt
        intro hxy
        obtain ⟨j1, j2⟩ := List.getElem?_eq_some_iff.mp hx
        obtain ⟨j3, j4⟩ := List.getElem?_eq_some_iff.mp h1
        have hlt := List.pairwise_iff_getElem.mp hX.incr j (j + 1) j3 (by simpa using j1) (by omega)
        rw [j4, List.getElem_cons_succ, j2] at hlt
        have h3 := hY.least j lo y h2 hy x hlt hxy
        rcases hX.full j lo x h1 hx with h4 | h4
        · omega
        · have := (le hY hy).1
          omega
  have all : ∀ j : Nat, (0 :: A)[j]? = (0 :: B)[j]? := by
    intro j
    induction j with
    | zero => rfl
    | succ j ih =>
        rw [List.getElem?_cons_succ, List.getElem?_cons_succ]
        cases ha : A[j]? with
        | some x =>
            have hj := (List.getElem?_eq_some_iff.mp ha).1
            have e1 : (0 :: A)[j]? = some ((0 :: A)[j]'(by simp; omega)) := List.getElem?_eq_getElem _
            obtain ⟨y, hy, hle⟩ := half hA hB j _ e1 (ih ▸ e1) x ha
            obtain ⟨z, hz, hle'⟩ := half hB hA j _ (ih ▸ e1) e1 y hy
            rw [ha] at hz; cases hz
            rw [hy]; congr 1; omega
        | none =>
            cases hb : B[j]? with
            | none => rfl
            | some y =>
                have hj := (List.getElem?_eq_some_iff.mp hb).1
                have e1 : (0 :: B)[j]? = some ((0 :: B)[j]'(by simp; omega)) := List.getElem?_eq_getElem _
                obtain ⟨z, hz, _⟩ := half hB hA j _ e1 (ih ▸ e1) y hb
                rw [ha] at hz; cases hz
  have := List.ext_getElem? all
  exact (List.cons.inj this).2

namespace Index4

variable {ii ii' : BlkIdx} {u m : Nat} {lists docss docss' : List (List Nat)}

/-- blocks of the two indexes at the same place -/
def Twin (ii ii' : BlkIdx) (u : Nat) (lists : List (List Nat)) (b b' : Blk) : Prop := ∃ x, Live ii u lists b x ∧ Live ii' u lists b' x

theorem Twin.key {b b' : Blk} (h : Twin ii ii' u lists b b') : Index4.key b = Index4.key b' := by
  obtain ⟨x, h1, h2⟩ := h
  have := h1.get.symm.trans h2.get
  exact Option.some.inj this

/-- the position is determined by the value -/
theorem position_unique {v v' : BV} {xs : List Nat} {it it' : CEI} {p p' : Nat} (h : CEF.ItAt v u xs it p) (h' : CEF.ItAt v' u xs it' p')
    (he : it.value = it'.value) : p = p' := by
  have e1 := h.value
  have e2 := h'.value
  have l1 := h.le
  have l2 := h'.le
  have hs := List.pairwise_iff_getElem.mp h.sorted
  rcases Nat.lt_or_ge p xs.length with c1 | c1 <;> rcases Nat.lt_or_ge p' xs.length with c2 | c2
  · rw [List.getElem?_eq_getElem c1, Option.getD_some] at e1
    rw [List.getElem?_eq_getElem c2, Option.getD_some] at e2
    rcases Nat.lt_trichotomy p p' with h | h | h
    · have := hs p p' c1 c2 h; omega
    · exact h
    · have := hs p' p c2 c1 h; omega
  · have := h.lt_of_value c1
    rw [List.getElem?_eq_none c2, Option.getD_none] at e2
    omega
  · have := h'.lt_of_value c2
    rw [List.getElem?_eq_none c1, Option.getD_none] at e1
    omega
  · omega

/-- the exhausted block is not one of those that stay -/
theorem all2_rest {z z' : Blk} (hz : z.docs.hasNext = false) : ∀ {q q' : List Blk}, All2 (fun a b => Twin ii ii' u lists a b ∨ (a = z ∧ b = z')) q q' →
    (∀ a ∈ q, a.docs.hasNext = true) → All2 (Twin ii ii' u lists) q q' := by
  intro q q' h
  induction h with
  | nil => intro _; exact .nil
  | cons h _ ih =>
      intro hq
      refine .cons ?_ (ih (fun a ha => hq a (List.mem_cons_of_mem _ ha)))
      rcases h with h | ⟨rfl, _⟩
      · exact h
      · have := hq _ (List.mem_cons_self ..)
        rw [hz] at this; cases this

theorem Live.hasNext {b : Blk} {x : VB × Nat} (h : Live ii u lists b x) : b.docs.hasNext = true := by
  rw [h.1.it.hasNext, decide_eq_true_iff]; exact h.2

theorem Twin.hasNext {b b' : Blk} (h : Twin ii ii' u lists b b') : b.docs.hasNext = true := by
  obtain ⟨x, h1, _⟩ := h
  exact h1.hasNext

theorem All2.left {α β : Type} {R : α → β → Prop} {as : List α} {bs : List β} (h : All2 R as bs) : ∀ a ∈ as, ∃ b, R a b := by
  induction h with
  | nil => intro a ha; cases ha
  | cons h _ ih =>
      intro a ha
      rcases List.mem_cons.mp ha with rfl | ha
      · exact ⟨_, h⟩
      · exact ih a ha

theorem restore'_twin {std : StdLib} (hstd : std.ByKeys) {z0 z z' : Blk} {q q' : List Blk} (hh : IsHeap Index4.key (z0 :: q)) {b : Bool}
    (hb : z.docs.hasNext = b) (hz : b = true → Twin ii ii' u lists z z') (hk : Index4.key z = Index4.key z') (hA : All2 (Twin ii ii' u lists) q q') :
    ∃ p p', restore' std b (z :: q) = .ok p ∧ restore' std b (z' :: q') = .ok p' ∧ IsHeap Index4.key p ∧ All2 (Twin ii ii' u lists) p p' := by
  obtain ⟨_, p, p1, p2, p3⟩ := replace_top std (z' := z) hh b
  cases b with
  | true =>
      rcases Heap.heapify_alike (f := Index4.key) (g := Index4.key) (fun _ _ h => Twin.key h) (All2.cons (hz rfl) hA) with ⟨e, e1, _⟩ | ⟨x, y, e1, e2, e3⟩
      · have : restore' std true (z :: q) = .error e := e1
        rw [p1] at this; cases this
      · have : restore' std true (z :: q) = .ok x := e1
        rw [p1] at this; cases this
        exact ⟨p, y, p1, e2, p2, e3⟩
  | false =>
      have hR : ∀ a c, (Twin ii ii' u lists a c ∨ (a = z ∧ c = z')) → Index4.key a = Index4.key c := by
        rintro a c (h | ⟨rfl, rfl⟩)
        · exact h.key
        · exact hk
      rcases Heap.pop_alike (f := Index4.key) (g := Index4.key) hstd hR (All2.cons (Or.inr ⟨rfl, rfl⟩) (All2.imp hA (fun _ _ h => Or.inl h))) with ⟨e, e1, _⟩ | ⟨x, y, e1, e2, e3⟩
      · have : restore' std false (z :: q) = .error e := e1
        rw [p1] at this; cases this
      · have : restore' std false (z :: q) = .ok x := e1
        rw [p1] at this; cases this
        refine ⟨p, y, p1, e2, p2, all2_rest hb e3 ?_⟩
        intro a ha
        obtain ⟨c, hc⟩ := All2.left hA a (p3.mem_iff.mp ha)
        exact hc.hasNext

theorem restore_twin {std : StdLib} (hstd : std.ByKeys) {z0 z z' : Blk} {q q' : List Blk} (hh : IsHeap Index4.key (z0 :: q)) {b : Bool}
    (hb : z.docs.hasNext = b) (hz : b = true → Twin ii ii' u lists z z') (hk : Index4.key z = Index4.key z') (hA : All2 (Twin ii ii' u lists) q q') :
    ∃ p p', restore std b (z :: q) = .ok p ∧ restore std b (z' :: q') = .ok p' ∧ IsHeap Index4.key p ∧ All2 (Twin ii ii' u lists) p p' := by
  obtain ⟨p, p', e1, e2, e3, e4⟩ := restore'_twin hstd hh hb hz hk hA
  cases b with
  | true => exact ⟨p, p', e1, e2, e3, e4⟩
  | false =>
      have e1' : Heap.pop std Index4.key (z :: q) = .ok p := e1
      have e2' : Heap.pop std Index4.key (z' :: q') = .ok p' := e2
      obtain ⟨⟨w, w1, w2, w3⟩, _⟩ := replace_top std (z' := z) hh false
      unfold restore at w1 ⊢
      rw [if_neg (by simp), e1', M.ok_bind] at w1
      rw [if_neg (by simp), if_neg (by simp), e1', e2', M.ok_bind, M.ok_bind]
      rcases Heap.heapify_alike (f := Index4.key) (g := Index4.key) (fun _ _ h => Twin.key h) e4 with ⟨e, f1, _⟩ | ⟨x, y, f1, f2, f3⟩
      · rw [w1] at f1; cases f1
      · rw [w1] at f1; cases f1
        exact ⟨w, y, w1, f2, w2, f3⟩

theorem unionLoop_twin {std : StdLib} (hstd : std.ByKeys) (r : Range) (k : Nat) : ∀ (fuel : Nat) (q q' : List Blk) (scores : List Nat) (n : Nat),
    IsHeap Index4.key q → All2 (Twin ii ii' u lists) q q' → unionLoop std ii r k fuel q scores n = unionLoop std ii' r k fuel q' scores n
  | 0, _, _, _, _, _, _ => rfl
  | fuel + 1, q, q', scores, n, hh, hA => by
      cases hA with
      | nil => rfl
      | cons hz hA' =>
          rename_i z z' zs zs'
          have hk := hz.key
          obtain ⟨x, l1, l2⟩ := hz
          obtain ⟨o1, c1, c2⟩ := check_spec l1.1 l1.get r
          obtain ⟨o2, c3, c4⟩ := check_spec l2.1 l2.get r
          rw [← hk] at c3
          unfold unionLoop
          dsimp only
          rw [c1, c3, M.ok_bind, M.ok_bind]
          dsimp only
          rw [show z'.docs.value = z.docs.value from hk.symm]
          cases hrec : record (hasIn lists x.1.lo x.1.hi r (Index4.key z)) z.docs.value scores n with
          | error e => rw [M.error_bind, M.error_bind]
          | ok w =>
              obtain ⟨w1, w2⟩ := w
              simp only [M.ok_bind]
              split
              · rfl
              · obtain ⟨d1, a1, a2⟩ := l1.1.it.next l1.2
                obtain ⟨d2, b1, b2⟩ := l2.1.it.next l2.2
                have hn : d2.hasNext = d1.hasNext := by rw [a2.hasNext, b2.hasNext]
                have hv : d1.value = d2.value := by rw [a2.value, b2.value]
                have htw : d1.hasNext = true → Twin ii ii' u lists { z with offs := o1, docs := d1 } { z' with offs := o2, docs := d2 } := by
                  intro hb
                  rw [a2.hasNext, decide_eq_true_iff] at hb
                  exact ⟨(x.1, x.2 + 1), ⟨c2.withDocs a2, hb⟩, ⟨c4.withDocs b2, hb⟩⟩
                obtain ⟨p, p', e1, e2, e3, e4⟩ := restore_twin hstd (z0 := z) (z := { z with offs := o1, docs := d1 })
                  (z' := { z' with offs := o2, docs := d2 }) hh rfl htw hv hA'
                rw [a1, M.ok_bind, b1, M.ok_bind, hn, e1, e2, M.ok_bind, M.ok_bind]
                exact unionLoop_twin hstd r k fuel p p' w1 w2 e3 e4

/-- the results of `advance` with the two indexes -/
def SameStep (ii ii' : BlkIdx) (u : Nat) (lists : List (List Nat)) (x y : Bool × Bool × List Blk) : Prop :=
  x.1 = y.1 ∧ x.2.1 = y.2.1 ∧ IsHeap Index4.key x.2.2 ∧ All2 (Twin ii ii' u lists) x.2.2 y.2.2

theorem advance_twin {std : StdLib} (hstd : std.ByKeys) (r : Range) {doc : Nat} (hdoc : doc < u) : ∀ (fuel : Nat) {q q' : List Blk},
    IsHeap Index4.key q → All2 (Twin ii ii' u lists) q q' →
    Alike (SameStep ii ii' u lists) (advance std ii r doc fuel q) (advance std ii' r doc fuel q')
  | 0, _, _, _, _ => Or.inl ⟨_, rfl, rfl⟩
  | fuel + 1, q, q', hh, hA => by
      cases hA with
      | nil => exact Alike.ok ⟨rfl, rfl, hh, .nil⟩
      | cons hz hA' =>
          rename_i z z' zs zs'
          have hk := hz.key
          obtain ⟨x, l1, l2⟩ := hz
          unfold advance
          dsimp only
          rw [show z.docs.value = Index4.key z from rfl, show z'.docs.value = Index4.key z' from rfl, ← hk]
          split
          · exact Alike.ok ⟨rfl, rfl, hh, .cons ⟨x, l1, l2⟩ hA'⟩
          · split
            · obtain ⟨d1, p1, a1, a2, a3, a4⟩ := l1.1.it.nextGeq (Nat.le_of_lt hdoc)
              obtain ⟨d2, p2, b1, b2, b3, b4⟩ := l2.1.it.nextGeq (Nat.le_of_lt hdoc)
              have hv : d1.value = d2.value := by
                have m1 : d1.value < u → d1.value ∈ x.1.docs := fun h => (a2.value_mem h).2
                have m2 : d2.value < u → d2.value ∈ x.1.docs := fun h => (b2.value_mem h).2
                have u1 := a2.value_le
                have u2 := b2.value_le
                apply Nat.le_antisymm
                · rcases Nat.lt_or_ge d2.value u with h | h
                  · exact a4 _ (m2 h) b3
                  · omega
                · rcases Nat.lt_or_ge d1.value u with h | h
                  · exact b4 _ (m1 h) a3
                  · omega
              have hp : p1 = p2 := position_unique a2 b2 hv
              subst hp
              have hn : d2.hasNext = d1.hasNext := by rw [a2.hasNext, b2.hasNext]
              have htw : d1.hasNext = true → Twin ii ii' u lists { z with docs := d1 } { z' with docs := d2 } := by
                intro hb
                rw [a2.hasNext, decide_eq_true_iff] at hb
                exact ⟨(x.1, p1), ⟨l1.1.withDocs a2, hb⟩, ⟨l2.1.withDocs b2, hb⟩⟩
              obtain ⟨p, p', e1, e2, e3, e4⟩ := restore'_twin hstd (z0 := z) (z := { z with docs := d1 }) (z' := { z' with docs := d2 }) hh rfl htw hv hA'
              rw [a1, M.ok_bind, b1, M.ok_bind, hn, e1, e2, M.ok_bind, M.ok_bind]
              exact advance_twin hstd r hdoc fuel e3 e4
            · obtain ⟨o1, c1, c2⟩ := check_spec l1.1 l1.get r
              obtain ⟨o2, c3, c4⟩ := check_spec l2.1 l2.get r
              rw [c1, c3, M.ok_bind, M.ok_bind]
              refine Alike.ok ⟨rfl, by rw [hk], heap_same hh rfl, .cons ⟨x, ⟨c2, l1.2⟩, ⟨c4, l2.2⟩⟩ hA'⟩

theorem conjLoop_twin {std : StdLib} (hstd : std.ByKeys) (r : Range) (k : Nat) : ∀ (R : List Nat) (fuel : Nat) (it it' : BInter) (bs bs' : List BD)
    (q q' : List Blk) (scores : List Nat) (n : Nat), it.Enum ii u lists bs R → it'.Enum ii' u lists bs' R → IsHeap Index4.key q →
    All2 (Twin ii ii' u lists) q q' → conjLoop std ii r k fuel it q scores n = conjLoop std ii' r k fuel it' q' scores n := by
  intro R
  induction R with
  | nil =>
      intro fuel it it' bs bs' q q' scores n he he' hh hA
      cases fuel with
      | zero => rfl
      | succ fuel =>
          unfold conjLoop
          rw [he.step.1 rfl, he'.step.1 rfl]
          simp only [Bool.false_and, Bool.false_eq_true, if_false]
  | cons d R ih =>
      intro fuel it it' bs bs' q q' scores n he he' hh hA
      cases fuel with
      | zero => rfl
      | succ fuel =>
          have hdu := he.bound d (List.mem_cons_self ..)
          obtain ⟨e1, e2, it1, e3, e4⟩ := he.step.2 d R rfl
          obtain ⟨f1, f2, it2, f3, f4⟩ := he'.step.2 d R rfl
          have hl := hA.length
          have hemp : q.isEmpty = q'.isEmpty := by
            cases hA with
            | nil => rfl
            | cons => rfl
          unfold conjLoop
          rw [e1, f1, hemp, e2, f2, hl]
          split
          · rcases advance_twin hstd r hdu (q'.length + 1) hh hA with ⟨e, g1, g2⟩ | ⟨x, y, g1, g2, g3, g4, g5, g6⟩
            · rw [g1, g2, M.error_bind, M.error_bind]
            · rw [g1, g2, M.ok_bind, M.ok_bind]
              obtain ⟨x1, x2, x3⟩ := x
              obtain ⟨y1, y2, y3⟩ := y
              dsimp only at g3 g4 g5 g6 ⊢
              subst g3 g4
              cases hrec : record x2 d scores n with
              | error e => rw [M.error_bind, M.error_bind]
              | ok w =>
                  obtain ⟨w1, w2⟩ := w
                  simp only [M.ok_bind]
                  split
                  · rfl
                  · rw [e3, f3, M.ok_bind, M.ok_bind]
                    exact ih fuel it1 it2 bs bs' x3 y3 w1 w2 e4 f4 g5 g6
          · rfl

theorem desc_twin (h : ii.Rep u m lists docss) (h' : ii'.Rep u m lists docss') {j lo hi : Nat} (h1 : (0 :: ii.blocks)[j]? = some lo)
    (h2 : ii.blocks[j]? = some hi) : ∃ b b', ii.block j = .ok b ∧ ii'.block j = .ok b' ∧ Twin ii ii' u lists b b' := by
  have hb : ii.blocks = ii'.blocks := postingsIn_cut_unique h.cut h'.cut
  obtain ⟨b, e1, e2⟩ := live_block h h1 h2
  obtain ⟨b', e3, e4⟩ := live_block h' (hb ▸ h1) (hb ▸ h2)
  obtain ⟨d, k1⟩ := docss_get h h2
  obtain ⟨d', k2⟩ := docss_get h' (hb ▸ h2)
  have hd : d = d' := by
    have i1 := h.blocks.isDocs j lo hi d h1 h2 k1
    have i2 := h'.blocks.isDocs j lo hi d' (hb ▸ h1) (hb ▸ h2) k2
    exact strict_ext i1.sorted i2.sorted (fun x => by rw [i1.mem, i2.mem])
  subst hd
  rw [desc_eq h1 h2 k1] at e2
  rw [desc_eq (hb ▸ h1) (hb ▸ h2) k2] at e4
  exact ⟨b, b', e1, e3, _, e2, e4⟩

theorem blocksLoop_twin (h : ii.Rep u m lists docss) (h' : ii'.Rep u m lists docss') : ∀ (n i cur lo hi : Nat) (q q' : List Blk),
    (0 :: ii.blocks)[cur]? = some lo → ii.blocks[cur]? = some hi → lo < i → i ≤ hi + 1 → i + n ≤ lists.length + 1 → All2 (Twin ii ii' u lists) q q' →
    ∃ p p' cur' lo' hi', blocksLoop ii n i cur hi q = .ok (p, cur') ∧ blocksLoop ii' n i cur hi q' = .ok (p', cur') ∧
      (0 :: ii.blocks)[cur']? = some lo' ∧ ii.blocks[cur']? = some hi' ∧ All2 (Twin ii ii' u lists) p p' := by
  have hb : ii.blocks = ii'.blocks := postingsIn_cut_unique h.cut h'.cut
  intro n
  induction n with
  | zero =>
      intro i cur lo hi q q' h1 h2 hlo hle hn hA
      exact ⟨q, q', cur, lo, hi, rfl, rfl, h1, h2, hA⟩
  | succ n ih =>
      intro i cur lo hi q q' h1 h2 hlo hle hn hA
      unfold blocksLoop
      split
      · rename_i hgt
        obtain ⟨b, b', e1, e2, e3⟩ := desc_twin h h' h1 h2
        have hl := h.cut.last
        rw [List.getLast?_eq_getElem?] at hl
        obtain ⟨c1, c2⟩ := List.getElem?_eq_some_iff.mp hl
        obtain ⟨b1, b2⟩ := List.getElem?_eq_some_iff.mp h2
        have hcur : cur + 1 < ii.blocks.length := by
          rcases Nat.lt_or_ge (cur + 1) ii.blocks.length with hc | hc
          · exact hc
          · have : cur = ii.blocks.length - 1 := by omega
            subst this
            omega
        have h2' : ii.blocks[cur + 1]? = some ii.blocks[cur + 1] := List.getElem?_eq_getElem hcur
        have h1' : (0 :: ii.blocks)[cur + 1]? = some hi := by rw [List.getElem?_cons_succ]; exact h2
        obtain ⟨k1, k2, k3⟩ := h.bounds_ok h1' h2'
        rw [e1, e2, M.ok_bind, M.ok_bind]
        unfold BlkIdx.boundary
        rw [← hb, rd_of_getElem? h2', M.ok_bind, M.ok_bind]
        exact ih (i + 1) (cur + 1) hi ii.blocks[cur + 1] (q ++ [b]) (q' ++ [b']) h1' h2' (by omega) (by omega) (by omega) (All2.append hA (.cons e3 .nil))
      · exact ih (i + 1) cur lo hi q q' h1 h2 (by omega) (by omega) (by omega) hA

theorem blocks_twin (h : ii.Rep u m lists docss) (h' : ii'.Rep u m lists docss') {std : StdLib} (hstd : std.ByKeys) (r : Range) (h1 : 1 ≤ r.b)
    (h2 : r.b ≤ r.e) (h3 : r.e ≤ lists.length) :
    ∃ q q', blocks std ii r = .ok q ∧ blocks std ii' r = .ok q' ∧ IsHeap Index4.key q ∧ All2 (Twin ii ii' u lists) q q' := by
  have hb : ii.blocks = ii'.blocks := postingsIn_cut_unique h.cut h'.cut
  obtain ⟨j0, lo, hi, e1, e2, e3, e4, e5⟩ := blockId_spec h std (t := r.b) h1 (by omega)
  obtain ⟨p, p', j1, lo', hi', g1, g2, g3, g4, g5⟩ := blocksLoop_twin h h' (r.e - r.b) r.b j0 lo hi [] [] e2 e3 e4 (by omega) (by omega) .nil
  obtain ⟨b, b', f1, f2, f3⟩ := desc_twin h h' g3 g4
  have e1' : ii'.blockId std r.b = .ok j0 := by
    rw [← e1]
    unfold BlkIdx.blockId BlkIdx.blockOf
    rw [hb]
  refine ⟨_, _, ?_, ?_, (Heap.makeHeap_spec (key := Index4.key) std (p ++ [b])).2, hstd.make_all2 (fun _ _ h => Twin.key h) (All2.append g5 (.cons f3 .nil))⟩
  · unfold blocks
    rw [e1]
    simp only [M.ok_bind]
    unfold BlkIdx.boundary
    rw [rd_of_getElem? e3]
    simp only [M.ok_bind, g1, f1, Heap.makeHeap]
  · unfold blocks
    rw [e1']
    simp only [M.ok_bind]
    unfold BlkIdx.boundary
    rw [← hb, rd_of_getElem? e3]
    simp only [M.ok_bind, g2, f2, Heap.makeHeap]

/-- the two indexes store the same documents -/
theorem conjScores_twin (h : ii.Rep u m lists docss) (h' : ii'.Rep u m lists docss') (hu : u + 1 < 2 ^ 32) {std : StdLib} (hstd : std.ByKeys) {pfx : List Nat}
    (hpfx : ∀ t ∈ pfx, 1 ≤ t ∧ t ≤ lists.length) {r : Range} (h1 : 1 ≤ r.b) (h2 : r.b ≤ r.e) (h3 : r.e ≤ lists.length) (k : Nat)
    (scores : List Nat) : conjScores std ii pfx r k scores = conjScores std ii' pfx r k scores := by
  have hb : ii.blocks = ii'.blocks := postingsIn_cut_unique h.cut h'.cut
  obtain ⟨q, q', q1, q2, q3, q4⟩ := blocks_twin h h' hstd r h1 h2 h3
  unfold conjScores
  rw [q1, q2, M.ok_bind, M.ok_bind, h.docs, h'.docs, q4.length]
  by_cases hne : pfx = []
  · rw [hne]
    exact unionLoop_twin hstd r k _ q q' scores 0 q3 q4
  obtain ⟨d1, d2⟩ := deduplicate_spec std pfx
  have hdne : deduplicate std pfx ≠ [] := by
    obtain ⟨t, ht⟩ := List.exists_mem_of_ne_nil _ hne
    exact List.ne_nil_of_mem ((d2 t).mpr ht)
  have hdv : ∀ t ∈ deduplicate std pfx, 1 ≤ t ∧ t ≤ lists.length := fun t ht => hpfx t ((d2 t).mp ht)
  have hRs : (Props.enumerated u lists ii.blocks (deduplicate std pfx)).Pairwise (· < ·) :=
    List.Pairwise.filter _ (List.Pairwise.filter _ List.pairwise_lt_range)
  have hmemR : ∀ d, d ∈ Props.enumerated u lists ii.blocks (deduplicate std pfx) ↔ (∀ t ∈ deduplicate std pfx, Posted lists t d) ∧
      ¬ FirstOfOne lists ii.blocks (deduplicate std pfx) d := by
    intro d
    rw [Props.mem_enumerated, Props.mem_inAllLists h.valid hdne (fun t ht => (hdv t ht).1)]
  generalize Props.enumerated u lists ii.blocks (deduplicate std pfx) = R at hRs hmemR
  obtain ⟨it, bs, g1, g2⟩ := BInter.mk'_spec h hu std _ hdne d1 hdv R hRs (by
    intro d
    rw [← Props.firstOfOne_iff h, hmemR])
  obtain ⟨it', bs', g3, g4⟩ := BInter.mk'_spec h' hu std _ hdne d1 hdv R hRs (by
    intro d
    rw [← Props.firstOfOne_iff h', hmemR, hb])
  rw [if_neg (by have := List.length_pos_iff.mpr hne; omega), if_neg (by have := List.length_pos_iff.mpr hne; omega), g1, g3, M.ok_bind, M.ok_bind]
  exact conjLoop_twin hstd r k R _ it it' bs bs' q q' scores 0 g2 g4 q3 q4

end Index4

/-- two indexes of the same files give the same results -/
theorem Index4.conj_twin {C : Coll} {F : Files} (h : Ready C F) {std : StdLib} (hstd : std.ByKeys) {m : Nat} {x y : Index4} {docss docss' : List (List Nat)}
    (hx : x.Rep m F docss) (hy : y.Rep m F docss') (hids : ∀ r ∈ C, r.1 < 2 ^ 32 - 2) {q : Str} (hq : IsText q) :
    ∃ S : Coll, ∀ k, 1 ≤ k → k ≤ MAX_K → ∀ s s' : Scratch, s.WF → s'.WF → Shows F.terms (S.take k) (x.conjTopk std q k s) ∧ Shows F.terms (S.take k) (y.conjTopk std q k s') := by
  obtain ⟨S, _, h2⟩ := Index4.conj_like h std hx hids hq
  have hu : F.univ + 1 < 2 ^ 32 := by
    obtain ⟨r, hr, he⟩ := h.files.univ
    have := hids r hr
    omega
  refine ⟨S, fun k hk hk' s s' hs hs' => ⟨h2 q hq rfl (fun _ => Iff.rfl) x docss hx (fun _ _ _ _ _ => rfl) k hk hk' s hs,
    h2 q hq rfl (fun _ => Iff.rfl) y docss' hy ?_ k hk hk' s' hs'⟩⟩
  intro b e k o hr
  have hlt := hr.lt
  have hle := hr.le
  exact Index4.conjScores_twin hy.inverted hx.inverted hu hstd (fun t ht => h.knownPfx_in t ht) (by simp) (by simpa using hle)
    (by rw [h.files.numLists]; simp only; omega) k o

end AC
