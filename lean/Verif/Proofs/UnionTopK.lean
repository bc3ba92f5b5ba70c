import Verif.Model.UnionTopK
import Verif.Proofs.UnsortedTopK
import Verif.Proofs.InvertedIndex
/-!
# The smallest documents of a union of posting lists
-/
namespace AC

theorem nodup_subset_length {A B : List Nat} (hA : A.Nodup) (h : ∀ x ∈ A, x ∈ B) : A.length ≤ B.length := by
  induction A generalizing B with
  | nil => simp
  | cons a A ih =>
      rw [List.nodup_cons] at hA
      have ha := h a (List.mem_cons_self ..)
      have := ih (B := B.erase a) hA.2 (by
        intro x hx
        have hne : x ≠ a := by intro e; subst e; exact hA.1 hx
        exact (List.mem_erase_of_ne hne).mpr (h x (List.mem_cons_of_mem _ hx)))
      rw [List.length_erase_of_mem ha] at this
      have := List.length_pos_of_mem ha
      simp only [List.length_cons]
      omega

namespace Union
variable {α : Type}

/-- how one iteration acts on the documents to come -/
def Step (key : α → Nat) (adv : List α → M (List α)) (rest : α → List Nat) (Good : List α → Prop) : Prop :=
  ∀ m q, Good (m :: q) → ∃ q', adv (m :: q) = .ok q' ∧ Good q' ∧ ((m :: q).flatMap rest).Perm (key m :: q'.flatMap rest) ∧
    ∀ x ∈ (m :: q).flatMap rest, key m ≤ x

theorem loop_spec (std : StdLib) {key : α → Nat} {adv : List α → M (List α)} {rest : α → List Nat} {Good : List α → Prop}
    (hstep : Step key adv rest Good) (all : List Nat) (hsmall : ∀ x ∈ all, x < 2 ^ 32) (k : Nat) :
    ∀ (fuel : Nat) (q : List α) (buf D : List Nat) (i : Nat), Good q → i < k → k ≤ buf.length →
      (D ++ q.flatMap rest).Perm all → (∀ x ∈ D, ∀ y ∈ q.flatMap rest, x ≤ y) → (buf.take i).Pairwise (· < ·) →
      (∀ x, x ∈ buf.take i ↔ x ∈ D) → (q.flatMap rest).length < fuel →
      ∃ buf' n, loop std key adv k fuel q buf i = .ok (buf', n) ∧ buf'.length = buf.length ∧ n ≤ k ∧
        Spec.IsTopK (fun x => x ∈ all) k (buf'.take n) := by
  intro fuel
  induction fuel with
  | zero => intro q buf D i _ _ _ _ _ _ _ hf; omega
  | succ fuel ih =>
      intro q buf D i hg hk hb hp hc hs ht hf
      cases q with
      | nil =>
          simp only [List.flatMap_nil, List.append_nil] at hp
          refine ⟨buf, i, rfl, rfl, by omega, hs, ?_, by simp; omega, ?_⟩
          · intro x hx; exact hp.mem_iff.mp ((ht x).mp hx)
          · intro x hx hxE; exact absurd ((ht x).mpr (hp.mem_iff.mpr hx)) hxE
      | cons m q =>
          obtain ⟨q', a1, a2, a3, a4⟩ := hstep m q hg
          have htop : Heap.top (m :: q) = .ok m := rfl
          have hbs := std.binarySearch_spec (buf.take i) (key m) (hs.imp (fun h => Nat.le_of_lt h))
          have hkm : key m ∈ (m :: q).flatMap rest := a3.mem_iff.mpr (List.mem_cons_self ..)
          have hle : ∀ x ∈ buf.take i, x ≤ key m := fun x hx => hc x ((ht x).mp hx) _ hkm
          have hp' : ((D ++ [key m]) ++ q'.flatMap rest).Perm all := by
            refine List.Perm.trans ?_ hp
            rw [List.append_assoc]
            exact List.Perm.append_left _ a3.symm
          have hc' : ∀ x ∈ D ++ [key m], ∀ y ∈ q'.flatMap rest, x ≤ y := by
            intro x hx y hy
            have hy' : y ∈ (m :: q).flatMap rest := a3.mem_iff.mpr (List.mem_cons_of_mem _ hy)
            rcases List.mem_append.mp hx with hx | hx
            · exact hc x hx y hy'
            · rw [List.mem_singleton.mp hx]; exact a4 y hy'
          have hlen : (q'.flatMap rest).length < fuel := by
            have := a3.length_eq
            simp only [List.length_cons] at this
            omega
          unfold loop
          simp only [htop, M.ok_bind]
          by_cases hmem : key m ∈ buf.take i
          · rw [if_pos (hbs.mpr hmem), a1, M.ok_bind]
            apply ih q' buf (D ++ [key m]) i a2 hk hb hp' hc' hs _ hlen
            intro x
            rw [ht x, List.mem_append]
            constructor
            · exact Or.inl
            · rintro (hx | hx)
              · exact hx
              · rw [List.mem_singleton.mp hx, ← ht]; exact hmem
          · rw [if_neg (fun h => hmem (hbs.mp h)), wr_ok (by omega), M.ok_bind]
            have hsm : id32 (key m) = key m :=
              Nat.mod_eq_of_lt (hsmall _ (hp.mem_iff.mp (List.mem_append_right _ hkm)))
            rw [hsm]
            have htake : (buf.set i (key m)).take (i + 1) = buf.take i ++ [key m] := UL.take_set_succ _ _ _ (by omega)
            have hs' : ((buf.set i (key m)).take (i + 1)).Pairwise (· < ·) := by
              rw [htake, List.pairwise_append]
              refine ⟨hs, List.pairwise_singleton _ _, ?_⟩
              intro a ha b hb
              rw [List.mem_singleton.mp hb]
              rcases Nat.lt_or_eq_of_le (hle a ha) with h | h
              · exact h
              · rw [h] at ha; exact absurd ha hmem
            have ht' : ∀ x, x ∈ (buf.set i (key m)).take (i + 1) ↔ x ∈ D ++ [key m] := by
              intro x; rw [htake, List.mem_append, List.mem_append, ht x]
            by_cases hk1 : i + 1 = k
            · rw [if_pos hk1]
              refine ⟨_, i + 1, rfl, by simp, by omega, hs', ?_, by simp; omega, ?_⟩
              · intro x hx; exact hp'.mem_iff.mp (List.mem_append_left _ ((ht' x).mp hx))
              · intro x hx hxE
                refine ⟨by simp; omega, ?_⟩
                intro e he
                have hx' : x ∈ q'.flatMap rest := by
                  rcases List.mem_append.mp (hp'.mem_iff.mpr hx) with h | h
                  · exact absurd ((ht' x).mpr h) hxE
                  · exact h
                rcases Nat.lt_or_eq_of_le (hc' e ((ht' e).mp he) x hx') with h | h
                · exact h
                · rw [h] at he; exact absurd he hxE
            · rw [if_neg hk1, a1, M.ok_bind]
              obtain ⟨buf', n, r1, r2, r3⟩ := ih q' (buf.set i (key m)) (D ++ [key m]) (i + 1) a2 (by omega) (by simp; omega)
                hp' hc' hs' ht' hlen
              exact ⟨buf', n, r1, by rw [r2]; simp, r3⟩

/-- with `k` zero, or greater than the size of the buffer, and more documents than the buffer can hold -/
theorem loop_overflow (std : StdLib) {key : α → Nat} {adv : List α → M (List α)} {rest : α → List Nat} {Good : List α → Prop}
    (hstep : Step key adv rest Good) (all : List Nat) (hsmall : ∀ x ∈ all, x < 2 ^ 32) (k : Nat) (L : List Nat) (hL : L.Nodup)
    (hLa : ∀ x ∈ L, x ∈ all) :
    ∀ (fuel : Nat) (q : List α) (buf D : List Nat) (i : Nat), Good q → (k = 0 ∨ buf.length < k) → i ≤ buf.length →
      buf.length < L.length →
      (D ++ q.flatMap rest).Perm all → (∀ x ∈ D, ∀ y ∈ q.flatMap rest, x ≤ y) → (buf.take i).Pairwise (· < ·) →
      (∀ x, x ∈ buf.take i ↔ x ∈ D) → (q.flatMap rest).length < fuel →
      loop std key adv k fuel q buf i = .error .oob := by
  intro fuel
  induction fuel with
  | zero => intro q buf D i _ _ _ _ _ _ _ _ hf; omega
  | succ fuel ih =>
      intro q buf D i hg hk hb hl hp hc hs ht hf
      cases q with
      | nil =>
          exfalso
          simp only [List.flatMap_nil, List.append_nil] at hp
          have := nodup_subset_length (B := buf.take i) hL (fun x hx => (ht x).mpr (hp.mem_iff.mpr (hLa x hx)))
          simp at this
          omega
      | cons m q =>
          obtain ⟨q', a1, a2, a3, a4⟩ := hstep m q hg
          have htop : Heap.top (m :: q) = .ok m := rfl
          have hbs := std.binarySearch_spec (buf.take i) (key m) (hs.imp (fun h => Nat.le_of_lt h))
          have hkm : key m ∈ (m :: q).flatMap rest := a3.mem_iff.mpr (List.mem_cons_self ..)
          have hle : ∀ x ∈ buf.take i, x ≤ key m := fun x hx => hc x ((ht x).mp hx) _ hkm
          have hp' : ((D ++ [key m]) ++ q'.flatMap rest).Perm all := by
            refine List.Perm.trans ?_ hp
            rw [List.append_assoc]
            exact List.Perm.append_left _ a3.symm
          have hc' : ∀ x ∈ D ++ [key m], ∀ y ∈ q'.flatMap rest, x ≤ y := by
            intro x hx y hy
            have hy' : y ∈ (m :: q).flatMap rest := a3.mem_iff.mpr (List.mem_cons_of_mem _ hy)
            rcases List.mem_append.mp hx with hx | hx
            · exact hc x hx y hy'
            · rw [List.mem_singleton.mp hx]; exact a4 y hy'
          have hlen : (q'.flatMap rest).length < fuel := by
            have := a3.length_eq
            simp only [List.length_cons] at this
            omega
          unfold loop
          simp only [htop, M.ok_bind]
          by_cases hmem : key m ∈ buf.take i
          · rw [if_pos (hbs.mpr hmem), a1, M.ok_bind]
            apply ih q' buf (D ++ [key m]) i a2 hk hb hl hp' hc' hs _ hlen
            intro x
            rw [ht x, List.mem_append]
            constructor
            · exact Or.inl
            · rintro (hx | hx)
              · exact hx
              · rw [List.mem_singleton.mp hx, ← ht]; exact hmem
          · rw [if_neg (fun h => hmem (hbs.mp h))]
            by_cases hi : i < buf.length
            · rw [wr_ok hi, M.ok_bind]
              have hsm : id32 (key m) = key m :=
                Nat.mod_eq_of_lt (hsmall _ (hp.mem_iff.mp (List.mem_append_right _ hkm)))
              rw [hsm]
              have htake : (buf.set i (key m)).take (i + 1) = buf.take i ++ [key m] := UL.take_set_succ _ _ _ (by omega)
              have hs' : ((buf.set i (key m)).take (i + 1)).Pairwise (· < ·) := by
                rw [htake, List.pairwise_append]
                refine ⟨hs, List.pairwise_singleton _ _, ?_⟩
                intro a ha b hb
                rw [List.mem_singleton.mp hb]
                rcases Nat.lt_or_eq_of_le (hle a ha) with h | h
                · exact h
                · rw [h] at ha; exact absurd ha hmem
              have ht' : ∀ x, x ∈ (buf.set i (key m)).take (i + 1) ↔ x ∈ D ++ [key m] := by
                intro x; rw [htake, List.mem_append, List.mem_append, ht x]
              rw [if_neg (by omega), a1, M.ok_bind]
              exact ih q' (buf.set i (key m)) (D ++ [key m]) (i + 1) a2 (by simpa using hk) (by simp; omega) (by simp; omega)
                hp' hc' hs' ht' hlen
            · unfold wr
              rw [if_neg hi]
              rfl

/-- the top is replaced, or removed when exhausted, and the heap is restored -/
theorem replace_top (std : StdLib) {key : α → Nat} {m m' : α} {q : List α} (h : IsHeap key (m :: q)) (b : Bool) :
    ∃ q1 q', popUnless std key b (m' :: q) = .ok q1 ∧ Heap.heapify key q1 = .ok q' ∧ IsHeap key q' ∧
      q'.Perm (if b then m' :: q else q) := by
  cases b with
  | true =>
      obtain ⟨q', e1, e2, e3⟩ := Heap.heapify_spec (IsHeap.below (y := m') h)
      exact ⟨m' :: q, q', rfl, e1, e3, e2⟩
  | false =>
      obtain ⟨q1, q', e1, e2, e3, e4⟩ := Heap.pop_heapify std (IsHeap.below (y := m') h)
      exact ⟨q1, q', e1, e2, e4, e3⟩

end Union

/-- the documents an iterator has still to give, obtained by running it -/
def CEI.restN (ii : InvIdx) : Nat → CEI → List Nat
  | 0, _ => []
  | n + 1, it => it.value :: (match it.next ii.data with
      | .ok it' => CEI.restN ii n it'
      | .error _ => [])

def CEI.rest (ii : InvIdx) (it : CEI) : List Nat := CEI.restN ii (it.off.n - it.pos) it

theorem InvIdx.ItAt.restN {ii : InvIdx} {u : Nat} {xs : List Nat} : ∀ (n : Nat) {it : CEI} {p : Nat}, ii.ItAt u xs it p →
    n = xs.length - p → CEI.restN ii n it = xs.drop p := by
  intro n
  induction n with
  | zero => intro it p h hn; rw [List.drop_of_length_le (by omega)]; rfl
  | succ n ih =>
      intro it p h hn
      obtain ⟨it', e1, e2⟩ := h.next (by omega)
      have hp : p < xs.length := by omega
      rw [CEI.restN, e1]
      simp only
      rw [ih e2 (by omega), h.value, List.getElem?_eq_getElem hp, Option.getD_some, List.getElem_cons_drop]

theorem InvIdx.ItAt.rest {ii : InvIdx} {u : Nat} {xs : List Nat} {it : CEI} {p : Nat} (h : ii.ItAt u xs it p) :
    it.rest ii = xs.drop p := by
  unfold CEI.rest
  rw [h.size, h.pos]
  exact h.restN _ rfl

/-- an iterator that is not exhausted -/
def InvIdx.Live (ii : InvIdx) (u : Nat) (it : CEI) : Prop := ∃ xs p, ii.ItAt u xs it p ∧ p < xs.length

theorem InvIdx.Live.rest_eq {ii : InvIdx} {u : Nat} {it : CEI} (h : ii.Live u it) :
    ∃ tl, it.rest ii = it.value :: tl ∧ (∀ x ∈ tl, it.value < x) ∧ it.value < u := by
  obtain ⟨xs, p, h1, h2⟩ := h
  refine ⟨xs.drop (p + 1), ?_, ?_, h1.lt_of_value h2⟩
  · rw [h1.rest, h1.value, List.getElem?_eq_getElem h2, Option.getD_some, List.getElem_cons_drop]
  · intro x hx
    have hs := h1.sorted.drop (i := p)
    rw [← List.getElem_cons_drop (h := h2), List.pairwise_cons] at hs
    rw [h1.value, List.getElem?_eq_getElem h2, Option.getD_some]
    exact hs.1 x hx

/-- moving forward: what is left -/
theorem InvIdx.Live.next {ii : InvIdx} {u : Nat} {it : CEI} (h : ii.Live u it) :
    ∃ it', it.next ii.data = .ok it' ∧ (it'.hasNext = true → ii.Live u it') ∧ it.rest ii = it.value :: it'.rest ii ∧
      (it'.hasNext = false → it'.rest ii = []) := by
  obtain ⟨xs, p, h1, h2⟩ := h
  obtain ⟨it', e1, e2⟩ := h1.next h2
  refine ⟨it', e1, ?_, ?_, ?_⟩
  · intro hn
    rw [e2.hasNext] at hn
    exact ⟨xs, p + 1, e2, of_decide_eq_true hn⟩
  · rw [h1.rest, InvIdx.ItAt.rest (ii := ii) e2, h1.value, List.getElem?_eq_getElem h2, Option.getD_some, List.getElem_cons_drop]
  · intro hn
    rw [e2.hasNext] at hn
    rw [InvIdx.ItAt.rest (ii := ii) e2, List.drop_of_length_le (by have := of_decide_eq_false hn; omega)]

namespace HeapTopK

structure Good (ii : InvIdx) (u : Nat) (q : List CEI) : Prop where
  heap : IsHeap CEI.value q
  live : ∀ it ∈ q, ii.Live u it

theorem step (std : StdLib) (ii : InvIdx) (u : Nat) : Union.Step CEI.value (advance std ii) (CEI.rest ii) (Good ii u) := by
  intro m q hg
  obtain ⟨it', n1, n2, n3, n4⟩ := (hg.live m (List.mem_cons_self ..)).next
  obtain ⟨q1, q', r1, r2, r3, r4⟩ := Union.replace_top std (m' := it') hg.heap it'.hasNext
  refine ⟨q', ?_, ⟨r3, ?_⟩, ?_, ?_⟩
  · unfold advance
    rw [show Heap.top (m :: q) = .ok m from rfl, M.ok_bind, n1, M.ok_bind, wr_ok (by simp), M.ok_bind, List.set_cons_zero, r1,
      M.ok_bind, r2]
  · intro it hit
    have := r4.mem_iff.mp hit
    split at this
    · rename_i hn
      rcases List.mem_cons.mp this with h | h
      · subst h; exact n2 hn
      · exact hg.live it (List.mem_cons_of_mem _ h)
    · exact hg.live it (List.mem_cons_of_mem _ this)
  · rw [List.flatMap_cons, n3, List.cons_append]
    refine List.Perm.cons _ ?_
    refine List.Perm.trans ?_ (List.Perm.flatMap_right _ r4).symm
    split
    · exact List.Perm.refl _
    · rename_i hn
      rw [n4 (by simpa using hn)]
      exact List.Perm.refl _
  · intro x hx
    obtain ⟨it, hit, hx⟩ := List.mem_flatMap.mp hx
    have h1 := IsHeap.top_le hg.heap it hit
    obtain ⟨tl, t1, t2, _⟩ := (hg.live it hit).rest_eq
    rw [t1] at hx
    rcases List.mem_cons.mp hx with h | h
    · omega
    · have := t2 x h; omega

theorem fill_spec {ii : InvIdx} {u : Nat} {lists : List (List Nat)} (h : ii.Rep u lists) : ∀ (n t : Nat), 1 ≤ t →
    t - 1 + n ≤ lists.length → ∃ q, fill ii n t = .ok q ∧ q.length = n ∧ (∀ it ∈ q, ii.Live u it) ∧
      q.flatMap (CEI.rest ii) = ((lists.drop (t - 1)).take n).flatten ∧
      ∀ it ∈ q, ∃ xs ∈ (lists.drop (t - 1)).take n, ii.ItAt u xs it 0 := by
  intro n
  induction n with
  | zero => intro t h1 h2; exact ⟨[], rfl, rfl, by simp, by simp, by simp⟩
  | succ n ih =>
      intro t h1 h2
      obtain ⟨it, i1, i2⟩ := InvIdx.iterator_spec h (t - 1) (by omega)
      obtain ⟨q, q1, q2, q3, q4, q5⟩ := ih (t + 1) (by omega) (by omega)
      have ht : t - 1 < lists.length := by omega
      have hd : (lists.drop (t - 1)).take (n + 1) = lists[t - 1] :: (lists.drop (t + 1 - 1)).take n := by
        rw [← List.getElem_cons_drop (h := ht), List.take_succ_cons, show t - 1 + 1 = t + 1 - 1 by omega]
      refine ⟨it :: q, ?_, by simp [q2], ?_, ?_, ?_⟩
      · unfold fill
        rw [InvIdx.iteratorOf_pos h1, i1, M.ok_bind, q1, M.ok_bind]
      · intro it' hit
        rcases List.mem_cons.mp hit with e | e
        · subst e
          exact ⟨_, 0, i2, List.length_pos_iff.mpr (h.valid.each _ (List.getElem_mem ht)).1⟩
        · exact q3 it' e
      · rw [List.flatMap_cons, q4, i2.rest, hd, List.flatten_cons, List.drop_zero]
      · intro it' hit
        rw [hd]
        rcases List.mem_cons.mp hit with e | e
        · subst e; exact ⟨_, List.mem_cons_self .., i2⟩
        · obtain ⟨xs, x1, x2⟩ := q5 it' e
          exact ⟨xs, List.mem_cons_of_mem _ x1, x2⟩

end HeapTopK

namespace MinDocs

/-- the documents to come of an element of the queue -/
def rest (ii : InvIdx) (lists : List (List Nat)) (e : RI) : List Nat :=
  match e.it with
  | some it => it.rest ii
  | none => e.sr.cover.flatMap (fun t => lists.getD t [])

def Ok (ii : InvIdx) (u : Nat) (lists : List (List Nat)) (e : RI) : Prop :=
  match e.it with
  | some it => ii.Live u it
  | none => e.sr.WF (lists.map (fun l => l.headD 0))

structure Good (ii : InvIdx) (u : Nat) (lists : List (List Nat)) (q : List RI) : Prop where
  heap : IsHeap key q
  ok : ∀ e ∈ q, Ok ii u lists e

variable {ii : InvIdx} {u : Nat} {lists : List (List Nat)}

theorem id32_value (hu : u < 2 ^ 32) {it : CEI} (h : ii.Live u it) : id32 it.value = it.value := by
  obtain ⟨_, _, _, h⟩ := h.rest_eq
  exact Nat.mod_eq_of_lt (by omega)

theorem key_le (h : ii.Rep u lists) {e : RI} (he : Ok ii u lists e) : ∀ x ∈ rest ii lists e, key e ≤ x := by
  intro x hx
  unfold Ok at he
  unfold rest at hx
  unfold key
  split at he
  · rename_i it hit
    simp only [hit] at hx ⊢
    rw [id32_value h.valid.univ he]
    obtain ⟨tl, t1, t2, _⟩ := he.rest_eq
    rw [t1] at hx
    rcases List.mem_cons.mp hx with h | h
    · omega
    · have := t2 x h; omega
  · rename_i hit
    simp only [hit] at hx ⊢
    obtain ⟨t, ht, hx⟩ := List.mem_flatMap.mp hx
    have h1 := he.le t ht
    have htl : t < lists.length := by
      have := he.hi
      simp only [List.length_map] at this
      unfold SR.cover at ht
      rw [List.mem_range'_1] at ht
      omega
    rw [List.getD_eq_getElem?_getD, List.getElem?_map, List.getElem?_eq_getElem htl] at h1
    rw [List.getD_eq_getElem?_getD, List.getElem?_eq_getElem htl] at hx
    simp only [Option.map_some, Option.getD_some] at h1 hx
    obtain ⟨a1, a2, a3⟩ := h.valid.each _ (List.getElem_mem htl)
    cases hl : lists[t] with
    | nil => exact absurd hl a1
    | cons y ys =>
        rw [hl] at hx h1 a2
        simp only [List.headD_cons] at h1
        rw [List.pairwise_cons] at a2
        rcases List.mem_cons.mp hx with hx | hx
        · omega
        · have := a2.1 x hx; omega

theorem step (std : StdLib) (h : ii.Rep u lists) {ul : UL} (hul : ul.Rep (lists.map (fun l => l.headD 0))) :
    Union.Step key (advance std ii ul) (rest ii lists) (Good ii u lists) := by
  intro m q hg
  have hmin : ∀ x ∈ (m :: q).flatMap (rest ii lists), key m ≤ x := by
    intro x hx
    obtain ⟨e, he, hx⟩ := List.mem_flatMap.mp hx
    have h1 := IsHeap.top_le hg.heap e he
    have h2 := key_le h (hg.ok e he) x hx
    omega
  have hm := hg.ok m (List.mem_cons_self ..)
  obtain ⟨sr, mit⟩ := m
  cases mit with
  | some it =>
      have hm : ii.Live u it := hm
      obtain ⟨it', n1, n2, n3, n4⟩ := hm.next
      obtain ⟨q1, q', r1, r2, r3, r4⟩ := Union.replace_top std (m' := (⟨sr, some it'⟩ : RI)) hg.heap it'.hasNext
      have hkey : key ⟨sr, some it⟩ = it.value := id32_value h.valid.univ hm
      refine ⟨q', ?_, ⟨r3, ?_⟩, ?_, hmin⟩
      · unfold advance
        rw [show Heap.top ((⟨sr, some it⟩ : RI) :: q) = .ok ⟨sr, some it⟩ from rfl, M.ok_bind]
        simp only
        rw [n1, M.ok_bind, wr_ok (by simp), M.ok_bind, List.set_cons_zero, r1, M.ok_bind, r2]
      · intro e he
        have := r4.mem_iff.mp he
        split at this
        · rename_i hn
          rcases List.mem_cons.mp this with h | h
          · subst h; exact n2 hn
          · exact hg.ok e (List.mem_cons_of_mem _ h)
        · exact hg.ok e (List.mem_cons_of_mem _ this)
      · rw [List.flatMap_cons, hkey, show rest ii lists ⟨sr, some it⟩ = it.rest ii from rfl, n3, List.cons_append]
        refine List.Perm.cons _ ?_
        refine List.Perm.trans ?_ (List.Perm.flatMap_right _ r4).symm
        split
        · exact List.Perm.refl _
        · rename_i hn
          rw [n4 (by simpa using hn)]
          exact List.Perm.refl _
  | none =>
      have hm : sr.WF (lists.map (fun l => l.headD 0)) := hm
      have hpos : sr.pos < lists.length := by
        have h1 := hm.hi
        have h2 := hm.min.2.1
        simp only [List.length_map] at h1
        omega
      obtain ⟨it, i1, i2⟩ := InvIdx.iterator_spec h sr.pos hpos
      have hlive : ii.Live u it := ⟨_, 0, i2, List.length_pos_iff.mpr (h.valid.each _ (List.getElem_mem hpos)).1⟩
      obtain ⟨it', n1, n2, n3, n4⟩ := hlive.next
      obtain ⟨q1, q2, r1, r2, r3, r4⟩ := Union.replace_top std (m' := (⟨sr, some it'⟩ : RI)) hg.heap it'.hasNext
      obtain ⟨q3, q4, news, s1, s2, s3, s4, s5, s6⟩ := UL.split_spec std key closed hul hm.min.1 hm.min.2.1 hm.hi r3
      have hkey : key ⟨sr, none⟩ = it.value := by
        show sr.val = it.value
        rw [hm.val, i2.value, List.getD_eq_getElem?_getD, List.getElem?_map, List.getElem?_eq_getElem hpos]
        simp only [Option.map_some, Option.getD_some]
        have hne := (h.valid.each _ (List.getElem_mem hpos)).1
        cases hl : lists[sr.pos] with
        | nil => exact absurd hl hne
        | cons y ys => rfl
      refine ⟨q4, ?_, ⟨s3, ?_⟩, ?_, hmin⟩
      · unfold advance
        rw [show Heap.top ((⟨sr, none⟩ : RI) :: q) = .ok ⟨sr, none⟩ from rfl, M.ok_bind]
        simp only
        rw [i1, M.ok_bind, n1, M.ok_bind, wr_ok (by simp), M.ok_bind, List.set_cons_zero, r1, M.ok_bind, r2, M.ok_bind, s1,
          M.ok_bind, s2]
      · intro e he
        rcases List.mem_append.mp (s4.mem_iff.mp he) with he | he
        · obtain ⟨s, hs, rfl⟩ := List.mem_map.mp he
          exact s5 s hs
        · have := r4.mem_iff.mp he
          split at this
          · rename_i hn
            rcases List.mem_cons.mp this with h | h
            · subst h; exact n2 hn
            · exact hg.ok e (List.mem_cons_of_mem _ h)
          · exact hg.ok e (List.mem_cons_of_mem _ this)
      · rw [List.flatMap_cons, hkey]
        have e1 : (rest ii lists ⟨sr, none⟩).Perm (it.value :: (it'.rest ii ++ (news.map closed).flatMap (rest ii lists))) := by
          show (sr.cover.flatMap (fun t => lists.getD t [])).Perm _
          refine (List.Perm.flatMap_right _ (show sr.cover.Perm _ from s6)).trans ?_
          rw [List.flatMap_cons, ← List.cons_append, ← n3, i2.rest, List.drop_zero, List.getD_eq_getElem?_getD,
            List.getElem?_eq_getElem hpos, Option.getD_some, List.flatMap_map, List.flatMap_assoc]
          exact List.Perm.refl _
        have e2 : (q4.flatMap (rest ii lists)).Perm ((news.map closed).flatMap (rest ii lists) ++ (it'.rest ii ++ q.flatMap (rest ii lists))) := by
          refine (List.Perm.flatMap_right _ s4).trans ?_
          rw [List.flatMap_append]
          refine List.Perm.append_left _ ((List.Perm.flatMap_right _ r4).trans ?_)
          split
          · exact List.Perm.refl _
          · rename_i hn
            rw [n4 (by simpa using hn)]
            exact List.Perm.refl _
        refine (e1.append_right _).trans ?_
        rw [List.cons_append]
        refine List.Perm.cons _ (List.Perm.trans ?_ e2.symm)
        rw [← List.append_assoc]
        exact List.perm_append_comm.append_right _

end MinDocs
end AC

namespace AC

theorem flatten_slice_length (lists : List (List Nat)) (a n : Nat) :
    ((lists.drop a).take n).flatten.length ≤ (lists.map List.length).sum := by
  rw [List.length_flatten]
  have h : ∀ (L : List (List Nat)) (n : Nat), ((L.take n).map List.length).sum ≤ (L.map List.length).sum := by
    intro L n
    conv => rhs; rw [← List.take_append_drop n L, List.map_append, List.sum_append]
    omega
  have h2 : ∀ (L : List (List Nat)) (n : Nat), ((L.drop n).map List.length).sum ≤ (L.map List.length).sum := by
    intro L n
    conv => rhs; rw [← List.take_append_drop n L, List.map_append, List.sum_append]
    omega
  exact Nat.le_trans (h _ _) (h2 _ _)

theorem slice_small {u : Nat} {lists : List (List Nat)} (h : InvLists u lists) (a n : Nat) :
    ∀ x ∈ ((lists.drop a).take n).flatten, x < 2 ^ 32 := by
  intro x hx
  obtain ⟨l, hl, hx⟩ := List.mem_flatten.mp hx
  have := (h.each l (List.mem_of_mem_drop (List.mem_of_mem_take hl))).2.2 x hx
  have := h.univ
  omega

theorem IsTopK_congr {P Q : Nat → Prop} {k : Nat} {E : List Nat} (h : ∀ x, P x ↔ Q x) (hP : Spec.IsTopK P k E) : Spec.IsTopK Q k E :=
  ⟨hP.sorted, fun x hx => (h x).mp (hP.sound x hx), hP.le, fun x hx hxE => hP.complete x ((h x).mpr hx) hxE⟩

namespace HeapTopK

theorem start_spec (std : StdLib) {ii : InvIdx} {u : Nat} {lists : List (List Nat)} (h : ii.Rep u lists) {a b : Nat} (ha : 1 ≤ a)
    (hab : a ≤ b + 1) (hb : b ≤ lists.length) :
    ∃ q, fill ii (b + 1 - a) a = .ok q ∧ Good ii u (Heap.makeHeap std CEI.value q) ∧
      ((Heap.makeHeap std CEI.value q).flatMap (CEI.rest ii)).Perm ((lists.drop (a - 1)).take (b + 1 - a)).flatten := by
  obtain ⟨q, q1, q2, q3, q4, q5⟩ := fill_spec h (b + 1 - a) a ha (by omega)
  obtain ⟨m1, m2⟩ := Heap.makeHeap_spec (key := CEI.value) std q
  refine ⟨q, q1, ⟨m2, fun it hit => q3 it (m1.mem_iff.mp hit)⟩, ?_⟩
  rw [← q4]
  exact List.Perm.flatMap_right _ m1

theorem topk_spec (std : StdLib) {ii : InvIdx} {u : Nat} {lists : List (List Nat)} (h : ii.Rep u lists) {a b k : Nat} {buf : List Nat}
    (ha : 1 ≤ a) (hab : a ≤ b + 1) (hb : b ≤ lists.length) (hk : 1 ≤ k) (hbuf : k ≤ buf.length) :
    ∃ buf' n, topk std ii a b k buf = .ok (buf', n) ∧ buf'.length = buf.length ∧ n ≤ k ∧
      Spec.IsTopK (fun d => ∃ l ∈ (lists.drop (a - 1)).take (b + 1 - a), d ∈ l) k (buf'.take n) := by
  obtain ⟨q, q1, q2, q3⟩ := start_spec std h ha hab hb
  have hl := q3.length_eq
  have hs := flatten_slice_length lists (a - 1) (b + 1 - a)
  have hi := h.ints
  obtain ⟨buf', n, r1, r2, r3, r4⟩ := Union.loop_spec std (step std ii u) _ (slice_small h.valid (a - 1) (b + 1 - a)) k
    (ii.numIntegers + 1) _ buf [] 0 q2 hk hbuf (by simpa using q3) (by simp) (by simp) (by simp) (by omega)
  refine ⟨buf', n, ?_, r2, r3, IsTopK_congr (fun x => List.mem_flatten) r4⟩
  unfold topk
  rw [q1, M.ok_bind, r1]

end HeapTopK

namespace MinDocs

theorem start_spec (std : StdLib) {ii : InvIdx} {u : Nat} {lists : List (List Nat)} {ul : UL}
    (hul : ul.Rep (lists.map (fun l => l.headD 0))) {a b : Nat} (hab : a < b) (hb : b ≤ lists.length) :
    ∃ pos val, CT.rmq ul.rmq a (b - 1) = .ok pos ∧ ul.access pos = .ok val ∧
      Good ii u lists (Heap.push std key [] (closed ⟨a, b - 1, pos, val⟩)) ∧
      ((Heap.push std key [] (closed ⟨a, b - 1, pos, val⟩)).flatMap (rest ii lists)).Perm
        ((lists.drop a).take (b - a)).flatten := by
  obtain ⟨m, m1, m2⟩ := UL.rmq_min hul (show a ≤ b - 1 by omega) (by simp; omega)
  obtain ⟨p1, p2⟩ := Heap.push_spec std (IsHeap.nil (key := key))
    (closed ⟨a, b - 1, m, (lists.map (fun l => l.headD 0)).getD m 0⟩)
  refine ⟨m, _, m1, hul.access m (by have := m2.2.1; simp; omega), ⟨p2, ?_⟩, ?_⟩
  · intro e he
    have := p1.mem_iff.mp he
    simp only [List.mem_singleton] at this
    subst this
    exact ⟨m2, by show b - 1 < _; simp only [List.length_map]; omega, rfl⟩
  · refine (List.Perm.flatMap_right _ p1).trans ?_
    simp only [List.flatMap_cons, List.flatMap_nil, List.append_nil]
    have : rest ii lists (closed ⟨a, b - 1, m, (lists.map (fun l => l.headD 0)).getD m 0⟩) = ((lists.drop a).take (b - a)).flatten := by
      show (List.range' a (b - 1 + 1 - a)).flatMap _ = _
      rw [show b - 1 + 1 - a = b - a by omega, List.flatMap_def]
      congr 1
      apply List.ext_getElem
      · simp; omega
      · intro i h1 h2
        simp only [List.length_map, List.length_range'] at h1
        simp only [List.getElem_map, List.getElem_range', List.getElem_take, List.getElem_drop, Nat.one_mul]
        rw [List.getD_eq_getElem?_getD, List.getElem?_eq_getElem (by omega)]
        rfl
    rw [this]

theorem topk_spec (std : StdLib) {ii : InvIdx} {u : Nat} {lists : List (List Nat)} (h : ii.Rep u lists) {ul : UL}
    (hul : ul.Rep (lists.map (fun l => l.headD 0))) {a b k : Nat} {buf : List Nat}
    (hab : a < b) (hb : b ≤ lists.length) (hk : 1 ≤ k) (hbuf : k ≤ buf.length) :
    ∃ buf' n, topk std ii ul a b k buf = .ok (buf', n) ∧ buf'.length = buf.length ∧ n ≤ k ∧
      Spec.IsTopK (fun d => ∃ l ∈ (lists.drop a).take (b - a), d ∈ l) k (buf'.take n) := by
  obtain ⟨pos, val, p1, p2, p3, p4⟩ := start_spec std (ii := ii) (u := u) hul hab hb
  have hl := p4.length_eq
  have hs := flatten_slice_length lists a (b - a)
  have hi := h.ints
  obtain ⟨buf', n, r1, r2, r3, r4⟩ := Union.loop_spec std (step std h hul) _ (slice_small h.valid a (b - a)) k
    (ii.numIntegers + 1) _ buf [] 0 p3 hk hbuf (by simpa using p4) (by simp) (by simp) (by simp) (by omega)
  refine ⟨buf', n, ?_, r2, r3, IsTopK_congr (fun x => List.mem_flatten) r4⟩
  unfold topk
  rw [p1, M.ok_bind, p2, M.ok_bind, r1]

end MinDocs
end AC
