import Verif.Proofs.BlkRead
import Verif.Proofs.All2
/-!
# The intersection iterator of the blocked inverted index
-/
namespace AC
open Spec

/-- the elements before position `p` are below `c` -/
def Below (docs : List Nat) (p c : Nat) : Prop := ∀ (j d : Nat), docs[j]? = some d → j < p → d < c

theorem Below.mono {docs : List Nat} {p c c' : Nat} (h : Below docs p c) (hc : c ≤ c') : Below docs p c' :=
  fun j d h1 h2 => Nat.lt_of_lt_of_le (h j d h1 h2) hc

/-- `next_geq_by_scan(y)`, when the elements before the position are below `y` -/
theorem CEF.ItAt.scan {v : BV} {u : Nat} {xs : List Nat} {it : CEI} {p : Nat} (h : CEF.ItAt v u xs it p) {y : Nat} (hy : y ≤ u)
    (hb : Below xs p y) :
    ∃ it' p', it.nextGeqByScan v y = .ok it' ∧ CEF.ItAt v u xs it' p' ∧ y ≤ it'.value ∧ Below xs p' y ∧ ∀ x ∈ xs, y ≤ x → it'.value ≤ x := by
  have hn := h.size
  obtain ⟨base, h1, h2, h3, h4⟩ := h
  obtain ⟨it', p', e1, e2, e3, e4, e5⟩ := CEF.scanLoop_spec h1 y (it.off.n + 1) p it h4 (by omega)
  have hh : CEF.ItAt v u xs it' p' := ⟨base, h1, h2, h3, e2⟩
  have hbelow : Below xs p' y := by
    intro j d hd hj
    rcases Nat.lt_or_ge j p with hc | hc
    · exact hb j d hd hc
    · have := e4 j hc hj
      rw [List.getD_eq_getElem?_getD, hd] at this
      exact this
  refine ⟨it', p', e1, hh, ?_, hbelow, ?_⟩
  · rw [hh.value]
    by_cases hp : p' < xs.length
    · have := e5 hp
      rw [List.getD_eq_getElem?_getD, List.getElem?_eq_getElem hp] at this
      rw [List.getElem?_eq_getElem hp]; exact this
    · rw [List.getElem?_eq_none (by omega)]; exact hy
  · intro x hx hyx
    obtain ⟨j, hj, rfl⟩ := List.getElem_of_mem hx
    rcases Nat.lt_or_ge j p' with hc | hc
    · have := hbelow j _ (List.getElem?_eq_getElem hj) hc
      omega
    · rw [hh.value, List.getElem?_eq_getElem (by omega : p' < xs.length)]
      simp only [Option.getD_some]
      rw [List.pairwise_iff_getElem] at h3
      rcases Nat.lt_or_eq_of_le hc with hc | hc
      · exact Nat.le_of_lt (h3 _ _ _ hj hc)
      · subst hc; exact Nat.le_refl _

theorem CEF.ItAt.get_of_value {v : BV} {u : Nat} {xs : List Nat} {it : CEI} {p : Nat} (h : CEF.ItAt v u xs it p) (hv : it.value < u) :
    xs[p]? = some it.value := by
  obtain ⟨hp, _⟩ := h.value_mem hv
  rw [h.value, List.getElem?_eq_getElem hp]; rfl

/-- a block of the intersection, and the terms looked for in it -/
structure BD where
  lo : Nat
  hi : Nat
  docs : List Nat
  ids : List Nat

/-- the documents before the position of the block are below `c` -/
def Cur (ii : BlkIdx) (u : Nat) (lists : List (List Nat)) (c : Nat) (b : Blk) (x : BD) : Prop :=
  ∃ p, b.At ii u lists x.lo x.hi x.docs p ∧ b.ids = x.ids ∧ x.ids.Pairwise (· < ·) ∧ x.ids ≠ [] ∧ (∀ t ∈ x.ids, x.lo < t ∧ t ≤ x.hi) ∧
    Below x.docs p c

/-- the document has all the terms -/
def HasAll (lists : List (List Nat)) (xs : List BD) (d : Nat) : Prop := ∀ x ∈ xs, ∀ t ∈ x.ids, Posted lists t d

namespace BInter

variable {ii : BlkIdx} {u : Nat} {lists : List (List Nat)}

theorem Cur.mem_docs {c : Nat} {b : Blk} {x : BD} (h : Cur ii u lists c b x) {d : Nat} (hd : ∀ t ∈ x.ids, Posted lists t d) : d ∈ x.docs := by
  obtain ⟨p, h1, h2, h3, h4, h5, h6⟩ := h
  obtain ⟨t, ht⟩ := List.exists_mem_of_ne_nil _ h4
  exact (h1.isDocs.mem d).mpr ⟨t, (h5 t ht).1, (h5 t ht).2, hd t ht⟩

theorem Cur.mono {c c' : Nat} {b : Blk} {x : BD} (h : Cur ii u lists c b x) (hc : c ≤ c') : Cur ii u lists c' b x := by
  obtain ⟨p, h1, h2, h3, h4, h5, h6⟩ := h
  exact ⟨p, h1, h2, h3, h4, h5, h6.mono hc⟩

theorem id32_small {x : Nat} (hx : x < 2 ^ 32) : id32 x = x := Nat.mod_eq_of_lt hx

/-- the block is at document `c`, which has its terms -/
def Good (lists : List (List Nat)) (c : Nat) (b : Blk) (x : BD) : Prop := b.docs.value = c ∧ ∀ t ∈ x.ids, Posted lists t c

/-- the loop for several blocks -/
theorem nextMany_spec (hd : ii.numDocs = u) (hu : u + 1 < 2 ^ 32) (xs : List BD) :
    ∀ (fuel : Nat) (s : BInter), All2 (Cur ii u lists s.candidate) s.blocks xs → s.candidate ≤ u + 1 → s.i ≤ s.blocks.length →
      (∀ (j : Nat) (h1 : j < s.blocks.length) (h2 : j < xs.length), j < s.i → Good lists s.candidate s.blocks[j] xs[j]) →
      (u + 1 - s.candidate) * (s.blocks.length + 1) + (s.blocks.length - s.i) < fuel →
      ∃ s', nextMany ii fuel s = .ok s' ∧ All2 (Cur ii u lists s'.candidate) s'.blocks xs ∧ s.candidate ≤ s'.candidate ∧ s'.candidate ≤ u + 1 ∧
        (u ≤ s'.candidate ∨ All2 (Good lists s'.candidate) s'.blocks xs) ∧
        (∀ d, HasAll lists xs d → s.candidate ≤ d → d < u → s'.candidate ≤ d) := by
  intro fuel
  induction fuel with
  | zero => intro s _ _ _ _ h; omega
  | succ fuel ih =>
      intro s hA hle hi hG hf
      have hlen := All2.length hA
      unfold nextMany
      split
      · rename_i hc
        rw [hd] at hc
        have hil : s.i < s.blocks.length := by omega
        have hil2 : s.i < xs.length := by omega
        obtain ⟨p, c1, c2, c3, c4, c5, c6⟩ := All2.get hA s.i hil hil2
        obtain ⟨it', p', e1, e2, e3, e4, e5⟩ := c1.it.scan (y := s.candidate) (by omega) c6
        obtain ⟨o, r, f1, f2, f3⟩ := isIn_spec (c1.withDocs e2) (by rw [c2]; exact c3) (by rw [c2]; exact c5)
        have hvle := e2.value_le
        rw [rd_ok hil]
        simp only [M.ok_bind, e1, f1, wr_ok hil]
        dsimp only at f2 f3
        rw [c2] at f3
        split
        · rename_i hv
          obtain ⟨hv1, hv2⟩ := hv
          obtain ⟨s', g1, g2, g3, g4, g5, g6⟩ := ih ⟨s.candidate, s.i + 1, s.blocks.set s.i { s.blocks[s.i] with docs := it', offs := o }⟩
            (All2.set hA hil2 ⟨p', f2, c2, c3, c4, c5, e4⟩) hle (by simp only [List.length_set]; omega) (by
              intro j h1 h2 h3
              dsimp only at h1 h3 ⊢
              rw [List.getElem_set]
              split
              · rename_i hij
                subst hij
                refine ⟨hv1, ?_⟩
                obtain ⟨d, d1, d2⟩ := f3.mp hv2
                rw [e2.get_of_value (by omega), Option.some.injEq] at d1
                rw [← hv1, d1]; exact d2
              · rw [List.length_set] at h1
                exact hG j h1 h2 (by omega)) (by simp only [List.length_set]; omega)
          exact ⟨s', g1, g2, g3, g4, g5, g6⟩
        · rename_i hv
          have hnew : id32 (it'.value + if r = true then 0 else 1) = it'.value + if r = true then 0 else 1 := by
            apply id32_small; split <;> omega
          rw [hnew]
          have hgt : s.candidate < it'.value + if r = true then 0 else 1 := by
            cases r with
            | true =>
                rw [if_pos rfl]
                have : it'.value ≠ s.candidate := fun hn => hv ⟨hn, rfl⟩
                omega
            | false => rw [if_neg (by simp)]; omega
          have hle' : (it'.value + if r = true then 0 else 1) ≤ u + 1 := by split <;> omega
          generalize hcd : (it'.value + if r = true then 0 else 1) = c at hgt hle'
          have hA' : All2 (Cur ii u lists c) (s.blocks.set s.i { s.blocks[s.i] with docs := it', offs := o }) xs :=
            All2.set (hA.imp (fun _ _ h => Cur.mono h (Nat.le_of_lt hgt))) hil2 ⟨p', f2, c2, c3, c4, c5, e4.mono (Nat.le_of_lt hgt)⟩
          obtain ⟨s', g1, g2, g3, g4, g5, g6⟩ := ih ⟨c, 0, s.blocks.set s.i { s.blocks[s.i] with docs := it', offs := o }⟩ hA' hle'
            (Nat.zero_le _) (by intro j _ _ hj; dsimp only at hj; omega) (by
              simp only [List.length_set]
              have h1 : (u + 1 - s.candidate) * (s.blocks.length + 1) =
                  (u + 1 - c) * (s.blocks.length + 1) + (c - s.candidate) * (s.blocks.length + 1) := by
                rw [← Nat.add_mul]; congr 1; omega
              have h2 : 1 * (s.blocks.length + 1) ≤ (c - s.candidate) * (s.blocks.length + 1) := Nat.mul_le_mul_right _ (by omega)
              omega)
          dsimp only at g3 g6
          refine ⟨s', g1, g2, by omega, g4, g5, ?_⟩
          intro d hall hcd' hdu
          apply g6 d hall _ hdu
          have hids := hall _ (List.getElem_mem hil2)
          have hdm := Cur.mem_docs (All2.get hA s.i hil hil2) hids
          have h1 := e5 d hdm hcd'
          rw [← hcd]
          cases r with
          | true => rw [if_pos rfl]; omega
          | false =>
              rw [if_neg (by simp)]
              have : it'.value ≠ d := by
                intro hn
                have hg := e2.get_of_value (by omega)
                rw [hn] at hg
                have := f3.mpr ⟨d, hg, hids⟩
                cases this
              omega
      · rename_i hc
        rw [hd] at hc
        refine ⟨s, rfl, hA, Nat.le_refl _, hle, ?_, fun d _ h _ => h⟩
        by_cases hcu : s.candidate < u
        · right
          have hi' : s.i = s.blocks.length := Classical.not_not.mp (fun hn => hc ⟨hcu, hn⟩)
          exact All2.of_get hlen (fun j h1 h2 => hG j h1 h2 (by omega))
        · left; omega

/-- the loop for one block, the iterator of which is at position `p` -/
theorem nextOne_spec (hd : ii.numDocs = u) (hu : u + 1 < 2 ^ 32) (x : BD) (hs : x.ids.Pairwise (· < ·)) (hr : ∀ t ∈ x.ids, x.lo < t ∧ t ≤ x.hi) :
    ∀ (fuel : Nat) (b : Blk) (p : Nat), b.At ii u lists x.lo x.hi x.docs p → b.ids = x.ids → x.docs.length - p + 1 < fuel →
      ∃ s' b' p', nextOne ii fuel ⟨b.docs.value, 0, [b]⟩ = .ok s' ∧ s'.blocks = [b'] ∧ b'.At ii u lists x.lo x.hi x.docs p' ∧ b'.ids = x.ids ∧
        s'.candidate = b'.docs.value ∧ (b.docs.value < u → b.docs.value < s'.candidate) ∧ b.docs.value ≤ s'.candidate ∧
        (s'.candidate = u ∨ Good lists s'.candidate b' x) ∧
        (∀ d ∈ x.docs, (∀ t ∈ x.ids, Posted lists t d) → b.docs.value < d → s'.candidate ≤ d) := by
  intro fuel
  induction fuel with
  | zero => intro b p _ _ h; omega
  | succ fuel ih =>
      intro b p hb hids hf
      have hle := hb.it.value_le
      unfold nextOne
      split
      · rename_i hc
        rw [hd] at hc
        obtain ⟨hp, _⟩ := hb.it.value_mem hc.1
        obtain ⟨it', e1, e2⟩ := hb.it.next hp
        obtain ⟨n1, n2⟩ := hb.it.next_value e2 hp
        obtain ⟨o, r, f1, f2, f3⟩ := isIn_spec (hb.withDocs e2) (by rw [hids]; exact hs) (by rw [hids]; exact hr)
        have hvle := e2.value_le
        rw [rd_ok (show 0 < [b].length by simp)]
        simp only [M.ok_bind, List.getElem_cons_zero, e1, f1, wr_ok (show 0 < [b].length by simp), List.set_cons_zero]
        rw [id32_small (by omega)]
        dsimp only at f2 f3
        rw [hids] at f3
        cases r with
        | true =>
            rw [if_pos rfl]
            obtain ⟨d, d1, d2⟩ := f3.mp rfl
            have hdv : it'.value = d := by rw [e2.value, d1]; rfl
            obtain ⟨fuel, rfl⟩ := Nat.exists_eq_succ_of_ne_zero (by omega : fuel ≠ 0)
            refine ⟨⟨it'.value, 1, [{ b with docs := it', offs := o }]⟩, { b with docs := it', offs := o }, p + 1, ?_, rfl, f2, hids, rfl, fun _ => n1,
              by dsimp only; omega, Or.inr ⟨rfl, by dsimp only; rw [hdv]; exact d2⟩, fun d hd' _ hlt => n2 d hd' hlt⟩
            unfold nextOne
            rw [if_neg (by simp)]
        | false =>
            rw [if_neg (by simp)]
            obtain ⟨s', b', p', g1, g2, g3, g4, g5, g6, g7, g8, g9⟩ := ih { b with docs := it', offs := o } (p + 1) f2 hids (by omega)
            dsimp only at g1 g6 g7 g9
            refine ⟨s', b', p', g1, g2, g3, g4, g5, fun _ => by omega, by omega, g8, ?_⟩
            intro d hd' hall hlt
            apply g9 d hd' hall
            have h1 := n2 d hd' hlt
            have : it'.value ≠ d := by
              intro hn
              have hdu := hb.it.bound d hd'
              have hg := e2.get_of_value (by omega)
              rw [hn] at hg
              have := f3.mpr ⟨d, hg, hall⟩
              cases this
            omega
      · rename_i hc
        rw [hd] at hc
        have hu' : b.docs.value = u := by
          have : ¬ b.docs.value < u := fun hn => hc ⟨hn, by simp⟩
          omega
        refine ⟨_, b, p, rfl, rfl, hb, hids, rfl, fun h => by omega, Nat.le_refl _, Or.inl hu', ?_⟩
        intro d _ _ h
        dsimp only; omega

/-- the iterator is about to enumerate `R` -/
structure Enum (ii : BlkIdx) (u : Nat) (lists : List (List Nat)) (s : BInter) (xs : List BD) (R : List Nat) : Prop where
  docs : ii.numDocs = u
  univ : u + 1 < 2 ^ 32
  ne : xs ≠ []
  cur : All2 (Cur ii u lists s.candidate) s.blocks xs
  le : s.candidate ≤ u + 1
  here : u ≤ s.candidate ∨ All2 (Good lists s.candidate) s.blocks xs
  sorted : R.Pairwise (· < ·)
  mem : ∀ d, d ∈ R ↔ HasAll lists xs d ∧ s.candidate ≤ d

theorem bound_of {s : BInter} {xs : List BD} {c : Nat} (h : All2 (Cur ii u lists c) s.blocks xs) (hne : xs ≠ []) {d : Nat} (hd : HasAll lists xs d) : d < u := by
  have hl : 0 < xs.length := List.length_pos_iff.mpr hne
  have hc := All2.get h 0 (by rw [All2.length h]; exact hl) hl
  have hm := Cur.mem_docs hc (hd _ (List.getElem_mem hl))
  obtain ⟨p, c1, _⟩ := hc
  exact c1.it.bound d hm

theorem Enum.bound {s : BInter} {xs : List BD} {R : List Nat} (h : Enum ii u lists s xs R) : ∀ d ∈ R, d < u :=
  fun d hd => bound_of h.cur h.ne ((h.mem d).mp hd).1

theorem Enum.step {s : BInter} {xs : List BD} {R : List Nat} (h : Enum ii u lists s xs R) :
    (R = [] → s.hasNext ii = false) ∧
    (∀ d R', R = d :: R' → s.hasNext ii = true ∧ s.candidate = d ∧ ∃ s', s.inc ii = .ok s' ∧ Enum ii u lists s' xs R') := by
  have hl : 0 < xs.length := List.length_pos_iff.mpr h.ne
  have hlen := All2.length h.cur
  have hcand : s.candidate < u → HasAll lists xs s.candidate := by
    intro hlt x hx
    have hg := h.here.resolve_left (by omega)
    obtain ⟨j, hj, rfl⟩ := List.getElem_of_mem hx
    exact (All2.get hg j (by omega) hj).2
  have hiff : s.candidate < u ↔ s.candidate ∈ R := by
    constructor
    · intro hlt; exact (h.mem _).mpr ⟨hcand hlt, Nat.le_refl _⟩
    · intro hm; exact h.bound _ hm
  have hhas : s.hasNext ii = decide (s.candidate < u) := by unfold hasNext; rw [h.docs]
  constructor
  · intro hR
    rw [hhas, decide_eq_false]
    rw [hiff, hR]; simp
  · intro d R' hR
    have hlt : s.candidate < u := by
      have hm := (h.mem d).mp (by rw [hR]; exact List.mem_cons_self ..)
      have := bound_of h.cur h.ne hm.1
      omega
    have hdc : s.candidate = d := by
      have hm := (h.mem d).mp (by rw [hR]; exact List.mem_cons_self ..)
      have hs := h.sorted
      have hc := hiff.mp hlt
      rw [hR] at hs hc
      rcases List.mem_cons.mp hc with hc | hc
      · exact hc
      · have := (List.pairwise_cons.mp hs).1 _ hc; omega
    refine ⟨by rw [hhas]; exact decide_eq_true hlt, hdc, ?_⟩
    have hg := h.here.resolve_left (by omega)
    have h0 : 0 < s.blocks.length := by omega
    have hc0 := All2.get h.cur 0 h0 hl
    obtain ⟨p, c1, c2, c3, c4, c5, c6⟩ := hc0
    obtain ⟨gv, gp⟩ := All2.get hg 0 h0 hl
    obtain ⟨hp, _⟩ := c1.it.value_mem (by omega)
    have hu := h.univ
    have hs := h.sorted
    rw [hR] at hs
    obtain ⟨s1, s2⟩ := List.pairwise_cons.mp hs
    have finish : ∀ s' : BInter, All2 (Cur ii u lists s'.candidate) s'.blocks xs → s'.candidate ≤ u + 1 →
        (u ≤ s'.candidate ∨ All2 (Good lists s'.candidate) s'.blocks xs) → s.candidate < s'.candidate →
        (∀ d, HasAll lists xs d → s.candidate < d → s'.candidate ≤ d) → Enum ii u lists s' xs R' := by
      intro s' q1 q2 q3 q4 q5
      refine ⟨h.docs, h.univ, h.ne, q1, q2, q3, s2, ?_⟩
      intro x
      have hx0 := h.mem x
      rw [hR] at hx0
      constructor
      · intro hx
        obtain ⟨m1, m2⟩ := hx0.mp (List.mem_cons_of_mem _ hx)
        have := s1 x hx
        exact ⟨m1, q5 x m1 (by omega)⟩
      · intro ⟨m1, m2⟩
        rcases List.mem_cons.mp (hx0.mpr ⟨m1, by omega⟩) with hx | hx
        · omega
        · exact hx
    unfold inc BInter.step next
    by_cases hone : s.blocks.length = 1
    · rw [if_neg (by omega)]
      simp only [M.ok_bind]
      rw [if_pos hone]
      obtain ⟨x, hx⟩ : ∃ x, xs = [x] := List.length_eq_one_iff.mp (by omega)
      obtain ⟨b, hb⟩ := List.length_eq_one_iff.mp hone
      subst hx
      obtain ⟨cand, si, blocks⟩ := s
      dsimp only at hb hlt gv hdc finish c1 c2 ⊢
      subst hb
      simp only [List.getElem_cons_zero] at gv c1 c2 c3 c4 c5
      rw [← gv]
      obtain ⟨s', b', p', e1, e2, e3, e4, e5, e6, e7, e8, e9⟩ := nextOne_spec (lists := lists) h.docs hu x c3 c5 (ii.numDocs + 2) b p c1 c2 (by
        have := c1.it.le
        have hlen : x.docs.length ≤ u := by
          have := nodup_subset_length' (A := x.docs) (B := List.range u) (c1.it.sorted.imp Nat.ne_of_lt) (fun a ha => List.mem_range.mpr (c1.it.bound a ha))
          simpa using this
        rw [h.docs]; omega)
      refine ⟨s', e1, finish s' ?_ ?_ ?_ ?_ ?_⟩
      · rw [e2]
        refine .cons ⟨p', e3, e4, c3, c4, c5, ?_⟩ .nil
        intro j d' hd' hj
        rw [e5, e3.it.value]
        cases hg' : x.docs[p']? with
        | none => exact e3.it.bound d' (List.mem_of_getElem? hd')
        | some z =>
            obtain ⟨z1, z2⟩ := List.getElem?_eq_some_iff.mp hg'
            obtain ⟨y1, y2⟩ := List.getElem?_eq_some_iff.mp hd'
            have := List.pairwise_iff_getElem.mp e3.it.sorted j p' y1 z1 hj
            simp only [Option.getD_some]; omega
      · have := e3.it.value_le; omega
      · rcases e8 with e8 | e8
        · exact Or.inl (by omega)
        · right; rw [e2]; exact .cons e8 .nil
      · have := e6 (by omega); omega
      · intro d' hall hlt'
        have hids := hall x (List.mem_cons_self ..)
        have hm : d' ∈ x.docs := by
          obtain ⟨t, ht⟩ := List.exists_mem_of_ne_nil _ c4
          exact (c1.isDocs.mem d').mpr ⟨t, (c5 t ht).1, (c5 t ht).2, hids t ht⟩
        exact e9 d' hm hids (by omega)
    · obtain ⟨it', e1, e2⟩ := c1.it.next hp
      obtain ⟨n1, n2⟩ := c1.it.next_value e2 hp
      have hvle := e2.value_le
      rw [if_pos (by omega), rd_ok h0]
      simp only [M.ok_bind, e1, wr_ok h0]
      rw [if_neg (by rw [List.length_set]; exact hone), id32_small (by omega)]
      rw [gv] at n1 n2
      have hA' : All2 (Cur ii u lists it'.value) (s.blocks.set 0 { s.blocks[0] with docs := it' }) xs := by
        refine All2.set (h.cur.imp (fun _ _ h => Cur.mono h (Nat.le_of_lt n1))) hl ⟨p + 1, c1.withDocs e2, c2, c3, c4, c5, ?_⟩
        intro j d' hd' hj
        rcases Nat.lt_or_ge j p with hc | hc
        · have := c6 j d' hd' hc; omega
        · have : j = p := by omega
          subst this
          have hv := c1.it.get_of_value (by omega)
          rw [hd'] at hv
          cases hv
          omega
      obtain ⟨s', g1, g2, g3, g4, g5, g6⟩ := nextMany_spec (lists := lists) h.docs hu xs
        ((ii.numDocs + 2) * ((s.blocks.set 0 { s.blocks[0] with docs := it' }).length + 1) + 1)
        ⟨it'.value, 0, s.blocks.set 0 { s.blocks[0] with docs := it' }⟩ hA' (by dsimp only; omega) (Nat.zero_le _)
        (by intro j _ _ hj; dsimp only at hj; omega) (by
          simp only [List.length_set]
          rw [h.docs]
          have : (u + 1 - it'.value) * (s.blocks.length + 1) ≤ (u + 1) * (s.blocks.length + 1) := Nat.mul_le_mul_right _ (by omega)
          have : (u + 2) * (s.blocks.length + 1) = (u + 1) * (s.blocks.length + 1) + (s.blocks.length + 1) := Nat.succ_mul ..
          omega)
      dsimp only at g3 g6
      refine ⟨s', g1, finish s' g2 g4 g5 (by omega) ?_⟩
      intro d' hall hlt'
      have hids := hall _ (List.getElem_mem hl)
      exact g6 d' hall (n2 d' (Cur.mem_docs (All2.get h.cur 0 h0 hl) hids) hlt') (bound_of h.cur h.ne hall)

theorem collect_spec : ∀ (R : List Nat) (fuel : Nat) (s : BInter) (xs : List BD), Enum ii u lists s xs R → R.length < fuel →
    collect ii fuel s = .ok R := by
  intro R
  induction R with
  | nil =>
      intro fuel s xs h hf
      obtain ⟨fuel, rfl⟩ := Nat.exists_eq_succ_of_ne_zero (by omega : fuel ≠ 0)
      unfold collect
      rw [h.step.1 rfl]; rfl
  | cons d R ih =>
      intro fuel s xs h hf
      obtain ⟨fuel, rfl⟩ := Nat.exists_eq_succ_of_ne_zero (by omega : fuel ≠ 0)
      obtain ⟨h1, h2, s', h3, h4⟩ := h.step.2 d R rfl
      unfold collect
      rw [h1, h3, if_pos rfl]
      simp only [M.ok_bind]
      rw [ih fuel s' xs h4 (by simpa using hf)]
      simp only [M.ok_bind, h2]

/-- the blocks of the terms -/
theorem group_spec {m : Nat} {docss : List (List Nat)} (h : ii.Rep u m lists docss) (std : StdLib) : ∀ (ts : List Nat) (j lo hi : Nat) (pend : List Nat),
    (0 :: ii.blocks)[j]? = some lo → ii.blocks[j]? = some hi → (pend ++ ts).Pairwise (· < ·) → (∀ t ∈ pend, lo < t ∧ t ≤ hi) →
    (pend = [] → ∃ t ts', ts = t :: ts' ∧ lo < t ∧ t ≤ hi) → (∀ t ∈ ts, t ≤ lists.length) →
    ∃ bs xs, group std ii ts j pend = .ok bs ∧ All2 (Cur ii u lists 0) bs xs ∧ xs ≠ [] ∧
      (∀ d, HasAll lists xs d ↔ ∀ t ∈ pend ++ ts, Posted lists t d) ∧
      (bs.length = 1 ↔ ∀ t ∈ ts, t ≤ hi) ∧
      (∀ x, xs = [x] → x.lo = lo ∧ x.hi = hi ∧ docss[j]? = some x.docs) := by
  intro ts
  induction ts with
  | nil =>
      intro j lo hi pend h1 h2 hs hp hpe _
      have hne : pend ≠ [] := by
        intro hn
        obtain ⟨t, ts', ht, _⟩ := hpe hn
        cases ht
      obtain ⟨docs, h3⟩ := docss_get h h2
      obtain ⟨b, e1, e2, e3⟩ := block_spec h h1 h2 h3
      rw [List.append_nil] at hs ⊢
      refine ⟨[{ b with ids := pend }], [⟨lo, hi, docs, pend⟩], ?_, .cons ⟨0, e2.withIds pend, rfl, hs, hne, hp, ?_⟩ .nil, by simp, ?_, by simp, ?_⟩
      · unfold group
        rw [e1]; rfl
      · intro j d _ hj; omega
      · intro d; unfold HasAll; simp
      · intro x hx
        rw [List.cons.injEq] at hx
        rw [← hx.1]
        exact ⟨rfl, rfl, h3⟩
  | cons t ts ih =>
      intro j lo hi pend h1 h2 hs hp hpe hn
      have hst := hs
      rw [List.pairwise_append] at hst
      obtain ⟨s1, s2, s3⟩ := hst
      have htn := hn t (List.mem_cons_self ..)
      have hlo : lo < t := by
        by_cases hpn : pend = []
        · obtain ⟨t', ts', ht, ht1, ht2⟩ := hpe hpn
          cases ht
          exact ht1
        · obtain ⟨a, ha⟩ := List.exists_mem_of_ne_nil _ hpn
          have := s3 a ha t (List.mem_cons_self ..)
          have := hp a ha
          omega
      obtain ⟨j', lo', hi', b1, b2, b3, b4, b5⟩ := blockId_spec h std (t := t) (by omega) htn
      unfold group
      rw [b1]
      simp only [M.ok_bind]
      by_cases hth : t ≤ hi
      · have hj : j' = j := block_unique h b2 b3 h1 h2 b4 b5 hlo hth
        subst hj
        rw [if_neg (by omega)]
        obtain ⟨bs, xs, e1, e2, e3, e4, e5, e6⟩ := ih j' lo hi (pend ++ [t]) h1 h2 (by rw [List.append_assoc]; exact hs) (by
          intro a ha
          rcases List.mem_append.mp ha with ha | ha
          · exact hp a ha
          · rw [List.mem_singleton.mp ha]; exact ⟨hlo, hth⟩) (fun hn => by simp at hn) (fun a ha => hn a (List.mem_cons_of_mem _ ha))
        refine ⟨bs, xs, e1, e2, e3, ?_, ?_, e6⟩
        · intro d
          rw [e4 d, List.append_assoc]; rfl
        · rw [e5]
          simp [hth]
      · have hj : j' > j := by
          rcases Nat.lt_or_ge j j' with hc | hc
          · exact hc
          · rcases Nat.lt_or_eq_of_le hc with hc | hc
            · have := blocks_mono h b3 h1 hc; omega
            · subst hc
              rw [b3] at h2; cases h2
              omega
        rw [if_pos hj]
        have hne : pend ≠ [] := by
          intro hpn
          obtain ⟨t', ts', ht, ht1, ht2⟩ := hpe hpn
          cases ht
          omega
        obtain ⟨docs, h3⟩ := docss_get h h2
        obtain ⟨b, f1, f2, f3⟩ := block_spec h h1 h2 h3
        obtain ⟨bs, xs, e1, e2, e3, e4, e5, e6⟩ := ih j' lo' hi' [t] b2 b3 (by simpa using s2) (by
          intro a ha; rw [List.mem_singleton.mp ha]; exact ⟨b4, b5⟩) (fun hn => by simp at hn) (fun a ha => hn a (List.mem_cons_of_mem _ ha))
        have hxl : 0 < xs.length := List.length_pos_iff.mpr e3
        have hlen := All2.length e2
        refine ⟨{ b with ids := pend } :: bs, ⟨lo, hi, docs, pend⟩ :: xs, ?_, .cons ⟨0, f2.withIds pend, rfl, s1, hne, hp, ?_⟩ e2, by simp, ?_, ?_, ?_⟩
        · rw [f1]
          simp only [M.ok_bind, e1]
        · intro j d _ hj; omega
        · intro d
          have := e4 d
          unfold HasAll at this ⊢
          constructor
          · intro hall a ha
            rcases List.mem_append.mp ha with ha | ha
            · exact hall _ (List.mem_cons_self ..) a ha
            · exact this.mp (fun x hx => hall x (List.mem_cons_of_mem _ hx)) a ha
          · intro hall x hx
            rcases List.mem_cons.mp hx with rfl | hx
            · intro a ha; exact hall a (List.mem_append_left _ ha)
            · exact this.mpr (fun a ha => hall a (List.mem_append_right _ ha)) x hx
        · constructor
          · intro hl; simp only [List.length_cons] at hl; omega
          · intro hall; exact absurd (hall t (List.mem_cons_self ..)) hth
        · intro x hx
          rw [List.cons.injEq] at hx
          exact absurd hx.2 e3

/-- the constructor: when the terms lie in one block, the first document of the block is skipped -/
theorem mk'_spec {m : Nat} {docss : List (List Nat)} (h : ii.Rep u m lists docss) (hu : u + 1 < 2 ^ 32) (std : StdLib) (ids : List Nat) (hne : ids ≠ [])
    (hs : ids.Pairwise (· < ·)) (hv : ∀ t ∈ ids, 1 ≤ t ∧ t ≤ lists.length) (R : List Nat) (hRs : R.Pairwise (· < ·))
    (hR : ∀ d, d ∈ R ↔ (∀ t ∈ ids, Posted lists t d) ∧
      ¬ ∃ (j lo hi : Nat) (docs : List Nat), (0 :: ii.blocks)[j]? = some lo ∧ ii.blocks[j]? = some hi ∧ docss[j]? = some docs ∧
        (∀ t ∈ ids, lo < t ∧ t ≤ hi) ∧ docs.head? = some d) :
    ∃ s xs, mk' std ii ids = .ok s ∧ Enum ii u lists s xs R := by
  obtain ⟨t0, ts0, rfl⟩ : ∃ t ts, ids = t :: ts := by
    cases ids with
    | nil => exact absurd rfl hne
    | cons t ts => exact ⟨t, ts, rfl⟩
  obtain ⟨v1, v2⟩ := hv t0 (List.mem_cons_self ..)
  obtain ⟨j, lo, hi, b1, b2, b3, b4, b5⟩ := blockId_spec h std v1 v2
  obtain ⟨bs, xs0, e1, e2, e3, e4, e5, e6⟩ := group_spec h std (t0 :: ts0) j lo hi [] b2 b3 hs (by simp) (fun _ => ⟨t0, ts0, rfl, b4, b5⟩)
    (fun t ht => (hv t ht).2)
  rw [List.nil_append] at e4
  obtain ⟨xs, p1, p2⟩ := All2.perm (std.sort_perm (fun b : Blk => b.docs.off.n) bs).symm e2
  have hlen := All2.length p2
  have hl0 : 0 < xs0.length := List.length_pos_iff.mpr e3
  have hl : 0 < xs.length := by rw [← p1.length_eq]; exact hl0
  have hbl := (std.sort_perm (fun b : Blk => b.docs.off.n) bs).length_eq
  have hin : ∀ d, HasAll lists xs d ↔ ∀ t ∈ t0 :: ts0, Posted lists t d := by
    intro d
    rw [← e4 d]
    unfold HasAll
    constructor
    · intro hall x hx; exact hall x (p1.mem_iff.mp hx)
    · intro hall x hx; exact hall x (p1.mem_iff.mpr hx)
  unfold mk'
  rw [show rd (t0 :: ts0) 0 = .ok t0 from rfl]
  simp only [M.ok_bind, b1, e1]
  generalize std.sort (fun b : Blk => b.docs.off.n) bs = qs at p2 hlen hbl
  have h0 : 0 < qs.length := by omega
  obtain ⟨p, c1, c2, c3, c4, c5, c6⟩ := All2.get p2 0 h0 hl
  obtain ⟨it', f1, f2⟩ := c1.it.access (i := 0) (Nat.zero_le _)
  rw [rd_ok h0]
  simp only [M.ok_bind, f1, wr_ok h0]
  have hvle := f2.value_le
  rw [id32_small (by omega)]
  have hdocs := h.docs
  have hdne : 0 < xs[0].docs.length := by
    obtain ⟨base, r1, _⟩ := c1.it
    exact List.length_pos_iff.mpr r1.valid.ne
  have hhead : xs[0].docs[0]? = some it'.value := by
    have := f2.value
    rw [List.getElem?_eq_getElem hdne] at this ⊢
    simp only [Option.getD_some] at this
    rw [this]
  have hfirst : ∀ d ∈ xs[0].docs, it'.value ≤ d := by
    intro d hd
    obtain ⟨i, hi', rfl⟩ := List.getElem_of_mem hd
    obtain ⟨y1, y2⟩ := List.getElem?_eq_some_iff.mp hhead
    cases i with
    | zero => omega
    | succ i =>
        have := List.pairwise_iff_getElem.mp f2.sorted 0 (i + 1) y1 hi' (by omega)
        omega
  have hmem0 : ∀ d, HasAll lists xs d → d ∈ xs[0].docs := fun d hd =>
    Cur.mem_docs (All2.get p2 0 h0 hl) (hd _ (List.getElem_mem hl))
  unfold next
  by_cases hone : qs.length = 1
  · dsimp only
    rw [if_pos (by rw [List.length_set]; exact hone)]
    obtain ⟨b, hb⟩ := List.length_eq_one_iff.mp hone
    subst hb
    obtain ⟨x, hx⟩ : ∃ x, xs = [x] := List.length_eq_one_iff.mp (by omega)
    subst hx
    have hx0 : xs0 = [x] := List.perm_singleton.mp p1
    obtain ⟨k1, k2, k3⟩ := e6 x hx0
    have hall : ∀ t ∈ t0 :: ts0, t ≤ hi := e5.mp (by omega)
    simp only [List.getElem_cons_zero] at c1 c2 c3 c4 c5 hdne hhead hfirst hmem0 f1 f2
    simp only [List.set_cons_zero, List.getElem_cons_zero]
    obtain ⟨s', b', p', g1, g2, g3, g4, g5, g6, g7, g8, g9⟩ := nextOne_spec (lists := lists) h.docs hu x c3 c5 (ii.numDocs + 2)
      { b with docs := it' } 0 (c1.withDocs f2) c2 (by
        have hlen : x.docs.length ≤ u := by
          have := nodup_subset_length' (A := x.docs) (B := List.range u) (c1.it.sorted.imp Nat.ne_of_lt) (fun a ha => List.mem_range.mpr (c1.it.bound a ha))
          simpa using this
        rw [h.docs]; omega)
    dsimp only at g1 g6 g7 g9
    refine ⟨s', [x], g1, h.docs, hu, by simp, ?_, ?_, ?_, hRs, ?_⟩
    · rw [g2]
      refine .cons ⟨p', g3, g4, c3, c4, c5, ?_⟩ .nil
      intro j d' hd' hj
      rw [g5, g3.it.value]
      cases hg' : x.docs[p']? with
      | none => exact g3.it.bound d' (List.mem_of_getElem? hd')
      | some z =>
          obtain ⟨z1, z2⟩ := List.getElem?_eq_some_iff.mp hg'
          obtain ⟨y1, y2⟩ := List.getElem?_eq_some_iff.mp hd'
          have := List.pairwise_iff_getElem.mp g3.it.sorted j p' y1 z1 hj
          simp only [Option.getD_some]; omega
    · have := g3.it.value_le; omega
    · rcases g8 with g8 | g8
      · exact Or.inl (by omega)
      · right; rw [g2]; exact .cons g8 .nil
    · intro d
      rw [hR d, ← hin d]
      have hvu : it'.value < u := c1.it.bound _ (List.mem_of_getElem? hhead)
      have hlt := g6 hvu
      constructor
      · rintro ⟨m1, m2⟩
        refine ⟨m1, g9 d (hmem0 d m1) (m1 x (List.mem_cons_self ..)) ?_⟩
        have h1 := hfirst d (hmem0 d m1)
        have : it'.value ≠ d := by
          intro hn
          apply m2
          refine ⟨j, lo, hi, x.docs, b2, b3, k3, ?_, ?_⟩
          · intro t ht
            refine ⟨?_, hall t ht⟩
            rcases List.mem_cons.mp ht with rfl | ht
            · exact b4
            · have := (List.pairwise_cons.mp hs).1 t ht; omega
          · rw [List.head?_eq_getElem?, hhead, hn]
        omega
      · rintro ⟨m1, m2⟩
        refine ⟨m1, ?_⟩
        rintro ⟨j', lo', hi', docs', q1, q2, q3, q4, q5⟩
        obtain ⟨q6, q7⟩ := q4 t0 (List.mem_cons_self ..)
        have hj : j' = j := block_unique h q1 q2 b2 b3 q6 q7 b4 b5
        subst hj
        rw [k3] at q3
        cases q3
        rw [List.head?_eq_getElem?, hhead] at q5
        cases q5
        omega
  · dsimp only
    rw [if_neg (by rw [List.length_set]; exact hone)]
    have hA' : All2 (Cur ii u lists it'.value) (qs.set 0 { qs[0] with docs := it' }) xs :=
      All2.set (p2.imp (fun _ _ h => Cur.mono h (Nat.zero_le _))) hl ⟨0, c1.withDocs f2, c2, c3, c4, c5, by intro j d _ hj; omega⟩
    obtain ⟨s', g1, g2, g3, g4, g5, g6⟩ := nextMany_spec (lists := lists) h.docs hu xs
      ((ii.numDocs + 2) * ((qs.set 0 { qs[0] with docs := it' }).length + 1) + 1) ⟨it'.value, 0, qs.set 0 { qs[0] with docs := it' }⟩ hA'
      (by dsimp only; omega) (Nat.zero_le _) (by intro j _ _ hj; dsimp only at hj; omega) (by
        simp only [List.length_set]
        rw [h.docs]
        have : (u + 1 - it'.value) * (qs.length + 1) ≤ (u + 1) * (qs.length + 1) := Nat.mul_le_mul_right _ (by omega)
        have : (u + 2) * (qs.length + 1) = (u + 1) * (qs.length + 1) + (qs.length + 1) := Nat.succ_mul ..
        omega)
    dsimp only at g3 g6
    refine ⟨s', xs, g1, h.docs, hu, List.length_pos_iff.mp hl, g2, g4, g5, hRs, ?_⟩
    intro d
    rw [hR d, ← hin d]
    constructor
    · rintro ⟨m1, _⟩
      exact ⟨m1, g6 d m1 (hfirst d (hmem0 d m1)) (bound_of g2 (List.length_pos_iff.mp hl) m1)⟩
    · rintro ⟨m1, _⟩
      refine ⟨m1, ?_⟩
      rintro ⟨j', lo', hi', docs', q1, q2, q3, q4, q5⟩
      obtain ⟨q6, q7⟩ := q4 t0 (List.mem_cons_self ..)
      have hj : j' = j := block_unique h q1 q2 b2 b3 q6 q7 b4 b5
      subst hj
      rw [b3] at q2
      cases q2
      have := e5.mpr (fun t ht => (q4 t ht).2)
      omega

end BInter
end AC
