import Verif.Model.EliasFano
/-! # Searching a sequence -/
namespace AC

/-- A sequence object represents the list `xs`: `access`, and iterators (`I it i`: before the dereference at position `i`;
`J it i`: after it) -/
structure Seq.Rep (S : Seq) (xs : List Nat) : Prop where
  access : ∀ i (h : i < xs.length), S.access i = .ok xs[i]
  iter : ∃ I J : S.It → Nat → Prop,
    (∀ i, i < xs.length → ∃ it, S.at' i = .ok it ∧ I it i) ∧
    (∀ it i (h : i < xs.length), I it i → ∃ it', S.deref it = .ok (xs[i], it') ∧ J it' i) ∧
    (∀ it i, i < xs.length → J it i → ∃ it', S.inc it = .ok it' ∧ (i + 1 < xs.length → I it' (i + 1)))

namespace Seq
variable {S : Seq} {xs : List Nat}

theorem scanEq_spec (h : S.Rep xs) (id : Nat) (I J : S.It → Nat → Prop)
    (hd : ∀ it i (h : i < xs.length), I it i → ∃ it', S.deref it = .ok (xs[i], it') ∧ J it' i)
    (hi : ∀ it i, i < xs.length → J it i → ∃ it', S.inc it = .ok it' ∧ (i + 1 < xs.length → I it' (i + 1))) :
    ∀ (n pos : Nat) (it : S.It), pos + n ≤ xs.length → (0 < n → I it pos) →
      ∃ r, S.scanEq id n pos it = .ok r ∧
        (∀ p, r = some p → pos ≤ p ∧ p < pos + n ∧ xs[p]? = some id) ∧
        (r = none → ∀ p, pos ≤ p → p < pos + n → xs[p]? ≠ some id) := by
  intro n
  induction n with
  | zero => intro pos it _ _; exact ⟨none, rfl, (fun _ h => by cases h), fun _ p h1 h2 => by omega⟩
  | succ n ih =>
      intro pos it hn hI
      obtain ⟨it', d1, d2⟩ := hd it pos (by omega) (hI (by omega))
      unfold scanEq
      rw [d1]
      simp only [M.ok_bind]
      have hp : xs[pos]? = some xs[pos] := List.getElem?_eq_getElem (by omega)
      split
      · rename_i he
        refine ⟨_, rfl, ?_, (fun h => by cases h)⟩
        intro p hp'
        cases hp'
        exact ⟨by omega, by omega, by rw [hp, he]⟩
      · rename_i he
        obtain ⟨it2, e1, e2⟩ := hi it' pos (by omega) d2
        rw [e1]
        simp only [M.ok_bind]
        obtain ⟨r, r1, r2, r3⟩ := ih (pos + 1) it2 (by omega) (fun h0 => e2 (by omega))
        refine ⟨r, r1, ?_, ?_⟩
        · intro p hp'
          obtain ⟨a, b, c⟩ := r2 p hp'
          exact ⟨by omega, by omega, c⟩
        · intro hr p h1 h2
          by_cases hpe : p = pos
          · subst hpe; rw [hp]; intro hc; exact he (Option.some.inj hc)
          · exact r3 hr p (by omega) (by omega)

theorem scanGe_spec (h : S.Rep xs) (x : Nat) (I J : S.It → Nat → Prop)
    (hd : ∀ it i (h : i < xs.length), I it i → ∃ it', S.deref it = .ok (xs[i], it') ∧ J it' i)
    (hi : ∀ it i, i < xs.length → J it i → ∃ it', S.inc it = .ok it' ∧ (i + 1 < xs.length → I it' (i + 1))) :
    ∀ (n pos : Nat) (it : S.It), pos + n ≤ xs.length → (0 < n → I it pos) →
      ∃ r, S.scanGe x n pos it = .ok r ∧
        (∀ p, r = some p → pos ≤ p ∧ p < pos + n ∧ (∃ hp : p < xs.length, x ≤ xs[p]) ∧
          ∀ q (hq : q < xs.length), pos ≤ q → q < p → xs[q] < x) ∧
        (r = none → ∀ q (hq : q < xs.length), pos ≤ q → q < pos + n → xs[q] < x) := by
  intro n
  induction n with
  | zero => intro pos it _ _; exact ⟨none, rfl, (fun _ h => by cases h), fun _ q hq h1 h2 => by omega⟩
  | succ n ih =>
      intro pos it hn hI
      obtain ⟨it', d1, d2⟩ := hd it pos (by omega) (hI (by omega))
      unfold scanGe
      rw [d1]
      simp only [M.ok_bind]
      split
      · rename_i he
        refine ⟨_, rfl, ?_, (fun h => by cases h)⟩
        intro p hp'
        cases hp'
        exact ⟨by omega, by omega, ⟨by omega, he⟩, by intros; omega⟩
      · rename_i he
        obtain ⟨it2, e1, e2⟩ := hi it' pos (by omega) d2
        rw [e1]
        simp only [M.ok_bind]
        obtain ⟨r, r1, r2, r3⟩ := ih (pos + 1) it2 (by omega) (fun h0 => e2 (by omega))
        refine ⟨r, r1, ?_, ?_⟩
        · intro p hp'
          obtain ⟨a, b, c, d⟩ := r2 p hp'
          refine ⟨by omega, by omega, c, ?_⟩
          intro q hq h1 h2
          by_cases hqe : q = pos
          · subst hqe; omega
          · exact d q hq (by omega) h2
        · intro hr q hq h1 h2
          by_cases hqe : q = pos
          · subst hqe; omega
          · exact r3 hr q hq (by omega) (by omega)

/-- the elements at positions `lo..hi` are strictly increasing -/
def Incr (xs : List Nat) (lo hi : Nat) : Prop :=
  ∀ i j (_ : i < xs.length) (_ : j < xs.length), lo ≤ i → i < j → j ≤ hi → xs[i] < xs[j]

theorem findScan_spec (h : S.Rep xs) (id lo hi : Nat) (hl : lo ≤ hi) (hh : hi < xs.length) :
    ∃ r, S.findScan id lo hi = .ok r ∧ (∀ p, r = some p → lo ≤ p ∧ p ≤ hi ∧ xs[p]? = some id) := by
  unfold findScan
  obtain ⟨I, J, a, d, i⟩ := h.iter
  split
  · obtain ⟨it, t1, t2⟩ := a lo (by omega)
    rw [t1]
    simp only [M.ok_bind]
    obtain ⟨r, r1, r2, _⟩ := scanEq_spec h id I J d i (hi - lo) lo it (by omega) (fun _ => t2)
    exact ⟨r, r1, fun p hp => by obtain ⟨x, y, z⟩ := r2 p hp; exact ⟨x, by omega, z⟩⟩
  · exact ⟨none, rfl, fun _ hp => by cases hp⟩

theorem find_spec (h : S.Rep xs) (id : Nat) : ∀ (fuel lo hi : Nat), Incr xs lo hi → hi < xs.length → 0 < fuel → hi + 2 ≤ lo + fuel →
    ∃ r, S.find id fuel lo hi = .ok r ∧
      ((lo ≤ r ∧ r ≤ hi ∧ xs[r]? = some id) ∨
       (r = NOT_FOUND ∧ ∀ p, lo ≤ p → p ≤ hi → xs[p]? ≠ some id)) := by
  intro fuel
  induction fuel with
  | zero => intro lo hi hinc hh hf; omega
  | succ fuel ih =>
      intro lo hi hinc hh _ hf
      unfold find
      split
      · rename_i hle
        obtain ⟨r, r1, r2⟩ := findScan_spec h id lo hi hle hh
        rw [r1]
        simp only [M.ok_bind]
        cases r with
        | some p => exact ⟨p, rfl, Or.inl (r2 p rfl)⟩
        | none =>
            simp only
            have hpos : lo + (hi - lo) / 2 < xs.length := by omega
            generalize hp : lo + (hi - lo) / 2 = pos at hpos
            have hpe : xs[pos]? = some xs[pos] := List.getElem?_eq_getElem hpos
            rw [h.access pos hpos]
            simp only [M.ok_bind]
            split
            · rename_i he
              exact ⟨pos, rfl, Or.inl ⟨by omega, by omega, by rw [hpe, he]⟩⟩
            · rename_i hne
              split
              · rename_i hgt
                -- everything from pos on is greater
                have hbig : ∀ p, pos ≤ p → p ≤ hi → xs[p]? ≠ some id := by
                  intro p h1 h2 hc
                  rw [List.getElem?_eq_getElem (by omega)] at hc
                  have hc := Option.some.inj hc
                  rcases Nat.lt_or_ge pos p with h3 | h3
                  · have := hinc pos p hpos (by omega) (by omega) h3 h2
                    omega
                  · have : p = pos := by omega
                    subst this; exact hne hc
                split
                · rename_i h0
                  refine ⟨NOT_FOUND, rfl, Or.inr ⟨rfl, ?_⟩⟩
                  intro p h1 h2
                  exact hbig p (by omega) h2
                · rename_i h0
                  obtain ⟨r, s1, s2⟩ := ih lo (pos - 1)
                    (fun i j hi' hj' a b c => hinc i j hi' hj' a b (by omega)) (by omega) (by omega) (by omega)
                  refine ⟨r, s1, ?_⟩
                  rcases s2 with ⟨a, b, c⟩ | ⟨a, b⟩
                  · exact Or.inl ⟨a, by omega, c⟩
                  · refine Or.inr ⟨a, ?_⟩
                    intro p h1 h2
                    by_cases h3 : pos ≤ p
                    · exact hbig p h3 h2
                    · exact b p h1 (by omega)
              · rename_i hgt
                have hsmall : ∀ p, lo ≤ p → p ≤ pos → xs[p]? ≠ some id := by
                  intro p h1 h2 hc
                  rw [List.getElem?_eq_getElem (by omega)] at hc
                  have hc := Option.some.inj hc
                  rcases Nat.lt_or_ge p pos with h3 | h3
                  · have := hinc p pos (by omega) hpos (by omega) h3 (by omega)
                    omega
                  · have : p = pos := by omega
                    subst this; exact hne hc
                obtain ⟨r, s1, s2⟩ := ih (pos + 1) hi
                  (fun i j hi' hj' a b c => hinc i j hi' hj' (by omega) b c) hh (by omega) (by omega)
                refine ⟨r, s1, ?_⟩
                rcases s2 with ⟨a, b, c⟩ | ⟨a, b⟩
                · exact Or.inl ⟨by omega, b, c⟩
                · refine Or.inr ⟨a, ?_⟩
                  intro p h1 h2
                  by_cases h3 : p ≤ pos
                  · exact hsmall p h1 h3
                  · exact b p (by omega) h2
      · rename_i hle
        exact ⟨NOT_FOUND, rfl, Or.inr ⟨rfl, fun p h1 h2 => by omega⟩⟩

theorem nextGeq_spec (h : S.Rep xs) (x : Nat) : ∀ (fuel lo hi : Nat), Incr xs lo hi → hi < xs.length → 0 < fuel →
    hi + 2 ≤ lo + fuel →
    ∃ r, S.nextGeq x fuel lo hi = .ok r ∧
      ((lo ≤ r ∧ r ≤ hi ∧ (∃ hr : r < xs.length, x ≤ xs[r]) ∧ ∀ q (_ : q < xs.length), lo ≤ q → q < r → xs[q] < x) ∨
       (r = NOT_FOUND ∧ ∀ q (_ : q < xs.length), lo ≤ q → q ≤ hi → xs[q] < x)) := by
  intro fuel
  induction fuel with
  | zero => intro lo hi hinc hh hf; omega
  | succ fuel ih =>
      intro lo hi hinc hh _ hf
      unfold nextGeq
      split
      · rename_i hle
        split
        · obtain ⟨I, J, a, d, i⟩ := h.iter
          obtain ⟨it, t1, t2⟩ := a lo (by omega)
          rw [t1]
          simp only [M.ok_bind]
          obtain ⟨r, r1, r2, r3⟩ := scanGe_spec h x I J d i (hi + 1 - lo) lo it (by omega) (fun _ => t2)
          rw [r1]
          simp only [M.ok_bind]
          cases r with
          | none =>
              refine ⟨_, rfl, Or.inr ⟨rfl, ?_⟩⟩
              intro q hq h1 h2
              exact r3 rfl q hq h1 (by omega)
          | some p =>
              obtain ⟨a, b, c, d⟩ := r2 p rfl
              exact ⟨_, rfl, Or.inl ⟨a, by simp only [Option.getD_some]; omega, c, d⟩⟩
        · rename_i hbig
          unfold linearScanThreshold at hbig
          have hpos : (lo + hi) / 2 < xs.length := by omega
          have hp1 : lo + 4 ≤ (lo + hi) / 2 ∧ (lo + hi) / 2 < hi := by omega
          generalize hp : (lo + hi) / 2 = pos at hpos hp1
          simp only [h.access pos hpos, M.ok_bind]
          split
          · rename_i hgt
            rw [if_pos (by omega), h.access (pos - 1) (by omega)]
            simp only [M.ok_bind]
            split
            · rename_i hlt
              refine ⟨pos, rfl, Or.inl ⟨by omega, by omega, ⟨hpos, by omega⟩, ?_⟩⟩
              intro q hq h1 h2
              rcases Nat.lt_or_ge q (pos - 1) with h3 | h3
              · have := hinc q (pos - 1) hq (by omega) h1 h3 (by omega); omega
              · have : q = pos - 1 := by omega
                subst this; exact hlt
            · rename_i hlt
              obtain ⟨r, s1, s2⟩ := ih lo (pos - 1)
                (fun i j hi' hj' a b c => hinc i j hi' hj' a b (by omega)) (by omega) (by omega) (by omega)
              refine ⟨r, s1, ?_⟩
              rcases s2 with ⟨a, b, c, d⟩ | ⟨a, b⟩
              · exact Or.inl ⟨a, by omega, c, d⟩
              · have := b (pos - 1) (by omega) (by omega) (by omega)
                omega
          · rename_i hgt
            split
            · rename_i hlt
              have hsmall : ∀ q (_ : q < xs.length), lo ≤ q → q ≤ pos → xs[q] < x := by
                intro q hq h1 h2
                rcases Nat.lt_or_ge q pos with h3 | h3
                · have := hinc q pos hq hpos h1 h3 (by omega); omega
                · have : q = pos := by omega
                  subst this; exact hlt
              obtain ⟨r, s1, s2⟩ := ih (pos + 1) hi
                (fun i j hi' hj' a b c => hinc i j hi' hj' (by omega) b c) hh (by omega) (by omega)
              refine ⟨r, s1, ?_⟩
              rcases s2 with ⟨a, b, c, d⟩ | ⟨a, b⟩
              · refine Or.inl ⟨by omega, b, c, ?_⟩
                intro q hq h1 h2
                by_cases h3 : q ≤ pos
                · exact hsmall q hq h1 h3
                · exact d q hq (by omega) h2
              · refine Or.inr ⟨a, ?_⟩
                intro q hq h1 h2
                by_cases h3 : q ≤ pos
                · exact hsmall q hq h1 h3
                · exact b q hq (by omega) h2
            · rename_i hge
              refine ⟨pos, rfl, Or.inl ⟨by omega, by omega, ⟨hpos, by omega⟩, ?_⟩⟩
              intro q hq h1 h2
              have := hinc q pos hq hpos h1 h2 (by omega)
              omega
      · rename_i hle
        exact ⟨_, rfl, Or.inr ⟨rfl, fun q _ h1 h2 => by omega⟩⟩

/-- the last element before a run, which its elements are stored relative to -/
def upperOf (xs : List Nat) (r : Range) : Nat := if r.b = 0 then 0 else xs.getD (r.b - 1) 0

theorem prevUpper_spec (h : S.Rep xs) (r : Range) (hr : r.b < xs.length) : S.prevUpper r = .ok (upperOf xs r) := by
  unfold prevUpper upperOf
  by_cases h0 : r.b = 0
  · simp [h0]
  · rw [if_pos h0, if_neg h0, h.access (r.b - 1) (by omega), List.getD_eq_getElem?_getD, List.getElem?_eq_getElem (by omega)]
    rfl

/-- positions `r.b .. r.e - 1` hold the strictly increasing `ids`, relative to what precedes them -/
structure RunAt (xs : List Nat) (r : Range) (ids : List Nat) : Prop where
  lt : r.b < r.e
  le : r.e ≤ xs.length
  len : ids.length = r.e - r.b
  val : ∀ i (hi : i < ids.length), xs[r.b + i]? = some (upperOf xs r + ids[i])
  incr : ids.Pairwise (· < ·)

theorem RunAt.get {r : Range} {ids : List Nat} (hr : RunAt xs r ids) (p : Nat) (h : r.b ≤ p) (h2 : p < r.e)
    (hp : p < xs.length) : xs[p] = upperOf xs r + ids[p - r.b]'(by have := hr.len; omega) := by
  have := hr.val (p - r.b) (by have := hr.len; omega)
  rw [show r.b + (p - r.b) = p by omega, List.getElem?_eq_getElem hp] at this
  exact Option.some.inj this

theorem RunAt.incr' {r : Range} {ids : List Nat} (hr : RunAt xs r ids) : Incr xs r.b (r.e - 1) := by
  intro i j hi hj h1 h2 h3
  have hl := hr.len
  have hlt := hr.lt
  rw [hr.get i h1 (by omega) hi, hr.get j (by omega) (by omega) hj]
  have := List.pairwise_iff_getElem.mp hr.incr (i - r.b) (j - r.b) (by omega) (by omega) (by omega)
  omega

theorem lastIn_ok {r : Range} (h : r.e ≠ 0) : lastIn r = .ok (r.e - 1) := if_neg h

/-- `find(r, id)`: the position of `id` in the run, or not found -/
theorem findIn_spec (h : S.Rep xs) {r : Range} {ids : List Nat} (hr : RunAt xs r ids) (hx : xs.length ≤ NOT_FOUND) (id : Nat)
    (hid : id + upperOf xs r < 2 ^ 64) :
    (∀ i (hi : i < ids.length), ids[i] = id → S.findIn r id = .ok (r.b + i)) ∧
    (id ∉ ids → S.findIn r id = .ok NOT_FOUND) := by
  have hlt := hr.lt
  have hle := hr.le
  have hlen := hr.len
  unfold findIn
  rw [prevUpper_spec h r (by omega), lastIn_ok (by omega)]
  simp only [M.ok_bind]
  rw [Nat.mod_eq_of_lt hid]
  obtain ⟨q, q1, q2⟩ := find_spec h (id + upperOf xs r) (r.e + 1) r.b (r.e - 1) hr.incr' (by omega) (by omega) (by omega)
  rw [q1]
  refine ⟨?_, ?_⟩
  · intro i hi he
    have hv := hr.val i hi
    rw [he, Nat.add_comm (upperOf xs r)] at hv
    rcases q2 with ⟨a, b, c⟩ | ⟨a, b⟩
    · congr 1
      obtain ⟨hq, cq⟩ := List.getElem?_eq_some_iff.mp c
      obtain ⟨hi2, ci⟩ := List.getElem?_eq_some_iff.mp hv
      rcases Nat.lt_trichotomy q (r.b + i) with h1 | h1 | h1
      · have := hr.incr' q (r.b + i) hq hi2 a h1 (by omega); omega
      · exact h1
      · have := hr.incr' (r.b + i) q hi2 hq (by omega) h1 b; omega
    · exact absurd hv (b (r.b + i) (by omega) (by omega))
  · intro hni
    rcases q2 with ⟨a, b, c⟩ | ⟨a, b⟩
    · exfalso
      obtain ⟨hq, cq⟩ := List.getElem?_eq_some_iff.mp c
      rw [hr.get q a (by omega) hq] at cq
      apply hni
      rw [show id = ids[q - r.b]'(by omega) by omega]
      exact List.getElem_mem _
    · rw [a]

/-- the invalid range contains nothing: the ends wrap around to before the run, or are greater than all -/
theorem findRange_invalid (h : S.Rep xs) {r : Range} {ids : List Nat} (hr : RunAt xs r ids) (hx : xs.length ≤ NOT_FOUND)
    (hs : ∀ id ∈ ids, id < 2 ^ 32) (hu : upperOf xs r < 2 ^ 64) : S.findRange r Range.invalid = .ok ⟨r.e, r.e⟩ := by
  have hlt := hr.lt
  have hle := hr.le
  have hlen := hr.len
  have hinc := hr.incr'
  have e1 : Range.invalid.b = 2 ^ 64 - 1 := rfl
  have e2 : Range.invalid.e = 2 ^ 64 - 1 := rfl
  unfold findRange
  rw [prevUpper_spec h r (by omega), lastIn_ok (by omega)]
  simp only [M.ok_bind]
  rw [e1, e2]
  obtain ⟨p, p1, p2⟩ := nextGeq_spec h ((2 ^ 64 - 1 + upperOf xs r) % 2 ^ 64) (r.e + 1) r.b (r.e - 1) hinc (by omega) (by omega) (by omega)
  rw [p1]
  simp only [M.ok_bind]
  rcases p2 with ⟨a, b, ⟨hp, c⟩, d⟩ | ⟨a, b⟩
  · rw [if_neg (show p ≠ NOT_FOUND by omega), h.access p hp]
    simp only [M.ok_bind]
    rw [if_pos]
    have g := hr.get p a (by omega) hp
    have := hs _ (List.getElem_mem (l := ids) (n := p - r.b) (by omega))
    rcases Nat.eq_zero_or_pos (upperOf xs r) with h0 | h0
    · rw [h0] at c g
      omega
    · omega
  · rw [if_pos a]

/-- `find(r, lex)`: the positions of the run whose ids lie in `lex` (both ends included) -/
theorem findRange_spec (h : S.Rep xs) {r : Range} {ids : List Nat} (hr : RunAt xs r ids) (hx : xs.length ≤ NOT_FOUND)
    (lex : Range) (hl : lex.b ≤ lex.e) (hid : lex.e + upperOf xs r < 2 ^ 64) :
    ∃ q, S.findRange r lex = .ok q ∧ r.b ≤ q.b ∧ q.b ≤ q.e ∧ q.e ≤ r.e ∧
      ∀ i (hi : i < ids.length), (q.b ≤ r.b + i ∧ r.b + i < q.e) ↔ (lex.b ≤ ids[i] ∧ ids[i] ≤ lex.e) := by
  have hlt := hr.lt
  have hle := hr.le
  have hlen := hr.len
  have hinc := hr.incr'
  unfold findRange
  rw [prevUpper_spec h r (by omega), lastIn_ok (by omega)]
  simp only [M.ok_bind]
  rw [Nat.mod_eq_of_lt (show lex.b + upperOf xs r < 2 ^ 64 by omega), Nat.mod_eq_of_lt hid]
  obtain ⟨p, p1, p2⟩ := nextGeq_spec h (lex.b + upperOf xs r) (r.e + 1) r.b (r.e - 1) hinc (by omega) (by omega) (by omega)
  rw [p1]
  simp only [M.ok_bind]
  have get : ∀ i (hi : i < ids.length), ∃ hx : r.b + i < xs.length, xs[r.b + i] = upperOf xs r + ids[i] := by
    intro i hi
    exact List.getElem?_eq_some_iff.mp (hr.val i hi)
  rcases p2 with ⟨a, b, ⟨hp, c⟩, d⟩ | ⟨a, b⟩
  · rw [if_neg (show p ≠ NOT_FOUND by omega), h.access p hp]
    simp only [M.ok_bind]
    have below : ∀ i (hi : i < ids.length), r.b + i < p → ids[i] < lex.b := by
      intro i hi h1
      obtain ⟨g1, g2⟩ := get i hi
      have := d (r.b + i) g1 (by omega) h1
      omega
    have above : ∀ i (hi : i < ids.length), p ≤ r.b + i → lex.b ≤ ids[i] ∧ xs[p] ≤ upperOf xs r + ids[i] := by
      intro i hi h1
      obtain ⟨g1, g2⟩ := get i hi
      rcases Nat.lt_or_ge p (r.b + i) with h3 | h3
      · have := hinc p (r.b + i) hp g1 a h3 (by omega)
        omega
      · have : p = r.b + i := by omega
        subst this; omega
    split
    · rename_i hgt
      refine ⟨_, rfl, by simp only; omega, by simp only; omega, by simp only; omega, ?_⟩
      intro i hi
      simp only
      by_cases h1 : r.b + i < p
      · have := below i hi h1; omega
      · have := above i hi (by omega); omega
    · rename_i hgt
      split
      · rename_i heq
        refine ⟨_, rfl, by simp only; omega, by simp only; omega, by simp only; omega, ?_⟩
        intro i hi
        simp only
        by_cases h1 : r.b + i < p
        · have := below i hi h1; omega
        · have := above i hi (by omega)
          rcases Nat.lt_or_ge p (r.b + i) with h3 | h3
          · obtain ⟨g1, g2⟩ := get i hi
            have := hinc p (r.b + i) hp g1 a h3 (by omega)
            omega
          · have h4 : p = r.b + i := by omega
            subst h4
            obtain ⟨g1, g2⟩ := get i hi
            omega
      · rename_i hne
        unfold findRangeEnd
        obtain ⟨e, e1, e2⟩ := nextGeq_spec h (lex.e + upperOf xs r) (r.e + 1) p (r.e - 1)
          (fun i j hi' hj' x y z => hinc i j hi' hj' (by omega) y z) (by omega) (by omega) (by omega)
        rw [e1]
        simp only [M.ok_bind]
        rcases e2 with ⟨a', b', ⟨hp', c'⟩, d'⟩ | ⟨a', b'⟩
        · rw [if_neg (show e ≠ NOT_FOUND by omega), h.access e hp']
          simp only [M.ok_bind]
          refine ⟨_, rfl, by simp only; omega, by simp only; split <;> omega, by simp only; split <;> omega, ?_⟩
          intro i hi
          simp only
          obtain ⟨g1, g2⟩ := get i hi
          by_cases h1 : r.b + i < p
          · have := below i hi h1; omega
          · have h2 := above i hi (by omega)
            rcases Nat.lt_trichotomy (r.b + i) e with h3 | h3 | h3
            · have := d' (r.b + i) g1 (by omega) h3
              split <;> omega
            · subst h3
              split <;> omega
            · have := hinc e (r.b + i) hp' g1 (by omega) h3 (by omega)
              split <;> omega
        · rw [if_pos a']
          refine ⟨_, rfl, by simp only; omega, by simp only; omega, by simp only; omega, ?_⟩
          intro i hi
          simp only
          obtain ⟨g1, g2⟩ := get i hi
          by_cases h1 : r.b + i < p
          · have := below i hi h1; omega
          · have h2 := above i hi (by omega)
            have := b' (r.b + i) g1 (by omega) (by omega)
            omega
  · rw [if_pos a]
    refine ⟨_, rfl, by simp only; omega, by simp only; omega, by simp only; omega, ?_⟩
    intro i hi
    simp only
    obtain ⟨g1, g2⟩ := get i hi
    have := b (r.b + i) g1 (by omega) (by omega)
    omega

end Seq
end AC
