import Verif.Proofs.UncompressedList
import Verif.Proofs.CefIter
/-!
# C51: lists of integers stored as they are
-/
namespace AC.Props

/-- the calls on an iterator of an uncompressed list -/
inductive UCall where
  | deref
  | inc
  | next
  | access (i : Nat)
  | nextGeq (x : Nat)
  | nextGeqByScan (x : Nat)

/-- a call that returns a value -/
def some' (r : M (Nat × ULI)) : M (Option Nat × ULI) := do
  let (x, it) ← r
  .ok (some x, it)

/-- performing a call: the value returned, if any, and the iterator afterwards -/
def UCall.run (v : BV) (it : ULI) : UCall → M (Option Nat × ULI)
  | .deref => do
      let x ← it.deref v
      .ok (some x, it)
  | .inc => .ok (none, it.inc)
  | .next => some' (it.next v)
  | .access i => some' (it.access v i)
  | .nextGeq x => some' (it.nextGeq v x)
  | .nextGeqByScan x => some' (it.nextGeqByScan v x)

/-- performing calls one after the other: the values returned and the iterator afterwards -/
def runUCalls (v : BV) : List UCall → ULI → M (List (Option Nat) × ULI)
  | [], it => .ok ([], it)
  | c :: cs, it => do
      let (x, it) ← c.run v it
      let (xs, it) ← runUCalls v cs it
      .ok (x :: xs, it)

/-- where a call should lead from position `p` of the list `xs` (of which position `xs.length` is the end) -/
def UCall.moves (xs : List Nat) (p : Nat) : UCall → Nat
  | .deref => p
  | .inc => p + 1
  | .next => p + 1
  | .access i => i
  | .nextGeq x => p + ((xs.drop p).takeWhile (· < x)).length
  | .nextGeqByScan x => p + ((xs.drop p).takeWhile (· < x)).length

/-- what a call should return: nothing for `++`, otherwise the element where it leads, and the universe at the end -/
def UCall.returns (xs : List Nat) (u p : Nat) (c : UCall) : Option Nat :=
  match c with
  | .inc => none
  | c => some (xs[c.moves xs p]?.getD u)

/-- when a call is allowed: `*`, `++` and `next` not at the end, `access` of an element -/
def UCall.Allowed (xs : List Nat) (p : Nat) : UCall → Prop
  | .deref => p < xs.length
  | .inc => p < xs.length
  | .next => p < xs.length
  | .access i => i < xs.length
  | .nextGeq _ => True
  | .nextGeqByScan _ => True

/-- a history of calls, each allowed where it is made, leading from position `p` to position `q` and returning `os` -/
def UHistory (xs : List Nat) (u : Nat) : List UCall → Nat → Nat → List (Option Nat) → Prop
  | [], p, q, os => p = q ∧ os = []
  | c :: cs, p, q, os => c.Allowed xs p ∧ ∃ os', os = c.returns xs u p :: os' ∧ UHistory xs u cs (c.moves xs p) q os'

/-- what may be stored as integers of `w` bits: a non-empty list in increasing order; the universe fits as well -/
structure PlainList (w u : Nat) (xs : List Nat) : Prop where
  width : w = 8 ∨ w = 16 ∨ w = 32 ∨ w = 64
  ne : xs ≠ []
  sorted : xs.Pairwise (· < ·)
  bound : ∀ x ∈ xs, x < 2 ^ w
  univ : u < 2 ^ w

theorem lands_eq {xs : List Nat} {p x q : Nat} (h : ULI.Lands xs p x q) : p + ((xs.drop p).takeWhile (· < x)).length = q := by
  have h1 := h.from'
  have h2 := h.le
  rw [CEF.takeWhile_length _ (xs.drop p) 0 (q - p) (by simp; omega)]
  · omega
  · intro j hj
    have := h.before (p + j) (by omega) (by omega) (by omega)
    rw [List.getD_eq_getElem?_getD, List.getElem?_drop, List.getElem?_eq_getElem (by omega)]
    simpa using this
  · intro hlt
    simp only [List.length_drop] at hlt
    have := h.here (by omega)
    rw [List.getD_eq_getElem?_getD, List.getElem?_drop, show p + (q - p) = q by omega, List.getElem?_eq_getElem (by omega)]
    simpa using this

/-- the state of an iterator at position `p` -/
structure PlainAt (v : BV) (xs : List Nat) (u : Nat) (it : ULI) (p : Nat) : Prop where
  rep : ULI.Rep v it xs
  last : it.last = u
  pos : it.pos = p
  le : p ≤ xs.length

theorem PlainAt.to {v : BV} {xs : List Nat} {u : Nat} {it : ULI} {p : Nat} (h : PlainAt v xs u it p) {q : Nat}
    (hq : q ≤ xs.length) : PlainAt v xs u { it with pos := q } q :=
  ⟨h.rep.at q, h.last, rfl, hq⟩

theorem ucall_spec {v : BV} {w u : Nat} {xs : List Nat} (hv : PlainList w u xs) (c : UCall) {it : ULI} {p : Nat}
    (h : PlainAt v xs u it p) (ha : c.Allowed xs p) :
    ∃ it', c.run v it = .ok (c.returns xs u p, it') ∧ PlainAt v xs u it' (c.moves xs p) := by
  cases c with
  | deref =>
      have ha' : p < xs.length := ha
      refine ⟨it, ?_, h⟩
      simp only [UCall.run, ULI.deref, h.pos, h.rep.read p ha', M.ok_bind, UCall.returns, UCall.moves,
        List.getElem?_eq_getElem ha', Option.getD_some]
  | inc =>
      have ha' : p < xs.length := ha
      refine ⟨_, rfl, ?_⟩
      have := h.to (q := p + 1) (by omega)
      show PlainAt v xs u { it with pos := it.pos + 1 } (p + 1)
      rw [h.pos]; exact this
  | next =>
      have ha' : p < xs.length := ha
      have e := ULI.next_spec h.rep (by rw [h.pos]; exact ha')
      refine ⟨_, ?_, h.to (q := p + 1) (by omega)⟩
      simp only [UCall.run, some', e, M.ok_bind, UCall.returns, UCall.moves, h.pos, h.last]
  | access i =>
      have ha' : i < xs.length := ha
      have e := ULI.access_spec h.rep ha'
      refine ⟨_, ?_, h.to (q := i) (by omega)⟩
      simp only [UCall.run, some', e, M.ok_bind, UCall.returns, UCall.moves, List.getElem?_eq_getElem ha', Option.getD_some]
  | nextGeq x =>
      obtain ⟨q, q1, q2⟩ := ULI.nextGeq_spec h.rep hv.sorted hv.ne (by rw [h.pos]; exact h.le) x
      rw [h.pos] at q1
      have e := lands_eq q1
      refine ⟨_, ?_, by show PlainAt v xs u _ (p + _); rw [e]; exact h.to q1.le⟩
      simp only [UCall.run, some', q2, M.ok_bind, UCall.returns, UCall.moves, h.last, e]
  | nextGeqByScan x =>
      obtain ⟨q, q1, q2⟩ := ULI.nextGeqByScan_spec h.rep hv.ne (by rw [h.pos]; exact h.le) x
      rw [h.pos] at q1
      have e := lands_eq q1
      refine ⟨_, ?_, by show PlainAt v xs u _ (p + _); rw [e]; exact h.to q1.le⟩
      simp only [UCall.run, some', q2, M.ok_bind, UCall.returns, UCall.moves, h.last, e]

theorem runUCalls_spec {v : BV} {w u : Nat} {xs : List Nat} (hv : PlainList w u xs) :
    ∀ (cs : List UCall) (p q : Nat) (os : List (Option Nat)) (it : ULI), PlainAt v xs u it p → UHistory xs u cs p q os →
      ∃ it', runUCalls v cs it = .ok (os, it') ∧ PlainAt v xs u it' q := by
  intro cs
  induction cs with
  | nil =>
      intro p q os it h hh
      obtain ⟨rfl, rfl⟩ := hh
      exact ⟨it, rfl, h⟩
  | cons c cs ih =>
      intro p q os it h hh
      obtain ⟨ha, os', rfl, hr⟩ := hh
      obtain ⟨it1, e1, e2⟩ := ucall_spec hv c h ha
      obtain ⟨it', f1, f2⟩ := ih _ _ _ it1 e2 hr
      refine ⟨it', ?_, f2⟩
      simp only [runUCalls, e1, M.ok_bind, f1]

/-- **C51**: append a list of integers of 8, 16, 32 or 64 bits to a bit vector that holds whole bytes, and let anything be appended
afterwards. Whatever the history of calls on an iterator over the list, every call returns the element where it leads, or the
universe at the end, `next_geq` and its scanning variant leading to the first element from the current position on that is not
less than the bound; no call reads outside of the bits, and building changes none of the earlier bits. Afterwards `has_next` tells
whether the end is reached and `intersects([b,e])` whether some element lies in `[b, e]`. Missing: the empty list and a universe that
does not fit in the integers, of which the claim is false (below). -/
theorem C51_partial (b : BVB) (hb : b.WF) (h8 : b.size % 8 = 0) (w u : Nat) (xs : List Nat) (h : PlainList w u xs) :
    (ULI.build w b xs).WF ∧ (ULI.build w b xs).size = b.size + xs.length * w ∧
    (∀ i, i < b.size → bitAt (ULI.build w b xs).bits i = bitAt b.bits i) ∧
    ∀ more : BVB, more.WF → (ULI.build w b xs).size ≤ more.size →
      (∀ i, i < (ULI.build w b xs).size → bitAt more.bits i = bitAt (ULI.build w b xs).bits i) →
      ∀ after : W, ∀ cs q os, UHistory xs u cs 0 q os →
        ∃ it', runUCalls (BV.build more after) cs (ULI.mk' w b.size u xs.length) = .ok (os, it') ∧
          it'.pos = q ∧ (it'.hasNext = true ↔ q < xs.length) ∧
          ∀ r : Range, ∃ ans, it'.intersects (BV.build more after) r = .ok ans ∧
            (ans = true ↔ ∃ x ∈ xs, r.b ≤ x ∧ x ≤ r.e) := by
  have hw : w ≤ 64 := by rcases h.width with h | h | h | h <;> omega
  obtain ⟨c1, c2, c3, _⟩ := ULI.build_spec w hw xs b hb h.bound
  refine ⟨c1, c2, c3, ?_⟩
  intro more m1 m2 m3 after cs q os hh
  have hr := ULI.rep_of_build hw xs b hb h8 h.bound u more m1 m2 m3 after
  have hat : PlainAt (BV.build more after) xs u (ULI.mk' w b.size u xs.length) 0 :=
    ⟨hr, Nat.mod_eq_of_lt h.univ, rfl, Nat.zero_le _⟩
  obtain ⟨it', e1, e2⟩ := runUCalls_spec h cs 0 q os _ hat hh
  refine ⟨it', e1, e2.pos, ?_, ?_⟩
  · unfold ULI.hasNext
    rw [e2.pos, e2.rep.size]; simp
  · intro r
    obtain ⟨ans, a1, a2⟩ := ULI.meetsLoop_spec e2.rep h.sorted r it'.size 0 (by rw [e2.rep.size]; omega)
    refine ⟨ans, a1, a2.trans ?_⟩
    constructor
    · rintro ⟨j, hj, _, hj2⟩
      exact ⟨_, List.getElem_mem hj, hj2⟩
    · rintro ⟨x, hx, hx2⟩
      obtain ⟨j, hj, rfl⟩ := List.getElem_of_mem hx
      exact ⟨j, hj, Nat.zero_le _, hx2⟩

/-- **C51** is false of an empty list: `next_geq` takes `size() - 1` for the last position, which is `2^64 - 1`, and reads far outside
of any bit vector -/
theorem C51_false_empty (v : BV) (hv : v.bits.length < 2 ^ 56) (w off u x : Nat) (hw : w = 8 ∨ w = 16 ∨ w = 32 ∨ w = 64) :
    (ULI.mk' w off u 0).nextGeq v x = .error .oob := by
  have h0 : 8 ≤ w ∧ w ≤ 64 := by rcases hw with h | h | h | h <;> omega
  have hd : ∀ it : ULI, it.bits = w → it.data v (2 ^ 63 - 1) = .error .oob := by
    intro it hit
    have hmul : (2 ^ 63 - 1) * 8 ≤ (2 ^ 63 - 1) * w := Nat.mul_le_mul_left _ h0.1
    unfold ULI.data BV.getBits
    rw [hit, if_neg (by omega)]
    have hfar : v.bits.length ≤ (it.off + (2 ^ 63 - 1) * w) / 64 := by omega
    have hrd : rd v.bits ((it.off + (2 ^ 63 - 1) * w) / 64) = .error .oob := by
      unfold rd; rw [List.getElem?_eq_none hfar]
    simp only [hrd, M.error_bind]
    split <;> rfl
  unfold ULI.nextGeq ULI.geqLoop
  have hhi : (ULI.mk' w off u 0).hi = 2 ^ 64 - 1 := rfl
  have hpos : (ULI.mk' w off u 0).pos = 0 := rfl
  rw [hhi, hpos, if_pos (by omega), if_neg (by omega)]
  have e : (0 + (2 ^ 64 - 1)) / 2 = 2 ^ 63 - 1 := by decide
  simp only [e]
  rw [hd _ rfl]
  rfl

/-- **C51** is false when the universe does not fit in the integers: at the end of the list `next` returns the universe modulo `2^w`,
so that for the universe `2^w` it returns 0, which is less than every element -/
theorem C51_false_universe (v : BV) (w off : Nat) : ∃ it', (ULI.mk' w off (2 ^ w) 1).next v = .ok (0, it') := by
  refine ⟨{ ULI.mk' w off (2 ^ w) 1 with pos := 1 }, ?_⟩
  unfold ULI.next
  rw [if_neg (by simp [ULI.mk'])]
  simp only [ULI.last, ULI.mk', Nat.mod_self]

/-- thirty numbers in one byte each, after two bytes of something else: a history that goes through the binary search, the scan, the
end of the list and back -/
example : PlainList 8 200 ((List.range 30).map (fun i => 3 * i + 1)) ∧
    UHistory ((List.range 30).map (fun i => 3 * i + 1)) 200
      [.deref, .inc, .nextGeq 50, .next, .nextGeqByScan 60, .access 2, .nextGeq 89, .nextGeq 0] 0 30
      [some 1, none, some 52, some 55, some 61, some 7, some 200, some 200] ∧
    ((BVB.empty.appendBits 0xABCD 16).size % 8 = 0) := by
  refine ⟨⟨Or.inl rfl, by decide, by decide, by decide, by decide⟩, ?_, by decide⟩
  refine ⟨by simp only [UCall.Allowed, UCall.moves]; decide, _, rfl, ?_⟩
  refine ⟨by simp only [UCall.Allowed, UCall.moves]; decide, _, rfl, ?_⟩
  refine ⟨trivial, _, rfl, ?_⟩
  refine ⟨by simp only [UCall.Allowed, UCall.moves]; decide, _, rfl, ?_⟩
  refine ⟨trivial, _, rfl, ?_⟩
  refine ⟨by simp only [UCall.Allowed, UCall.moves]; decide, _, rfl, ?_⟩
  refine ⟨trivial, _, rfl, ?_⟩
  refine ⟨trivial, _, rfl, ?_⟩
  exact ⟨rfl, rfl⟩

end AC.Props
