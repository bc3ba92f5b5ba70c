import Verif.Proofs.CefIter
/-!
# C20: posting lists
-/
namespace AC.Props

/-- the calls on an iterator that move it -/
inductive Call where
  | next
  | access (i : Nat)
  | nextGeq (x : Nat)
  | nextGeqByScan (x : Nat)

/-- performing a call -/
def Call.run (v : BV) (it : CEI) : Call → M CEI
  | .next => it.next v
  | .access i => it.access v i
  | .nextGeq x => it.nextGeq v x
  | .nextGeqByScan x => it.nextGeqByScan v x

/-- performing calls one after the other -/
def runCalls (v : BV) : List Call → CEI → M CEI
  | [], it => .ok it
  | c :: cs, it => do
      let it ← c.run v it
      runCalls v cs it

/-- where the calls should lead from position `p` of the list `xs` (of which position `xs.length` is the end) -/
def Call.moves (xs : List Nat) (p : Nat) : Call → Nat
  | .next => p + 1
  | .access i => i
  | .nextGeq x => (xs.takeWhile (· < x)).length
  | .nextGeqByScan x => p + ((xs.drop p).takeWhile (· < x)).length

/-- when a call is allowed: `next` not at the end, `access` up to the end, `next_geq` with at most the universe when at the
end -/
def Call.Allowed (xs : List Nat) (u p : Nat) : Call → Prop
  | .next => p < xs.length
  | .access i => i ≤ xs.length
  | .nextGeq x => x ≤ u ∨ p < xs.length
  | .nextGeqByScan _ => True

/-- a history of calls, each allowed where it is made, leading from position `p` to position `q` -/
def History (xs : List Nat) (u : Nat) : List Call → Nat → Nat → Prop
  | [], p, q => p = q
  | c :: cs, p, q => c.Allowed xs u p ∧ History xs u cs (c.moves xs p) q

/-- what may be stored: a non-empty list in non-decreasing order, of values below the universe -/
structure PostingList (u : Nat) (xs : List Nat) : Prop where
  ne : xs ≠ []
  sorted : xs.Pairwise (· ≤ ·)
  bound : ∀ x ∈ xs, x < u
  small : xs.length + u + 2 ≤ 2 ^ 56

theorem PostingList.valid {u : Nat} {xs : List Nat} (h : PostingList u xs) : CEF.Valid u xs :=
  ⟨h.ne, h.sorted, fun x hx => Nat.le_of_lt (h.bound x hx), h.small⟩

theorem call_spec {v : BV} {base u : Nat} {xs : List Nat} (hr : CEF.Rep v.bits base u xs) (hb : ∀ x ∈ xs, x < u)
    (c : Call) {it : CEI} {p : Nat} (h : CEF.At v base u xs it p) (ha : c.Allowed xs u p) :
    ∃ it', c.run v it = .ok it' ∧ CEF.At v base u xs it' (c.moves xs p) := by
  cases c with
  | next => exact CEF.next_spec hr h ha
  | access i => exact CEF.access_spec hr h ha
  | nextGeq x =>
      obtain ⟨it', p', e1, e2, e3⟩ := CEF.nextGeq_spec hr hb h ha
      refine ⟨it', e1, ?_⟩
      show CEF.At v base u xs it' (xs.takeWhile (· < x)).length
      rw [e3.eq]; exact e2
  | nextGeqByScan x =>
      have hn := (h.ctx hr).ok.n
      obtain ⟨it', p', e1, e2, e3, e4, e5⟩ := CEF.scanLoop_spec hr x (it.off.n + 1) p it h (by omega)
      refine ⟨it', e1, ?_⟩
      show CEF.At v base u xs it' (p + ((xs.drop p).takeWhile (· < x)).length)
      have hle := e2.le
      rw [CEF.takeWhile_length _ (xs.drop p) 0 (p' - p) (by simp; omega)]
      · rw [show p + (p' - p) = p' by omega]; exact e2
      · intro j hj
        have := e4 (p + j) (by omega) (by omega)
        rw [List.getD_eq_getElem?_getD] at this
        rw [List.getD_eq_getElem?_getD, List.getElem?_drop]
        simpa using this
      · intro hlt
        simp only [List.length_drop] at hlt
        have := e5 (by omega)
        rw [List.getD_eq_getElem?_getD] at this
        rw [List.getD_eq_getElem?_getD, List.getElem?_drop, show p + (p' - p) = p' by omega]
        simpa using this

theorem runCalls_spec {v : BV} {base u : Nat} {xs : List Nat} (hr : CEF.Rep v.bits base u xs) (hb : ∀ x ∈ xs, x < u) :
    ∀ (cs : List Call) (p q : Nat) (it : CEI), CEF.At v base u xs it p → History xs u cs p q →
      ∃ it', runCalls v cs it = .ok it' ∧ CEF.At v base u xs it' q := by
  intro cs
  induction cs with
  | nil => intro p q it h hh; exact ⟨it, rfl, by rw [← show p = q from hh]; exact h⟩
  | cons c cs ih =>
      intro p q it h hh
      obtain ⟨it1, e1, e2⟩ := call_spec hr hb c h hh.1
      obtain ⟨it', f1, f2⟩ := ih _ _ it1 e2 hh.2
      refine ⟨it', ?_, f2⟩
      unfold runCalls
      rw [e1]; exact f1

theorem At.final {v : BV} {base u : Nat} {xs : List Nat} {it : CEI} {p : Nat} (h : CEF.At v base u xs it p) :
    it.value = xs[p]?.getD u := by
  rw [h.value]
  split
  · rename_i hp
    rw [List.getD_eq_getElem?_getD, List.getElem?_eq_getElem hp]; rfl
  · rename_i hp
    rw [List.getElem?_eq_none (by omega)]; rfl

/-- **C20**: append a list to a bit vector that may already hold other lists, and let anything be appended afterwards (`more`,
which extends the bits). Whatever the history of calls on an iterator over the list, it is where the calls lead and its value
is the element there, or the universe at the end; no call reads outside of the bits (which would be a fault), and building
changes none of the earlier bits. -/
theorem C20_posting_list (b : BVB) (hb : b.WF) (u : Nat) (xs : List Nat) (h : PostingList u xs) :
    ∃ b', CEF.build b u xs = .ok b' ∧ b'.WF ∧ b.size ≤ b'.size ∧
      (∀ i, i < b.size → bitAt b'.bits i = bitAt b.bits i) ∧
      ∀ more : BVB, more.WF → b'.size ≤ more.size → (∀ i, i < b'.size → bitAt more.bits i = bitAt b'.bits i) →
      ∀ after : W, ∃ it, CEI.mk' (BV.build more after) b.size u xs.length = .ok it ∧
        ∀ cs q, History xs u cs 0 q →
          ∃ it', runCalls (BV.build more after) cs it = .ok it' ∧ it'.pos = q ∧ q ≤ xs.length ∧ it'.value = xs[q]?.getD u := by
  obtain ⟨b', b1, b2, b3, b4, b5, b6⟩ := CEF.build_spec b u xs hb h.valid
  refine ⟨b', b1, b2, b4, b5, ?_⟩
  intro more m1 m2 m3 after
  have hr : CEF.Rep (BV.build more after).bits b.size u xs := by
    apply b6.frame
    · have := m1.len
      unfold wordsFor at this
      simp only [BV.build]; omega
    · intro i _ hi
      exact m3 i (by omega)
  obtain ⟨it, i1, i2⟩ := CEF.mk'_spec hr
  refine ⟨it, i1, ?_⟩
  intro cs q hq
  obtain ⟨it', f1, f2⟩ := runCalls_spec hr h.bound cs 0 q it i2 hq
  exact ⟨it', f1, f2.pos, f2.le, At.final f2⟩

/-- **C20**, `next_geq(x)` for increasing lists, in words: the element it leads to is at least `x`, every element that is at
least `x` is at or after it -/
theorem C20_next_geq_meaning (u : Nat) (xs : List Nat) (h : PostingList u xs) (p x : Nat) :
    (∀ y, xs[(Call.nextGeq x).moves xs p]? = some y → x ≤ y) ∧
    ((Call.nextGeq x).moves xs p = xs.length → ∀ y ∈ xs, y < x) ∧
    (∀ j (hj : j < xs.length), x ≤ xs[j] → (Call.nextGeq x).moves xs p ≤ j) := by
  have key : ∀ L : List Nat, L.Pairwise (· ≤ ·) →
      (∀ y, L[(L.takeWhile (· < x)).length]? = some y → x ≤ y) ∧
      ((L.takeWhile (· < x)).length = L.length → ∀ y ∈ L, y < x) ∧
      (∀ j (hj : j < L.length), x ≤ L[j] → (L.takeWhile (· < x)).length ≤ j) := by
    intro L
    induction L with
    | nil => intro _; simp
    | cons a L ih =>
        intro hs
        obtain ⟨i1, i2, i3⟩ := ih (List.pairwise_cons.mp hs).2
        rw [List.takeWhile_cons]
        by_cases ha : a < x
        · simp only [ha, decide_true, if_true, List.length_cons]
          refine ⟨by intro y hy; exact i1 y (by simpa using hy), ?_, ?_⟩
          · intro hl y hy
            rcases List.mem_cons.mp hy with h1 | h1
            · rw [h1]; exact ha
            · exact i2 (by omega) y h1
          · intro j hj hx
            cases j with
            | zero => simp at hx; omega
            | succ j =>
                have := i3 j (by simpa using hj) (by simpa using hx)
                omega
        · simp only [ha, decide_false, Bool.false_eq_true, if_false, List.length_nil]
          refine ⟨?_, ?_, by intro j _ _; omega⟩
          · intro y hy; simp at hy; omega
          · intro hl; simp at hl
  exact key xs h.sorted

/-- **C20**, the other members: `prev_value` is the element before the current one (0 at the beginning), `intersects([b,e])` tells
whether some element lies in `[b, e]` -/
theorem C20_prev_intersects (b : BVB) (hb : b.WF) (u : Nat) (xs : List Nat) (h : PostingList u xs) :
    ∃ b', CEF.build b u xs = .ok b' ∧ ∀ after : W, ∃ it, CEI.mk' (BV.build b' after) b.size u xs.length = .ok it ∧
        ∀ cs q, History xs u cs 0 q → ∃ it', runCalls (BV.build b' after) cs it = .ok it' ∧
          it'.prevValue (BV.build b' after) = .ok (if q = 0 then 0 else xs.getD (q - 1) 0) ∧
          ∀ r : Range, ∃ ans it'', it'.intersects (BV.build b' after) r = .ok (ans, it'') ∧
            (ans = true ↔ ∃ x ∈ xs, r.b ≤ x ∧ x ≤ r.e) := by
  obtain ⟨b', b1, b2, b3, b4, b5, b6⟩ := CEF.build_spec b u xs hb h.valid
  refine ⟨b', b1, ?_⟩
  intro after
  have hr : CEF.Rep (BV.build b' after).bits b.size u xs := b6
  obtain ⟨it, i1, i2⟩ := CEF.mk'_spec hr
  refine ⟨it, i1, ?_⟩
  intro cs q hq
  obtain ⟨it', f1, f2⟩ := runCalls_spec hr h.bound cs 0 q it i2 hq
  refine ⟨it', f1, ?_, ?_⟩
  · by_cases h0 : q = 0
    · unfold CEI.prevValue
      rw [f2.pos, if_pos h0, if_pos h0]
    · rw [if_neg h0]
      exact CEF.prevValue_spec hr f2 (by omega)
  · intro r
    obtain ⟨ans, it'', g1, g2⟩ := CEF.intersects_spec hr r f2
    refine ⟨ans, it'', g1, g2.trans ?_⟩
    constructor
    · rintro ⟨j, hj, hj2⟩
      rw [List.getD_eq_getElem?_getD, List.getElem?_eq_getElem hj] at hj2
      exact ⟨_, List.getElem_mem hj, hj2⟩
    · rintro ⟨x, hx, hx2⟩
      obtain ⟨j, hj, rfl⟩ := List.getElem_of_mem hx
      refine ⟨j, hj, ?_⟩
      rw [List.getD_eq_getElem?_getD, List.getElem?_eq_getElem hj]
      exact hx2

/-- a list with gaps, and a history that goes through linear and sampled paths, forwards and backwards -/
example : PostingList 5000 [1, 2, 700, 701, 4000] ∧
    History [1, 2, 700, 701, 4000] 5000 [.nextGeq 3, .next, .access 0, .nextGeqByScan 702, .nextGeq 4001] 0 5 := by
  refine ⟨⟨by decide, by decide, by decide, by decide⟩, ?_⟩
  simp [History, Call.Allowed, Call.moves]

end AC.Props
