import Verif.Proofs.SmallApi
import Verif.Proofs.Codes
/-!
# C21, C22: bit vectors and integer codes
-/
namespace AC.Props

/-- a call on a `bit_vector_builder` -/
inductive BitOp where
  | pushBack (b : Bool)
  | zeroExtend (n : Nat)
  | set (pos : Nat) (b : Bool)
  | setBits (pos : Nat) (x : W) (len : Nat)
  | appendBits (x : W) (len : Nat)
  | append (rhs : List Bool)
  | reverse

/-- a builder with the given content, filled bit by bit -/
def builderOf (L : List Bool) : BVB := L.foldl BVB.pushBack BVB.empty

/-- the call, on the model -/
def BitOp.run (v : BVB) : BitOp → M BVB
  | pushBack b => .ok (v.pushBack b)
  | zeroExtend n => .ok (v.zeroExtend n)
  | set pos b => v.set pos b
  | setBits pos x len => v.setBits pos x len
  | appendBits x len => .ok (v.appendBits x len)
  | append rhs => v.append (builderOf rhs)
  | reverse => .ok v.reverse

/-- the documented preconditions (the asserts) of a call, in terms of the content -/
def BitOp.pre (L : List Bool) : BitOp → Prop
  | pushBack _ | zeroExtend _ | append _ | reverse => True
  | set pos _ => pos < L.length
  | setBits pos x len => pos + len ≤ L.length ∧ len ≤ 64 ∧ x.toNat < 2 ^ len
  | appendBits x len => len ≤ 64 ∧ x.toNat < 2 ^ len

/-- what the call should do, on lists of bits -/
def BitOp.spec (L : List Bool) : BitOp → List Bool
  | pushBack b => L ++ [b]
  | zeroExtend n => L ++ List.replicate n false
  | set pos b => L.set pos b
  | setBits pos x len => L.take pos ++ lowBits x len ++ L.drop (pos + len)
  | appendBits x len => L ++ lowBits x len
  | append rhs => L ++ rhs
  | reverse => L.reverse

/-- a sequence of calls, on the model -/
def runOps (v : BVB) : List BitOp → M BVB
  | [] => .ok v
  | o :: os => do
      let v ← o.run v
      runOps v os

/-- a sequence of calls, on lists of bits -/
def specOps (L : List Bool) : List BitOp → List Bool
  | [] => L
  | o :: os => specOps (o.spec L) os

/-- all the preconditions hold along the sequence of calls -/
def preOps (L : List Bool) : List BitOp → Prop
  | [] => True
  | o :: os => o.pre L ∧ preOps (o.spec L) os

/-- the memory of the builder holds exactly the list of bits -/
structure Holds (v : BVB) (L : List Bool) : Prop where
  wf : v.WF
  size : v.size = L.length
  bits : ∀ i, bitAt v.bits i = L.getD i false

theorem getD_lowBits (x : W) (len i : Nat) :
    (lowBits x len).getD i false = (decide (i < len) && x.getLsbD i) := by
  unfold lowBits
  rw [List.getD_eq_getElem?_getD, List.getElem?_map]
  by_cases h : i < len
  · simp [List.getElem?_range h, h, BitVec.testBit_toNat]
  · rw [List.getElem?_eq_none (by simp; omega)]; simp [h]

theorem getD_append (L R : List Bool) (i : Nat) :
    (L ++ R).getD i false = if i < L.length then L.getD i false else R.getD (i - L.length) false := by
  rw [List.getD_eq_getElem?_getD, List.getD_eq_getElem?_getD, List.getD_eq_getElem?_getD, List.getElem?_append]
  split <;> rfl

theorem getD_ge (L : List Bool) (i : Nat) (h : L.length ≤ i) : L.getD i false = false := by
  rw [List.getD_eq_getElem?_getD, List.getElem?_eq_none h]; rfl

theorem holds_empty : Holds BVB.empty [] := ⟨BVB.empty_wf, rfl, by intro i; simp [BVB.empty, bitAt]⟩

theorem holds_push (v : BVB) (L : List Bool) (b : Bool) (h : Holds v L) : Holds (v.pushBack b) (L ++ [b]) := by
  have hs := h.size
  refine ⟨BVB.pushBack_wf v b h.wf, by simp [BVB.pushBack, hs], ?_⟩
  intro i
  rw [BVB.pushBack_bitAt v b h.wf, h.bits, getD_append, hs]
  by_cases h1 : i = L.length
  · subst h1; simp
  · rw [if_neg h1]
    split
    · rfl
    · rw [getD_ge L i (by omega), getD_ge _ _ (by simp; omega)]

theorem holds_builderOf_aux (R : List Bool) : ∀ (v : BVB) (L : List Bool), Holds v L → Holds (R.foldl BVB.pushBack v) (L ++ R) := by
  induction R with
  | nil => intro v L h; simpa using h
  | cons b R ih =>
      intro v L h
      have := ih (v.pushBack b) (L ++ [b]) (holds_push v L b h)
      simpa using this

theorem holds_builderOf (R : List Bool) : Holds (builderOf R) R := by
  have := holds_builderOf_aux R BVB.empty [] holds_empty
  rw [List.nil_append] at this
  exact this

theorem run_spec (v : BVB) (L : List Bool) (o : BitOp) (h : Holds v L) (hp : o.pre L) :
    ∃ r, o.run v = .ok r ∧ Holds r (o.spec L) := by
  have hs := h.size
  have hl := h.wf.len
  unfold wordsFor at hl
  cases o with
  | pushBack b => exact ⟨_, rfl, holds_push v L b h⟩
  | zeroExtend n =>
      refine ⟨_, rfl, BVB.zeroExtend_wf v n h.wf, by simp [BVB.zeroExtend, BitOp.spec, hs], ?_⟩
      intro i
      simp only [BitOp.spec]
      rw [BVB.zeroExtend_bitAt, h.bits, getD_append]
      split
      · rfl
      · rw [getD_ge L i (by omega), List.getD_eq_getElem?_getD, List.getElem?_replicate]
        split <;> rfl
  | set pos b =>
      simp only [BitOp.pre] at hp
      obtain ⟨r, h1, h2, h3, h4⟩ := BVB.set_spec v pos b (by omega)
      refine ⟨r, h1, ⟨by rw [h3, h2]; exact h.wf.len, ?_⟩, by simp [BitOp.spec, h2, hs], ?_⟩
      · intro i hi
        rw [h4, if_neg (by omega)]
        exact h.wf.pad i (by omega)
      · intro i
        simp only [BitOp.spec]
        rw [h4, h.bits, List.getD_eq_getElem?_getD, List.getD_eq_getElem?_getD, List.getElem?_set]
        by_cases hi : i = pos
        · subst hi; simp [hp]
        · rw [if_neg hi, if_neg (fun e => hi e.symm)]
  | setBits pos x len =>
      simp only [BitOp.pre] at hp
      obtain ⟨p1, p2, p3⟩ := hp
      obtain ⟨r, h1, h2, h3, h4⟩ := BVB.setBits_spec v pos x len (by omega) p2 p3
      have hlen : (lowBits x len).length = len := by simp [lowBits]
      refine ⟨r, h1, ⟨by rw [h3, h2]; exact h.wf.len, ?_⟩, by simp [BitOp.spec, h2, hs, hlen]; omega, ?_⟩
      · intro i hi
        rw [h4, if_neg (by omega)]
        exact h.wf.pad i (by omega)
      · intro i
        simp only [BitOp.spec]
        rw [h4, h.bits, getD_append, getD_append, getD_lowBits]
        simp only [List.length_append, List.length_take, hlen]
        have e1 : min pos L.length = pos := by omega
        rw [e1]
        by_cases a : i < pos
        · rw [if_neg (by omega), if_pos (by omega), if_pos a]
          rw [List.getD_eq_getElem?_getD, List.getD_eq_getElem?_getD, List.getElem?_take_of_lt a]
        · by_cases b : i < pos + len
          · have : i - pos < len := by omega
            rw [if_pos (by omega), if_pos b, if_neg a]
            simp [this]
          · rw [if_neg (by omega), if_neg b]
            rw [List.getD_eq_getElem?_getD, List.getD_eq_getElem?_getD, List.getElem?_drop]
            congr 2; omega
  | appendBits x len =>
      simp only [BitOp.pre] at hp
      have hlen : (lowBits x len).length = len := by simp [lowBits]
      refine ⟨_, rfl, BVB.appendBits_wf v x len h.wf hp.1 hp.2, ?_, ?_⟩
      · rw [BVB.appendBits_size]; simp [BitOp.spec, hlen, hs]
      · intro i
        simp only [BitOp.spec]
        rw [BVB.appendBits_bitAt v x len h.wf hp.1 hp.2, h.bits, getD_append, getD_lowBits, hs]
        by_cases a : i < L.length
        · rw [if_neg (by omega), if_pos a]
        · rw [if_neg a]
          by_cases b : i < L.length + len
          · have : i - L.length < len := by omega
            rw [if_pos (by omega)]; simp [this]
          · have : ¬ i - L.length < len := by omega
            rw [if_neg (by omega), getD_ge L i (by omega)]; simp [this]
  | append rhs =>
      have hr := holds_builderOf rhs
      obtain ⟨r, h1, h2, h3, h4⟩ := BVB.append_spec v (builderOf rhs) h.wf hr.wf
      refine ⟨r, h1, h2, by simp [BitOp.spec, h3, hs, hr.size], ?_⟩
      intro i
      simp only [BitOp.spec]
      rw [h4, getD_append, h.bits, hr.bits, hs]
  | reverse =>
      refine ⟨_, rfl, BVB.reverse_wf v h.wf, by simp [BitOp.spec, BVB.reverse, hs], ?_⟩
      intro i
      simp only [BitOp.spec]
      rw [BVB.reverse_bitAt v h.wf, h.bits, hs]
      split
      · rename_i hi
        rw [List.getD_eq_getElem?_getD, List.getD_eq_getElem?_getD, List.getElem?_reverse hi]
      · rw [getD_ge _ _ (by simp; omega)]

theorem runOps_spec (os : List BitOp) : ∀ (v : BVB) (L : List Bool), Holds v L → preOps L os →
    ∃ r, runOps v os = .ok r ∧ Holds r (specOps L os) := by
  induction os with
  | nil => intro v L h _; exact ⟨v, rfl, h⟩
  | cons o os ih =>
      intro v L h hp
      obtain ⟨r, h1, h2⟩ := run_spec v L o h hp.1
      obtain ⟨r', h3, h4⟩ := ih r _ h2 hp.2
      exact ⟨r', by simp only [runOps, h1, M.ok_bind, h3], h4⟩

theorem valueAt_natOfBits (ws : List W) (n : Nat) : ∀ (p : Nat), valueAt ws p n = natOfBits ((List.range' p n).map (bitAt ws)) := by
  induction n with
  | zero => intro p; rfl
  | succ n ih =>
      intro p
      unfold valueAt
      rw [ih, List.range'_succ]
      rfl

theorem slice_eq (ws : List W) (L : List Bool) (h : ∀ i, bitAt ws i = L.getD i false) (pos len : Nat)
    (hl : pos + len ≤ L.length) : (List.range' pos len).map (bitAt ws) = (L.drop pos).take len := by
  apply List.ext_getElem
  · simp; omega
  · intro i h1 h2
    simp only [List.length_map, List.length_range'] at h1
    simp only [List.getElem_map, List.getElem_range', List.getElem_take, List.getElem_drop]
    rw [h, List.getD_eq_getElem?_getD, List.getElem?_eq_getElem (by omega)]
    simp

/-- **C22.** After any sequence of calls meeting their documented preconditions, the builder succeeds and the bit vector
built from it holds exactly the bits that the calls describe: random access, `get_bits`, `get_word64` (padded with zeros
past the end) and the first 56 bits of `get_word56` return exactly the addressed bits, whatever the memory that follows
the buffer. -/
theorem C22_bits (os : List BitOp) (hp : preOps [] os) :
    ∃ v, runOps BVB.empty os = .ok v ∧ v.size = (specOps [] os).length ∧
      ∀ after : W,
        let bv := BV.build v after
        let L := specOps [] os
        (∀ i, (h : i < L.length) → bv.get i = .ok L[i]) ∧
        (∀ pos len, len ≤ 64 → pos + len ≤ L.length →
          ∃ w, bv.getBits pos len = .ok w ∧ w.toNat = natOfBits ((L.drop pos).take len)) ∧
        (∀ pos, pos < L.length →
          ∃ w, bv.getWord64 pos = .ok w ∧ ∀ j, j < 64 → w.getLsbD j = L.getD (pos + j) false) ∧
        (∀ pos, pos < L.length →
          ∃ w, bv.getWord56 pos = .ok w ∧ ∀ j, j < 57 → pos + j < L.length → w.getLsbD j = L.getD (pos + j) false) := by
  obtain ⟨v, h1, h2⟩ := runOps_spec os BVB.empty [] holds_empty hp
  have hs := h2.size
  have hl := h2.wf.len
  unfold wordsFor at hl
  refine ⟨v, h1, hs, ?_⟩
  intro after
  simp only
  generalize specOps [] os = L at *
  refine ⟨?_, ?_, ?_, ?_⟩
  · intro i h
    rw [BV.get_spec _ _ (by simp only [BV.build]; omega)]
    simp only [BV.build]
    rw [h2.bits, List.getD_eq_getElem?_getD, List.getElem?_eq_getElem h]; rfl
  · intro pos len hlen h
    obtain ⟨w, w1, w2⟩ := BV.getBits_spec (BV.build v after) pos len hlen (by simp only [BV.build]; omega)
    refine ⟨w, w1, ?_⟩
    rw [w2, valueAt_natOfBits]
    simp only [BV.build]
    rw [slice_eq _ L h2.bits _ _ h]
  · intro pos h
    obtain ⟨w, w1, w2⟩ := BV.getWord64_spec (BV.build v after) pos (by simp only [BV.build]; omega)
    refine ⟨w, w1, ?_⟩
    intro j hj
    rw [w2 j hj]
    simp only [BV.build]
    rw [h2.bits]
  · intro pos h
    obtain ⟨w, w1, w2⟩ := BV.getWord56_spec (BV.build v after) pos (by simp only [BV.build]; omega)
    refine ⟨w, w1, ?_⟩
    intro j hj hj2
    rw [w2 j (by omega) (by simp only [BV.build]; omega)]
    simp only [BV.build]
    rw [h2.bits]

/-- non-vacuity: a sequence of calls that straddles a word boundary and reverses -/
example : preOps [] [.zeroExtend 62, .appendBits 0b10110#64 5, .set 3 true, .setBits 60 0b1101#64 4, .append [true, false, true],
    .reverse, .pushBack true] ∧
    specOps [] [.zeroExtend 2, .appendBits 0b10110#64 5, .set 1 true, .append [true, false], .reverse] =
      [false, true, true, false, true, true, false, true, false] := by
  refine ⟨?_, by decide⟩
  simp only [preOps, BitOp.pre, BitOp.spec]
  decide

/-- the position of the first one at or after `c` -/
def IsNext (L : List Bool) (c q : Nat) : Prop := L.getD q false = true ∧ c ≤ q ∧ ∀ i, c ≤ i → i < q → L.getD i false = false

/-- **C22 (scanning).** A unary iterator started at `c` moves, with `next`, to the first one at or after `c`, then to the
first one after that, and so on; with `skip(k)`, to the `k`-th one. Stated for one step from any state reached: `Inv v c`
holds at the start with `c` the starting position, after `next` with `c` one past the returned one, after `skip` with
`c` the returned one. -/
theorem C22_unary (v : BVB) (L : List Bool) (h : Holds v L) (after : W) :
    let bv := BV.build v after
    (∀ c, c < L.length → ∃ u, UI.mk' bv c = .ok u ∧ u.position = c ∧ u.Inv bv c) ∧
    (∀ u c q, u.Inv bv c → IsNext L c q → ∃ u', UI.next bv u = .ok u' ∧ u'.position = q ∧ u'.Inv bv (q + 1)) ∧
    (∀ u c k q, u.Inv bv c → IsSelect (fun i => L.getD i false && decide (c ≤ i)) k q →
      ∃ u', UI.skip bv u k = .ok u' ∧ u'.position = q ∧ u'.Inv bv q) ∧
    (∀ pos, pos < L.length → (∃ p, p ≤ pos ∧ L.getD p false = true) →
      ∃ r, bv.predecessor1 pos = .ok r ∧ r ≤ pos ∧ L.getD r false = true ∧ ∀ i, r < i → i ≤ pos → L.getD i false = false) := by
  have hs := h.size
  have hl := h.wf.len
  unfold wordsFor at hl
  have hb : ∀ i, bitAt (BV.build v after).bits i = L.getD i false := h.bits
  have hlt : ∀ q, L.getD q false = true → q < L.length := by
    intro q hq
    apply Nat.lt_of_not_le
    intro hle
    rw [getD_ge L q hle] at hq; cases hq
  simp only
  refine ⟨?_, ?_, ?_, ?_⟩
  · intro c hc
    exact UI.mk'_spec _ c (by simp only [BV.build]; omega)
  · intro u c q hi hn
    have := hlt q hn.1
    apply UI.next_spec _ u c q hi (by simp only [BV.build]; omega) hn.2.1 (by rw [hb]; exact hn.1)
    intro i h1 h2
    rw [hb]; exact hn.2.2 i h1 h2
  · intro u c k q hi hsel
    have h1 := hsel.1
    simp only [Bool.and_eq_true] at h1
    have := hlt q h1.1
    apply UI.skip_spec _ u c k q hi (by simp only [BV.build]; omega)
    have e : (fun i => bitAt (BV.build v after).bits i && decide (c ≤ i)) = (fun i => L.getD i false && decide (c ≤ i)) := by
      funext i; rw [hb]
    rw [e]; exact hsel
  · intro pos hpos hex
    obtain ⟨p, p1, p2⟩ := hex
    obtain ⟨r, r1, r2, r3, r4⟩ := BV.predecessor1_spec (BV.build v after) pos (by simp only [BV.build]; omega)
      ⟨p, p1, by rw [hb]; exact p2⟩
    refine ⟨r, r1, r2, by rw [← hb]; exact r3, ?_⟩
    intro i i1 i2
    rw [← hb]; exact r4 i i1 i2

example : Holds (builderOf [false, true, false, true]) [false, true, false, true] ∧ IsNext [false, true, false, true] 2 3 :=
  ⟨holds_builderOf _, by refine ⟨rfl, by decide, ?_⟩; intro i h1 h2; have : i = 2 := by omega
                         subst this; rfl⟩

/-- calls on a unary iterator -/
inductive ScanOp where
  | next
  | skip (k : Nat)

/-- the calls, on the model: the positions reached -/
def scanOps (v : BV) (u : UI) : List ScanOp → M (List Nat)
  | [] => .ok []
  | .next :: os => do
      let u ← UI.next v u
      let ps ← scanOps v u os
      .ok (u.position :: ps)
  | .skip k :: os => do
      let u ← UI.skip v u k
      let ps ← scanOps v u os
      .ok (u.position :: ps)

/-- The positions that the calls should reach in `L` when the bits before `c` have been passed: `next` goes to the first one
and passes it, `skip(k)` leaves `k` ones behind and stops in front of the following one. -/
inductive ScanTo (L : List Bool) : Nat → List ScanOp → List Nat → Prop
  | nil (c : Nat) : ScanTo L c [] []
  | next {c q : Nat} {os : List ScanOp} {ps : List Nat} : IsNext L c q → ScanTo L (q + 1) os ps → ScanTo L c (.next :: os) (q :: ps)
  | skip {c k q : Nat} {os : List ScanOp} {ps : List Nat} : c ≤ q → L.getD q false = true →
      ((L.drop c).take (q - c)).count true = k → ScanTo L q os ps → ScanTo L c (.skip k :: os) (q :: ps)

theorem cnt_from (L : List Bool) (c : Nat) : ∀ n, cnt (fun i => L.getD i false && decide (c ≤ i)) (c + n) =
    ((L.drop c).take n).count true := by
  intro n
  induction n with
  | zero =>
      rw [Nat.add_zero, List.take_zero, List.count_nil]
      apply cnt_zero
      intro i hi
      rw [decide_eq_false (by omega), Bool.and_false]
  | succ n ih =>
      rw [← Nat.add_assoc, cnt_succ, ih, decide_eq_true (by omega), Bool.and_true]
      by_cases hn : n < (L.drop c).length
      · rw [List.take_succ_eq_append_getElem hn, List.count_append, List.getElem_drop]
        rw [List.length_drop] at hn
        rw [List.getD_eq_getElem?_getD, List.getElem?_eq_getElem (by omega), Option.getD_some]
        cases L[c + n]'(by omega) <;> simp
      · rw [List.take_of_length_le (by omega), List.take_of_length_le (by omega)]
        rw [List.length_drop] at hn
        rw [getD_ge L _ (by omega)]
        simp

/-- **C22 (scanning)**, whole runs: any sequence of `next()` and `skip(k)` from any position reaches exactly the positions
that the content of the bit vector says, as long as the ones looked for exist. -/
theorem C22_scan (v : BVB) (L : List Bool) (h : Holds v L) (after : W) (c : Nat) (hc : c < L.length) (os : List ScanOp)
    (ps : List Nat) (ho : ScanTo L c os ps) :
    ∃ u, UI.mk' (BV.build v after) c = .ok u ∧ scanOps (BV.build v after) u os = .ok ps := by
  obtain ⟨h1, h2, h3, _⟩ := C22_unary v L h after
  obtain ⟨u, u1, u2, u3⟩ := h1 c hc
  refine ⟨u, u1, ?_⟩
  clear u1 u2 hc h1
  induction ho generalizing u with
  | nil c => rfl
  | next hn _ ih =>
      obtain ⟨u', a1, a2, a3⟩ := h2 u _ _ u3 hn
      simp only [scanOps, a1, M.ok_bind, ih u' a3, a2]
  | @skip c k q os ps hq hb hk _ ih =>
      obtain ⟨u', a1, a2, a3⟩ := h3 u c k q u3 (by
        refine ⟨by simp only [hb, decide_eq_true hq, Bool.and_self], ?_⟩
        have := cnt_from L c (q - c)
        rw [show c + (q - c) = q by omega] at this
        rw [this, hk])
      simp only [scanOps, a1, M.ok_bind, ih u' a3, a2]

/-- a run of calls: the one at 3, then over the one at 5 to that at 6, then that one itself -/
example : ScanTo [true, false, false, true, false, true, true] 1 [.next, .skip 1, .next] [3, 6, 6] := by
  have e : ∀ c q, c ≤ q → q < 7 → (∀ i, i < 7 → c ≤ i → i < q → [true, false, false, true, false, true, true].getD i false = false) →
      [true, false, false, true, false, true, true].getD q false = true →
      IsNext [true, false, false, true, false, true, true] c q :=
    fun c q h1 h2 h3 h4 => ⟨h4, h1, fun i a b => h3 i (by omega) a b⟩
  exact .next (e 1 3 (by decide) (by decide) (by decide) rfl)
    (.skip (by decide) rfl rfl (.next (e 6 6 (by decide) (by decide) (by decide) rfl) (.nil _)))

/-- **C22 (scanning)**, outside of the domain: `next()` after the last one reads outside of the buffer, in every bit vector -/
theorem C22_scan_end (v : BVB) (L : List Bool) (h : Holds v L) (after : W) (c : Nat) (hc : c < L.length)
    (hz : ∀ i, c ≤ i → L.getD i false = false) :
    ∃ u, UI.mk' (BV.build v after) c = .ok u ∧ UI.next (BV.build v after) u = .error .oob := by
  obtain ⟨u, u1, _, u3⟩ := (C22_unary v L h after).1 c hc
  exact ⟨u, u1, UI.next_end _ u c u3 (fun i hi => by
    have : bitAt (BV.build v after).bits i = L.getD i false := h.bits i
    rw [this, hz i hi])⟩

/-- **C22**, reading from the builder: `get_word64` returns the 64 bits at the position, with zeros after the end -/
theorem C22_builder_word (v : BVB) (L : List Bool) (h : Holds v L) (pos : Nat) (hp : pos < L.length) :
    ∃ w, v.getWord64 pos = .ok w ∧ ∀ j, j < 64 → w.getLsbD j = L.getD (pos + j) false := by
  have hl := h.wf.len
  have hs := h.size
  unfold wordsFor at hl
  obtain ⟨w, w1, w2⟩ := BV.getWord64_spec (BV.build v 0) pos (by simp only [BV.build]; omega)
  refine ⟨w, w1, fun j hj => ?_⟩
  rw [w2 j hj]
  exact h.bits _

/-- **C22**, `resize(n)` of a builder: the first bits are kept, the bits added are zeros -/
theorem C22_resize (v : BVB) (L : List Bool) (h : Holds v L) (n : Nat) (after : W) :
    (v.resize n).size = n ∧ ∀ i, i < n → (BV.build (v.resize n) after).get i = .ok (L.getD i false) := by
  obtain ⟨r1, r2, r3⟩ := BVB.resize_spec v n h.wf
  refine ⟨r2, ?_⟩
  intro i hi
  unfold wordsFor at r1
  rw [BV.get_spec _ _ (by simp only [BV.build]; omega)]
  show Except.ok (bitAt (v.resize n).bits i) = _
  rw [r3 i hi, h.bits]

/-- a builder that holds 70 bits, to be made shorter or longer -/
example : Holds (builderOf (List.replicate 35 true ++ List.replicate 35 false))
    (List.replicate 35 true ++ List.replicate 35 false) := holds_builderOf _

/-! ## Codes -/

/-- write several numbers -/
def writeAll (wr : BVB → W → M BVB) (v : BVB) : List W → M BVB
  | [] => .ok v
  | n :: ns => do
      let v ← wr v n
      writeAll wr v ns

/-- read several numbers -/
def readAll (r : BV → BI → M (W × BI)) (v : BV) (it : BI) : Nat → M (List W × BI)
  | 0 => .ok ([], it)
  | k + 1 => do
      let (n, it) ← r v it
      let (ns, it) ← readAll r v it k
      .ok (n :: ns, it)

/-- a code whose writer and reader agree on a predicate `At` -/
theorem code_roundtrip (wr : BVB → W → M BVB) (r : BV → BI → M (W × BI)) (At : List W → Nat → W → Prop) (len : W → Nat)
    (hw : ∀ v n, v.WF → n + 1 ≠ 0 → ∃ v', wr v n = .ok v' ∧ v'.WF ∧ v'.size = v.size + len n ∧
      (∀ i, i < v.size → bitAt v'.bits i = bitAt v.bits i) ∧ At v'.bits v.size n)
    (hr : ∀ v b n, BI.Inv v b → At v.bits b.pos n → b.pos + len n ≤ 64 * v.bits.length →
      ∃ b', r v b = .ok (n, b') ∧ b'.pos = b.pos + len n ∧ b'.Inv v)
    (hcongr : ∀ ws vs p n, (∀ i, p ≤ i → i < p + len n → bitAt ws i = bitAt vs i) → At ws p n → At vs p n) :
    ∀ (ns : List W) (v : BVB), v.WF → (∀ n ∈ ns, n + 1 ≠ 0) →
      ∃ v', writeAll wr v ns = .ok v' ∧ v'.WF ∧ v.size ≤ v'.size ∧ (∀ i, i < v.size → bitAt v'.bits i = bitAt v.bits i) ∧
        ∀ (u : BV) (b : BI), b.Inv u → b.pos = v.size → v'.size ≤ 64 * u.bits.length →
          (∀ i, v.size ≤ i → i < v'.size → bitAt u.bits i = bitAt v'.bits i) →
          ∃ b', readAll r u b ns.length = .ok (ns, b') ∧ b'.pos = v'.size := by
  intro ns
  induction ns with
  | nil =>
      intro v h _
      refine ⟨v, rfl, h, Nat.le_refl _, fun _ _ => rfl, ?_⟩
      intro u b _ hb _ _
      exact ⟨b, rfl, hb⟩
  | cons n ns ih =>
      intro v h hn
      obtain ⟨v1, a1, a2, a3, a4, a5⟩ := hw v n h (hn n (by simp))
      obtain ⟨v2, b1, b2, b3, b4, b5⟩ := ih v1 a2 (fun m hm => hn m (by simp [hm]))
      refine ⟨v2, by simp only [writeAll, a1, M.ok_bind, b1], b2, by omega, ?_, ?_⟩
      · intro i hi
        rw [b4 i (by omega), a4 i hi]
      · intro u b c1 c2 c3 c4
        have hat : At u.bits b.pos n := by
          rw [c2]
          apply hcongr v1.bits _ _ _ _ a5
          intro i i1 i2
          rw [c4 i i1 (by omega), b4 i (by omega)]
        obtain ⟨b', d1, d2, d3⟩ := hr u b n c1 hat (by omega)
        obtain ⟨b'', e1, e2⟩ := b5 u b' d3 (by omega) c3 (by
          intro i i1 i2
          exact c4 i (by omega) i2)
        refine ⟨b'', ?_, e2⟩
        simp only [readAll, List.length_cons, d1, M.ok_bind, e1]

theorem GammaAt.congr (ws vs : List W) (p : Nat) (n : W)
    (h : ∀ i, p ≤ i → i < p + gammaLen n → bitAt ws i = bitAt vs i) (hg : GammaAt ws p n) : GammaAt vs p n := by
  unfold GammaAt at hg ⊢
  unfold gammaLen at h
  simp only at hg ⊢
  obtain ⟨g0, g1, g2, g3⟩ := hg
  refine ⟨g0, ?_, ?_, ?_⟩
  · intro j hj; rw [← h _ (by omega) (by omega), g1 j hj]
  · rw [← h _ (by omega) (by omega), g2]
  · intro j hj; rw [← h _ (by omega) (by omega), g3 j hj]

theorem DeltaAt.congr (ws vs : List W) (p : Nat) (n : W)
    (h : ∀ i, p ≤ i → i < p + deltaLen n → bitAt ws i = bitAt vs i) (hg : DeltaAt ws p n) : DeltaAt vs p n := by
  unfold DeltaAt at hg ⊢
  unfold deltaLen at h
  simp only at hg ⊢
  obtain ⟨g0, g1, g2⟩ := hg
  refine ⟨g0, GammaAt.congr _ _ _ _ (by intro i i1 i2; exact h i i1 (by omega)) g1, ?_⟩
  intro j hj; rw [← h _ (by omega) (by omega), g2 j hj]

/-- **C21 (gamma).** Numbers below `2^64 - 1` written after any bits and followed by any bits are read back, the iterator
stopping exactly after the last bit written. -/
theorem C21_gamma (v : BVB) (hv : v.WF) (ns : List W) (hn : ∀ n ∈ ns, n.toNat < 2 ^ 64 - 1) :
    ∃ v', writeAll writeGamma v ns = .ok v' ∧ v'.WF ∧ v.size ≤ v'.size ∧
      (∀ i, i < v.size → bitAt v'.bits i = bitAt v.bits i) ∧
      ∀ (more : List Bool) (after : W), ∃ u it, v'.append (builderOf more) = .ok u ∧
        readAll readGamma (BV.build u after) (BI.mk' v.size) ns.length = .ok (ns, it) ∧ it.pos = v'.size := by
  obtain ⟨v', h1, h2, h3, h4, h5⟩ := code_roundtrip writeGamma readGamma GammaAt gammaLen writeGamma_spec readGamma_spec
    (fun ws vs p n => GammaAt.congr ws vs p n) ns v hv (by
      intro n hm e
      have := hn n hm
      have := congrArg BitVec.toNat e
      rw [BitVec.toNat_add, show (1 : W).toNat = 1 from rfl, show (0 : W).toNat = 0 from rfl] at this
      omega)
  refine ⟨v', h1, h2, h3, h4, ?_⟩
  intro more after
  obtain ⟨u, u1, u2, u3, u4⟩ := BVB.append_spec v' (builderOf more) h2 (holds_builderOf more).wf
  have hl := u2.len
  unfold wordsFor at hl
  obtain ⟨it, i1, i2⟩ := h5 (BV.build u after) (BI.mk' v.size) (BI.mk'_inv _ _) rfl (by simp only [BV.build]; omega) (by
    intro i i1 i2
    simp only [BV.build]
    rw [u4, if_pos i2])
  exact ⟨u, it, u1, i1, i2⟩

/-- **C21 (delta).** -/
theorem C21_delta (v : BVB) (hv : v.WF) (ns : List W) (hn : ∀ n ∈ ns, n.toNat < 2 ^ 64 - 1) :
    ∃ v', writeAll writeDelta v ns = .ok v' ∧ v'.WF ∧ v.size ≤ v'.size ∧
      (∀ i, i < v.size → bitAt v'.bits i = bitAt v.bits i) ∧
      ∀ (more : List Bool) (after : W), ∃ u it, v'.append (builderOf more) = .ok u ∧
        readAll readDelta (BV.build u after) (BI.mk' v.size) ns.length = .ok (ns, it) ∧ it.pos = v'.size := by
  obtain ⟨v', h1, h2, h3, h4, h5⟩ := code_roundtrip writeDelta readDelta DeltaAt deltaLen writeDelta_spec readDelta_spec
    (fun ws vs p n => DeltaAt.congr ws vs p n) ns v hv (by
      intro n hm e
      have := hn n hm
      have := congrArg BitVec.toNat e
      rw [BitVec.toNat_add, show (1 : W).toNat = 1 from rfl, show (0 : W).toNat = 0 from rfl] at this
      omega)
  refine ⟨v', h1, h2, h3, h4, ?_⟩
  intro more after
  obtain ⟨u, u1, u2, u3, u4⟩ := BVB.append_spec v' (builderOf more) h2 (holds_builderOf more).wf
  have hl := u2.len
  unfold wordsFor at hl
  obtain ⟨it, i1, i2⟩ := h5 (BV.build u after) (BI.mk' v.size) (BI.mk'_inv _ _) rfl (by simp only [BV.build]; omega) (by
    intro i i1 i2
    simp only [BV.build]
    rw [u4, if_pos i2])
  exact ⟨u, it, u1, i1, i2⟩

example : (builderOf [true, false, true]).WF ∧ ∀ n ∈ [(0 : W), 1, 5, 0xfffffffffffffffe], n.toNat < 2 ^ 64 - 1 :=
  ⟨(holds_builderOf _).wf, by simp⟩

end AC.Props
