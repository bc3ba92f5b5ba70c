import Verif.Model.Visit
import Verif.Model.Sizes
import Verif.Proofs.Alike
/-!
# Saving and loading
-/
namespace AC
open Visitor

/-! ## Numbers in bytes -/

/-- `t` is a list of `n` bytes -/
def IsBytes (n : Nat) (t : List Nat) : Prop := t.length = n ∧ ∀ b ∈ t, b < 256

theorem IsBytes.append {n m : Nat} {t u : List Nat} (h : IsBytes n t) (k : IsBytes m u) : IsBytes (n + m) (t ++ u) := by
  refine ⟨by simp [h.1, k.1], fun b hb => ?_⟩
  rcases List.mem_append.mp hb with hb | hb
  · exact h.2 b hb
  · exact k.2 b hb

theorem le_bytes : ∀ (w x : Nat), IsBytes w (le w x)
  | 0, _ => ⟨rfl, by simp [le]⟩
  | w + 1, x => by
      obtain ⟨h1, h2⟩ := le_bytes w (x / 256)
      refine ⟨by simp [le, h1], ?_⟩
      intro b hb
      simp only [le, List.mem_cons] at hb
      rcases hb with rfl | hb
      · omega
      · exact h2 b hb

theorem ofLe_le : ∀ (w x : Nat), ofLe (le w x) = x % 256 ^ w
  | 0, x => by simp [le, ofLe, Nat.mod_one]
  | w + 1, x => by
      simp only [le, ofLe]
      rw [ofLe_le w (x / 256), Nat.pow_succ, Nat.mul_comm (256 ^ w) 256, Nat.mod_mul]

theorem le_ofLe : ∀ (t : List Nat), (∀ b ∈ t, b < 256) → le t.length (ofLe t) = t
  | [], _ => rfl
  | b :: t, h => by
      have hb := h b (List.mem_cons_self ..)
      have ih := le_ofLe t (fun c hc => h c (List.mem_cons_of_mem _ hc))
      simp only [List.length_cons, le, ofLe]
      rw [show (b + 256 * ofLe t) % 256 = b by omega, show (b + 256 * ofLe t) / 256 = ofLe t by omega, ih]

theorem ofLeInt_leInt {w : Nat} {x : Int} (h1 : -(256 : Int) ^ w ≤ 2 * x) (h2 : 2 * x < (256 : Int) ^ w) : ofLeInt (leInt w x) = x := by
  have hp : (0 : Int) < 256 ^ w := Int.pow_pos (by decide)
  unfold ofLeInt leInt
  rw [(le_bytes _ _).1, ofLe_le]
  have e0 := Int.emod_nonneg x (Int.ne_of_gt hp)
  have e1 := Int.emod_lt_of_pos x hp
  have hc : ((256 ^ w : Nat) : Int) = (256 : Int) ^ w := by simp
  have : (((x % (256 : Int) ^ w).toNat % 256 ^ w : Nat) : Int) = x % (256 : Int) ^ w := by
    rw [Int.natCast_emod, Int.toNat_of_nonneg e0, hc, Int.emod_emod_of_dvd _ (Int.dvd_refl _)]
  rw [this, ← hc, Int.emod_bmod]
  have hw : 256 ^ w % 2 = 0 ∨ w = 0 := by
    cases w with
    | zero => right; rfl
    | succ w => left; rw [Nat.pow_succ]; omega
  rcases hw with hw | rfl
  · apply Int.bmod_eq_of_le <;> omega
  · have hx : x = 0 := by simp at h1 h2; omega
    subst hx; rfl

/-- Visiting `x` with the saver appends `n` bytes `t` to the file; visiting `d` with the loader, `t` coming next in the file, gives `y`, provided
that the numbers in `x` are in the range of their types (`P`); visiting `y` with the saver appends the same bytes. -/
def Trip {α : Type} (f : {σ : Type} → Visitor σ → α → σ → M (α × σ)) (x d y : α) (n : Nat) (P : Prop) : Prop :=
  ∃ t, (∀ s, f saver x s = .ok (x, s ++ t)) ∧ (∀ s, f saver y s = .ok (y, s ++ t)) ∧ IsBytes n t ∧ (P → ∀ r, f loader d (t ++ r) = .ok (y, r))

namespace Trip

theorem nat (w x d : Nat) : Trip (fun V => V.nat w) x d x w (x < 256 ^ w) := by
  refine ⟨le w x, fun _ => rfl, fun _ => rfl, le_bytes w x, fun h r => ?_⟩
  have hl := (le_bytes w x).1
  show (if w ≤ (le w x ++ r).length then Except.ok (ofLe ((le w x ++ r).take w), (le w x ++ r).drop w) else _) = _
  rw [if_pos (by rw [List.length_append, hl]; omega), List.take_append_of_le_length (by omega), List.take_of_length_le (by omega), ofLe_le,
    Nat.mod_eq_of_lt h, List.drop_append_of_le_length (by omega), List.drop_of_length_le (by omega), List.nil_append]

theorem int (w : Nat) (x d : Int) : Trip (fun V => V.int w) x d x w (-(256 : Int) ^ w ≤ 2 * x ∧ 2 * x < (256 : Int) ^ w) := by
  have hb : IsBytes w (leInt w x) := le_bytes _ _
  refine ⟨leInt w x, fun _ => rfl, fun _ => rfl, hb, fun h r => ?_⟩
  have hl := hb.1
  show (if w ≤ (leInt w x ++ r).length then Except.ok (ofLeInt ((leInt w x ++ r).take w), (leInt w x ++ r).drop w) else _) = _
  rw [if_pos (by rw [List.length_append, hl]; omega), List.take_append_of_le_length (by omega), List.take_of_length_le (by omega),
    ofLeInt_leInt h.1 h.2, List.drop_append_of_le_length (by omega), List.drop_of_length_le (by omega), List.nil_append]

theorem word (x d : W) : Trip (fun V => V.word) x d x 8 True := by
  refine ⟨le 8 x.toNat, fun _ => rfl, fun _ => rfl, le_bytes _ _, fun _ r => ?_⟩
  have hl := (le_bytes 8 x.toNat).1
  show (if 8 ≤ (le 8 x.toNat ++ r).length then Except.ok (BitVec.ofNat 64 (ofLe ((le 8 x.toNat ++ r).take 8)), (le 8 x.toNat ++ r).drop 8) else Except.error Fault.oob) = _
  rw [if_pos (by rw [List.length_append, hl]; omega), List.take_append_of_le_length (by omega), List.take_of_length_le (by omega), ofLe_le,
    Nat.mod_eq_of_lt (by have := x.isLt; omega), List.drop_append_of_le_length (by omega), List.drop_of_length_le (by omega), List.nil_append,
    BitVec.ofNat_toNat, BitVec.setWidth_eq]

theorem mono {α : Type} {f : {σ : Type} → Visitor σ → α → σ → M (α × σ)} {x d y : α} {n : Nat} {P Q : Prop} (h : Trip f x d y n P) (hq : Q → P) :
    Trip f x d y n Q := by
  obtain ⟨t, a, c, l, b⟩ := h
  exact ⟨t, a, c, l, fun q => b (hq q)⟩

theorem resize_length {α : Type} (d : α) (xs : List α) : Visitor.resize d xs.length xs = xs := by
  simp [Visitor.resize]

/-- vectors: whatever was in the vector is replaced -/
theorem vec {α : Type} {f : {σ : Type} → Visitor σ → α → σ → M (α × σ)} {d : α} {n : α → Nat} {P : α → Prop} {xs : List α}
    (h : ∀ x ∈ xs, Trip f x d x (n x) (P x)) :
    Trip (fun V => V.vec d (f V)) xs [] xs (8 + (xs.map n).sum) (xs.length < 2 ^ 64 ∧ ∀ x ∈ xs, P x) := by
  have key : ∀ xs : List α, (∀ x ∈ xs, Trip f x d x (n x) (P x)) → ∃ t, (∀ s, each (f saver) xs s = .ok (xs, s ++ t)) ∧
      IsBytes ((xs.map n).sum) t ∧
      ((∀ x ∈ xs, P x) → ∀ r, each (f loader) (List.replicate xs.length d) (t ++ r) = .ok (xs, r)) := by
    intro xs
    induction xs with
    | nil => intro _; exact ⟨[], fun s => by simp [each], ⟨rfl, by simp⟩, fun _ r => rfl⟩
    | cons x xs ih =>
        intro h
        obtain ⟨t1, a1, _, l1, b1⟩ := h x (List.mem_cons_self ..)
        obtain ⟨t2, a2, l2, b2⟩ := ih (fun y hy => h y (List.mem_cons_of_mem _ hy))
        refine ⟨t1 ++ t2, fun s => ?_, ?_, fun hp r => ?_⟩
        · simp only [each, a1, a2, M.ok_bind, List.append_assoc]
        · rw [List.map_cons, List.sum_cons]; exact l1.append l2
        · have b1 := b1 (hp x (List.mem_cons_self ..))
          have b2 := b2 (fun y hy => hp y (List.mem_cons_of_mem _ hy))
          simp only [List.length_cons, List.replicate_succ, each, List.append_assoc, b1, b2, M.ok_bind]
  obtain ⟨t, a, l, b⟩ := key xs h
  obtain ⟨t0, a0, _, l0, b0⟩ := nat 8 xs.length 0
  have w : ∀ s, Visitor.vec saver d (f saver) xs s = .ok (xs, s ++ (t0 ++ t)) := fun s => by
    simp only [Visitor.vec, a0, M.ok_bind, resize_length, a, List.append_assoc]
  refine ⟨t0 ++ t, w, w, l0.append l, fun hp r => ?_⟩
  · have b0 := b0 (by have := hp.1; omega)
    simp only [Visitor.vec, List.append_assoc, List.length_nil, b0, M.ok_bind, Visitor.resize, List.take_nil, List.nil_append, Nat.sub_zero]
    exact b hp.2 r

theorem sum_const {α : Type} (w : Nat) : ∀ (xs : List α), (xs.map (fun _ => w)).sum = xs.length * w
  | [] => by simp
  | x :: xs => by rw [List.map_cons, List.sum_cons, sum_const w xs, List.length_cons, Nat.add_mul]; omega

theorem nats (w : Nat) (xs : List Nat) :
    Trip (fun V => V.nats w) xs [] xs (vecBytes w xs.length) (xs.length < 2 ^ 64 ∧ ∀ x ∈ xs, x < 256 ^ w) := by
  have := vec (f := fun V => V.nat w) (d := 0) (n := fun _ => w) (P := fun x => x < 256 ^ w) (xs := xs) (fun x _ => nat w x 0)
  rw [sum_const] at this
  exact this

theorem ints (w : Nat) (xs : List Int) : Trip (fun V => V.ints w) xs [] xs (vecBytes w xs.length)
    (xs.length < 2 ^ 64 ∧ ∀ x ∈ xs, -(256 : Int) ^ w ≤ 2 * x ∧ 2 * x < (256 : Int) ^ w) := by
  have := vec (f := fun V => V.int w) (d := 0) (n := fun _ => w) (P := fun x => -(256 : Int) ^ w ≤ 2 * x ∧ 2 * x < (256 : Int) ^ w) (xs := xs)
    (fun x _ => int w x 0)
  rw [sum_const] at this
  exact this

theorem words (xs : List W) : Trip (fun V => V.words) xs [] xs (vecBytes 8 xs.length) (xs.length < 2 ^ 64) := by
  have := vec (f := fun V => V.word) (d := 0) (n := fun _ => 8) (P := fun _ => True) (xs := xs) (fun x _ => word x 0)
  rw [sum_const] at this
  exact this.mono (fun h => ⟨h, fun _ _ => trivial⟩)

/-! The numbers of a structure are in the range of their types. -/

def _root_.AC.BV.Fits (x : BV) : Prop := x.size < 2 ^ 64 ∧ x.bits.length < 2 ^ 64

theorem bv (x : BV) (a : W) : Trip (fun V => V.bv) x (BV.blank a) { x with after := a } x.bytes x.Fits := by
  obtain ⟨t1, a1, c1, l1, b1⟩ := nat 8 x.size 0
  obtain ⟨t2, a2, c2, l2, b2⟩ := words x.bits
  refine ⟨t1 ++ t2, fun s => ?_, fun s => ?_, ?_, fun h r => ?_⟩
  · simp only [Visitor.bv, a1, a2, M.ok_bind, List.append_assoc]
  · simp only [Visitor.bv, c1, c2, M.ok_bind, List.append_assoc]
  · exact l1.append l2
  · have b1 := b1 h.1
    have b2 := b2 h.2
    simp only [Visitor.bv, BV.blank, b1, b2, M.ok_bind, List.append_assoc]

def _root_.AC.CV.Fits (x : CV) : Prop := x.size < 2 ^ 64 ∧ x.width < 2 ^ 64 ∧ x.bits.length < 2 ^ 64

theorem cv (x : CV) (a : W) : Trip (fun V => V.cv) x (CV.blank a) { x with after := a } x.bytes x.Fits := by
  obtain ⟨t1, a1, c1, l1, b1⟩ := nat 8 x.size 0
  obtain ⟨t2, a2, c2, l2, b2⟩ := nat 8 x.width 0
  obtain ⟨t3, a3, c3, l3, b3⟩ := word x.mask 0
  obtain ⟨t4, a4, c4, l4, b4⟩ := words x.bits
  refine ⟨t1 ++ (t2 ++ (t3 ++ t4)), fun s => ?_, fun s => ?_, ?_, fun h r => ?_⟩
  · simp only [Visitor.cv, a1, a2, a3, a4, M.ok_bind, List.append_assoc]
  · simp only [Visitor.cv, c1, c2, c3, c4, M.ok_bind, List.append_assoc]
  · have := l1.append (l2.append (l3.append l4))
    unfold CV.bytes
    rwa [← Nat.add_assoc, ← Nat.add_assoc] at this
  · have b1 := b1 h.1
    have b2 := b2 h.2.1
    have b3 := b3 trivial
    have b4 := b4 h.2.2
    simp only [Visitor.cv, CV.blank, b1, b2, b3, b4, M.ok_bind, List.append_assoc]

structure _root_.AC.DA.Fits (x : DA) : Prop where
  positions : x.positions < 2 ^ 64
  blocksLen : x.blocks.length < 2 ^ 64
  blocks : ∀ b ∈ x.blocks, -2 ^ 63 ≤ b ∧ b < 2 ^ 63
  subsLen : x.subs.length < 2 ^ 64
  subs : ∀ b ∈ x.subs, b < 2 ^ 16
  overLen : x.over.length < 2 ^ 64
  over : ∀ b ∈ x.over, b < 2 ^ 64

theorem da (x : DA) : Trip (fun V => V.da) x ⟨0, [], [], []⟩ x x.bytes x.Fits := by
  obtain ⟨t1, a1, c1, l1, b1⟩ := nat 8 x.positions 0
  obtain ⟨t2, a2, c2, l2, b2⟩ := ints 8 x.blocks
  obtain ⟨t3, a3, c3, l3, b3⟩ := nats 2 x.subs
  obtain ⟨t4, a4, c4, l4, b4⟩ := nats 8 x.over
  refine ⟨t1 ++ (t2 ++ (t3 ++ t4)), fun s => ?_, fun s => ?_, ?_, fun h r => ?_⟩
  · simp only [Visitor.da, a1, a2, a3, a4, M.ok_bind, List.append_assoc]
  · simp only [Visitor.da, a1, a2, a3, a4, M.ok_bind, List.append_assoc]
  · have := l1.append (l2.append (l3.append l4))
    unfold DA.bytes
    rwa [← Nat.add_assoc, ← Nat.add_assoc] at this
  · have b1 := b1 h.positions
    have b2 := b2 ⟨h.blocksLen, fun b hb => by have := h.blocks b hb; omega⟩
    have b3 := b3 ⟨h.subsLen, h.subs⟩
    have b4 := b4 ⟨h.overLen, h.over⟩
    simp only [Visitor.da, b1, b2, b3, b4, M.ok_bind, List.append_assoc]

/-- a sequence built by the code: the memory after its buffers is not looked at -/
def _root_.AC.EF.Plain (x : EF) : Prop := x.high.after = 0 ∧ x.low.after = 0

structure _root_.AC.EF.Fits (x : EF) : Prop where
  plain : x.Plain
  l : x.l < 256
  high : x.high.Fits
  d1 : x.d1.Fits
  low : x.low.Fits
  size : x.size < 2 ^ 64

theorem ef (x : EF) : Trip (fun V => V.ef) x EF.blank x x.bytes x.Fits := by
  obtain ⟨t1, a1, c1, l1, b1⟩ := nat 1 x.l 0
  obtain ⟨t2, a2, c2, l2, b2⟩ := bv x.high 0
  obtain ⟨t3, a3, c3, l3, b3⟩ := da x.d1
  obtain ⟨t4, a4, c4, l4, b4⟩ := bv x.low 0
  obtain ⟨t5, a5, c5, l5, b5⟩ := nat 8 x.size 0
  refine ⟨t1 ++ (t2 ++ (t3 ++ (t4 ++ t5))), fun s => ?_, fun s => ?_, ?_, fun h r => ?_⟩
  · simp only [Visitor.ef, a1, a2, a3, a4, a5, M.ok_bind, List.append_assoc]
  · simp only [Visitor.ef, a1, a2, a3, a4, a5, M.ok_bind, List.append_assoc]
  · have := l1.append (l2.append (l3.append (l4.append l5)))
    unfold EF.bytes
    rwa [← Nat.add_assoc, ← Nat.add_assoc, ← Nat.add_assoc] at this
  · have b1 := b1 h.l
    have b2 := b2 h.high
    have b3 := b3 h.d1
    have b4 := b4 h.low
    have b5 := b5 h.size
    have e1 : ({ x.high with after := 0 } : BV) = x.high := by rw [← h.plain.1]
    have e2 : ({ x.low with after := 0 } : BV) = x.low := by rw [← h.plain.2]
    rw [e1] at b2
    rw [e2] at b4
    simp only [Visitor.ef, EF.blank, b1, b2, b3, b4, b5, M.ok_bind, List.append_assoc]

/-- a tree with other words in the memory after its bits -/
def _root_.AC.BP.put (x : BP) (a : W) : BP := { x with rs := { x.rs with bv := { x.rs.bv with after := a } } }

structure _root_.AC.BP.Fits (x : BP) : Prop where
  bv : x.rs.bv.Fits
  pairs : x.rs.pairs.length < 2 ^ 64
  hints : x.rs.hints.length < 2 ^ 64 ∧ ∀ b ∈ x.rs.hints, b < 2 ^ 64
  hints0 : x.rs.hints0.length < 2 ^ 64 ∧ ∀ b ∈ x.rs.hints0, b < 2 ^ 64
  internal : x.internal < 2 ^ 64
  blockMin : x.blockMin.length < 2 ^ 64 ∧ ∀ b ∈ x.blockMin, -2 ^ 15 ≤ b ∧ b < 2 ^ 15
  superMin : x.superMin.length < 2 ^ 64 ∧ ∀ b ∈ x.superMin, -2 ^ 31 ≤ b ∧ b < 2 ^ 31

theorem bp (x : BP) (a : W) : Trip (fun V => V.bp) x (BP.blank a) (x.put a) x.bytes x.Fits := by
  obtain ⟨t1, a1, c1, l1, b1⟩ := bv x.rs.bv a
  obtain ⟨t2, a2, c2, l2, b2⟩ := words x.rs.pairs
  obtain ⟨t3, a3, c3, l3, b3⟩ := nats 8 x.rs.hints
  obtain ⟨t4, a4, c4, l4, b4⟩ := nats 8 x.rs.hints0
  obtain ⟨t5, a5, c5, l5, b5⟩ := nat 8 x.internal 0
  obtain ⟨t6, a6, c6, l6, b6⟩ := ints 2 x.blockMin
  obtain ⟨t7, a7, c7, l7, b7⟩ := ints 4 x.superMin
  refine ⟨t1 ++ (t2 ++ (t3 ++ (t4 ++ (t5 ++ (t6 ++ t7))))), fun s => ?_, fun s => ?_, ?_, fun h r => ?_⟩
  · simp only [Visitor.bp, Visitor.rs, a1, a2, a3, a4, a5, a6, a7, M.ok_bind, List.append_assoc]
  · simp only [Visitor.bp, Visitor.rs, c1, c2, c3, c4, c5, c6, c7, BP.put, M.ok_bind, List.append_assoc]
  · have := l1.append (l2.append (l3.append (l4.append (l5.append (l6.append l7)))))
    unfold BP.bytes RS.bytes
    rwa [← Nat.add_assoc, ← Nat.add_assoc, ← Nat.add_assoc, ← Nat.add_assoc, ← Nat.add_assoc] at this
  · have b1 := b1 h.bv
    have b2 := b2 h.pairs
    have b3 := b3 h.hints
    have b4 := b4 h.hints0
    have b5 := b5 h.internal
    have b6 := b6 ⟨h.blockMin.1, fun b hb => by have := h.blockMin.2 b hb; omega⟩
    have b7 := b7 ⟨h.superMin.1, fun b hb => by have := h.superMin.2 b hb; omega⟩
    simp only [Visitor.bp, Visitor.rs, BP.blank, BP.put, b1, b2, b3, b4, b5, b6, b7, M.ok_bind, List.append_assoc]

/-- a list with other words in the memory after its buffers -/
def _root_.AC.UL.put (x : UL) (a1 a2 : W) : UL := ⟨x.rmq.put a1, { x.list with after := a2 }⟩

def _root_.AC.UL.Fits (x : UL) : Prop := x.rmq.Fits ∧ x.list.Fits

theorem ul (x : UL) (a b : W) : Trip (fun V => V.ul) x (UL.blank a b) (x.put a b) x.bytes x.Fits := by
  obtain ⟨t1, a1, c1, l1, b1⟩ := bp x.rmq a
  obtain ⟨t2, a2, c2, l2, b2⟩ := cv x.list b
  refine ⟨t1 ++ t2, fun s => ?_, fun s => ?_, l1.append l2, fun h r => ?_⟩
  · simp only [Visitor.ul, a1, a2, M.ok_bind, List.append_assoc]
  · simp only [Visitor.ul, c1, c2, UL.put, M.ok_bind, List.append_assoc]
  · have b1 := b1 h.1
    have b2 := b2 h.2
    simp only [Visitor.ul, UL.blank, UL.put, b1, b2, M.ok_bind, List.append_assoc]

structure _root_.AC.FC.Fits (p c : Nat) (x : FC) : Prop where
  size : x.size < 2 ^ 64
  ptrHeaders : x.ptrHeaders.length < 2 ^ 64 ∧ ∀ b ∈ x.ptrHeaders, b < 256 ^ p
  ptrBuckets : x.ptrBuckets.length < 2 ^ 64 ∧ ∀ b ∈ x.ptrBuckets, b < 256 ^ p
  headers : x.headers.length < 2 ^ 64 ∧ ∀ b ∈ x.headers, b < 256 ^ c
  buckets : x.buckets.length < 2 ^ 64 ∧ ∀ b ∈ x.buckets, b < 256

theorem fc (p c : Nat) (x : FC) : Trip (fun V => V.fc p c) x FC.blank x (x.bytes p c) (x.Fits p c) := by
  obtain ⟨t1, a1, c1, l1, b1⟩ := nat 8 x.size 0
  obtain ⟨t2, a2, c2, l2, b2⟩ := nats p x.ptrHeaders
  obtain ⟨t3, a3, c3, l3, b3⟩ := nats p x.ptrBuckets
  obtain ⟨t4, a4, c4, l4, b4⟩ := nats c x.headers
  obtain ⟨t5, a5, c5, l5, b5⟩ := nats 1 x.buckets
  refine ⟨t1 ++ (t2 ++ (t3 ++ (t4 ++ t5))), fun s => ?_, fun s => ?_, ?_, fun h r => ?_⟩
  · simp only [Visitor.fc, a1, a2, a3, a4, a5, M.ok_bind, List.append_assoc]
  · simp only [Visitor.fc, a1, a2, a3, a4, a5, M.ok_bind, List.append_assoc]
  · have := l1.append (l2.append (l3.append (l4.append l5)))
    unfold FC.bytes
    rwa [← Nat.add_assoc, ← Nat.add_assoc, ← Nat.add_assoc] at this
  · have b1 := b1 h.size
    have b2 := b2 h.ptrHeaders
    have b3 := b3 h.ptrBuckets
    have b4 := b4 h.headers
    have b5 := b5 h.buckets
    simp only [Visitor.fc, FC.blank, b1, b2, b3, b4, b5, M.ok_bind, List.append_assoc]

structure _root_.AC.InvIdx.Fits (x : InvIdx) : Prop where
  numIntegers : x.numIntegers < 2 ^ 64
  numDocs : x.numDocs < 2 ^ 64
  pointers : x.pointers.Fits
  data : x.data.Fits

theorem inv (x : InvIdx) (a : W) :
    Trip (fun V => V.inv) x (InvIdx.blank a) { x with data := { x.data with after := a } } x.bytes x.Fits := by
  obtain ⟨t1, a1, c1, l1, b1⟩ := nat 8 x.numIntegers 0
  obtain ⟨t2, a2, c2, l2, b2⟩ := nat 8 x.numDocs 0
  obtain ⟨t3, a3, c3, l3, b3⟩ := ef x.pointers
  obtain ⟨t4, a4, c4, l4, b4⟩ := bv x.data a
  refine ⟨t1 ++ (t2 ++ (t3 ++ t4)), fun s => ?_, fun s => ?_, ?_, fun h r => ?_⟩
  · simp only [Visitor.inv, a1, a2, a3, a4, M.ok_bind, List.append_assoc]
  · simp only [Visitor.inv, c1, c2, c3, c4, M.ok_bind, List.append_assoc]
  · have := l1.append (l2.append (l3.append l4))
    unfold InvIdx.bytes
    rwa [← Nat.add_assoc, ← Nat.add_assoc] at this
  · have b1 := b1 h.numIntegers
    have b2 := b2 h.numDocs
    have b3 := b3 h.pointers
    have b4 := b4 h.data
    simp only [Visitor.inv, InvIdx.blank, b1, b2, b3, b4, M.ok_bind, List.append_assoc]

structure _root_.AC.FwdIdx.Fits (x : FwdIdx) : Prop where
  numIntegers : x.numIntegers < 2 ^ 64
  numTerms : x.numTerms < 2 ^ 64
  pointers : x.pointers.Fits
  data : x.data.Fits

theorem fwd (x : FwdIdx) (a : W) :
    Trip (fun V => V.fwd) x (FwdIdx.blank a) { x with data := { x.data with after := a } } x.bytes x.Fits := by
  obtain ⟨t1, a1, c1, l1, b1⟩ := nat 8 x.numIntegers 0
  obtain ⟨t2, a2, c2, l2, b2⟩ := nat 8 x.numTerms 0
  obtain ⟨t3, a3, c3, l3, b3⟩ := ef x.pointers
  obtain ⟨t4, a4, c4, l4, b4⟩ := cv x.data a
  refine ⟨t1 ++ (t2 ++ (t3 ++ t4)), fun s => ?_, fun s => ?_, ?_, fun h r => ?_⟩
  · simp only [Visitor.fwd, a1, a2, a3, a4, M.ok_bind, List.append_assoc]
  · simp only [Visitor.fwd, c1, c2, c3, c4, M.ok_bind, List.append_assoc]
  · have := l1.append (l2.append (l3.append l4))
    unfold FwdIdx.bytes
    rwa [← Nat.add_assoc, ← Nat.add_assoc] at this
  · have b1 := b1 h.numIntegers
    have b2 := b2 h.numTerms
    have b3 := b3 h.pointers
    have b4 := b4 h.data
    simp only [Visitor.fwd, FwdIdx.blank, b1, b2, b3, b4, M.ok_bind, List.append_assoc]

/-- a blocked index with other words in the memory after its buffers -/
def _root_.AC.BlkIdx.put (x : BlkIdx) (mem : Nat → W) : BlkIdx :=
  { x with lists := { x.lists with after := mem 0 }, offs := { x.offs with after := mem 1 }, terms := { x.terms with after := mem 2 } }

structure _root_.AC.BlkIdx.Fits (x : BlkIdx) : Prop where
  numIntegers : x.numIntegers < 2 ^ 64
  numDocs : x.numDocs < 2 ^ 64
  numTerms : x.numTerms < 2 ^ 64
  blocks : x.blocks.length < 2 ^ 64 ∧ ∀ b ∈ x.blocks, b < 2 ^ 32
  ptrLists : x.ptrLists.Fits
  lists : x.lists.Fits
  ptrOffs : x.ptrOffs.Fits
  offs : x.offs.Fits
  ptrTerms : x.ptrTerms.Fits
  terms : x.terms.Fits

theorem blk (x : BlkIdx) (mem : Nat → W) : Trip (fun V => V.blk) x (BlkIdx.blank mem) (x.put mem) x.bytes x.Fits := by
  obtain ⟨t1, a1, c1, l1, b1⟩ := nat 8 x.numIntegers 0
  obtain ⟨t2, a2, c2, l2, b2⟩ := nat 8 x.numDocs 0
  obtain ⟨t3, a3, c3, l3, b3⟩ := nat 8 x.numTerms 0
  obtain ⟨t4, a4, c4, l4, b4⟩ := nats 4 x.blocks
  obtain ⟨t5, a5, c5, l5, b5⟩ := ef x.ptrLists
  obtain ⟨t6, a6, c6, l6, b6⟩ := bv x.lists (mem 0)
  obtain ⟨t7, a7, c7, l7, b7⟩ := ef x.ptrOffs
  obtain ⟨t8, a8, c8, l8, b8⟩ := bv x.offs (mem 1)
  obtain ⟨t9, a9, c9, l9, b9⟩ := ef x.ptrTerms
  obtain ⟨t10, a10, c10, l10, b10⟩ := bv x.terms (mem 2)
  refine ⟨t1 ++ (t2 ++ (t3 ++ (t4 ++ (t5 ++ (t6 ++ (t7 ++ (t8 ++ (t9 ++ t10)))))))), fun s => ?_, fun s => ?_, ?_, fun h r => ?_⟩
  · simp only [Visitor.blk, a1, a2, a3, a4, a5, a6, a7, a8, a9, a10, M.ok_bind, List.append_assoc]
  · simp only [Visitor.blk, c1, c2, c3, c4, c5, c6, c7, c8, c9, c10, BlkIdx.put, M.ok_bind, List.append_assoc]
  · have := l1.append (l2.append (l3.append (l4.append (l5.append (l6.append (l7.append (l8.append (l9.append l10))))))))
    unfold BlkIdx.bytes
    simpa only [← Nat.add_assoc] using this
  · have b1 := b1 h.numIntegers
    have b2 := b2 h.numDocs
    have b3 := b3 h.numTerms
    have b4 := b4 h.blocks
    have b5 := b5 h.ptrLists
    have b6 := b6 h.lists
    have b7 := b7 h.ptrOffs
    have b8 := b8 h.offs
    have b9 := b9 h.ptrTerms
    have b10 := b10 h.terms
    simp only [Visitor.blk, BlkIdx.blank, BlkIdx.put, b1, b2, b3, b4, b5, b6, b7, b8, b9, b10, M.ok_bind, List.append_assoc]

/-- a trie built by the code: all levels but the last have pointers -/
def _root_.AC.Trie.Linked (x : List Trie.CLevel) : Prop := ∀ (i : Nat) (t : Trie.CLevel), x[i]? = some t → (t.ptrs.isSome ↔ i + 1 < x.length)

structure _root_.AC.Trie.Fits (m : Nat) (x : List Trie.CLevel) : Prop where
  size : m < 2 ^ 32
  levels : x.length < 2 ^ 64
  nodes : ∀ t ∈ x, t.nodes.Fits
  left : ∀ t ∈ x, t.left.Fits
  sizes : ∀ t ∈ x, t.sizes.Fits
  ptrs : ∀ t ∈ x, ∀ p, t.ptrs = some p → p.Fits

theorem filterMap_ptrs : ∀ (x : List Trie.CLevel), Trie.Linked x →
    ∀ (i : Nat) (t : Trie.CLevel), x[i]? = some t → (x.filterMap (·.ptrs))[i]? = t.ptrs
  | [], _, i, t, h => by simp at h
  | [u], hx, i, t, h => by
      have h0 := hx 0 u rfl
      cases i with
      | zero =>
          simp at h; subst h
          cases e : u.ptrs with
          | none => simp [e]
          | some p => simp [e] at h0
      | succ i => simp at h
  | u :: v :: x, hx, i, t, h => by
      have h0 := (hx 0 u rfl).mpr (by simp)
      obtain ⟨p, e⟩ := Option.isSome_iff_exists.mp h0
      rw [List.filterMap_cons_some e]
      cases i with
      | zero => simp at h; subst h; simp [e]
      | succ i =>
          simp only [List.getElem?_cons_succ] at h ⊢
          refine filterMap_ptrs (v :: x) (fun j w hw => ?_) i t h
          have := hx (j + 1) w (by simpa using hw)
          simp only [List.length_cons] at this ⊢
          rw [this]
          constructor <;> intro h <;> omega

theorem ofColumns_self {x : List Trie.CLevel} (h : Trie.Linked x) :
    Trie.ofColumns (x.map (·.nodes)) (x.filterMap (·.ptrs)) (x.map (·.left)) (x.map (·.sizes)) = x := by
  apply List.ext_getElem?
  intro i
  simp only [Trie.ofColumns, List.getElem?_mapIdx, List.getElem?_map, List.getD_eq_getElem?_getD]
  cases e : x[i]? with
  | none => rfl
  | some t =>
      simp only [Option.map_some, Option.getD_some]
      rw [filterMap_ptrs x h i t e]

/-- the bytes of the pointers of all levels -/
def ptrSum (x : List Trie.CLevel) : Nat := ((x.filterMap (·.ptrs)).map EF.bytes).sum

theorem _root_.AC.Trie.ptrBytesIf_ok {x : List Trie.CLevel} (h : Trie.Linked x) {i : Nat} {t : Trie.CLevel} (ht : x[i]? = some t) :
    Trie.ptrBytesIf x.length i t = .ok (((t.ptrs.map EF.bytes).getD 0)) := by
  have hi : i < x.length := (List.getElem?_eq_some_iff.mp ht).1
  have := h i t ht
  unfold Trie.ptrBytesIf
  split
  · rename_i hne
    obtain ⟨p, e⟩ := Option.isSome_iff_exists.mp (this.mpr (by omega))
    rw [Trie.ptrBytes, e]; rfl
  · rename_i he
    have hn : ¬ t.ptrs.isSome := fun hs => by have := this.mp hs; omega
    cases e : t.ptrs with
    | none => rfl
    | some p => simp [e] at hn

theorem _root_.AC.Trie.bytesLoop_ok {x : List Trie.CLevel} (h : Trie.Linked x) : ∀ (ts : List Trie.CLevel) (i n : Nat), x.drop i = ts →
    Trie.bytesLoop x.length i ts n = .ok (n + (ts.map (fun t => t.nodes.bytes)).sum + ptrSum ts + (ts.map (fun t => t.left.bytes)).sum +
      (ts.map (fun t => t.sizes.bytes)).sum)
  | [], i, n, _ => rfl
  | t :: ts, i, n, e => by
      have ht : x[i]? = some t := by
        have := congrArg (fun l => l[0]?) e
        simpa using this
      have e' : x.drop (i + 1) = ts := by
        have := congrArg List.tail e
        simpa using this
      rw [Trie.bytesLoop, Trie.ptrBytesIf_ok h ht, M.ok_bind, Trie.bytesLoop_ok h ts (i + 1) _ e']
      congr 1
      have : ptrSum (t :: ts) = (t.ptrs.map EF.bytes).getD 0 + ptrSum ts := by
        unfold ptrSum
        cases e : t.ptrs with
        | none => rw [List.filterMap_cons_none e]; simp
        | some p => rw [List.filterMap_cons_some e]; simp
      rw [this]
      simp only [List.map_cons, List.sum_cons]
      omega

theorem _root_.AC.Trie.bytes_ok {x : List Trie.CLevel} (h : Trie.Linked x) :
    Trie.bytes x = .ok (4 + ((8 + ((x.map (·.nodes)).map EF.bytes).sum) + ((8 + ptrSum x) + ((8 + ((x.map (·.left)).map EF.bytes).sum) +
      (8 + ((x.map (·.sizes)).map EF.bytes).sum))))) := by
  unfold Trie.bytes
  rw [Trie.bytesLoop_ok h x 0 _ rfl]
  congr 1
  simp only [List.map_map, Function.comp_def]
  omega

theorem trie {m : Nat} {x : List Trie.CLevel} (h : Trie.Linked x) {n : Nat} (hn : Trie.bytes x = .ok n) :
    ∃ t, (∀ s, Visitor.trie saver m x s = .ok ((m, x), s ++ t)) ∧ IsBytes n t ∧
      (Trie.Fits m x → ∀ r, Visitor.trie loader 0 [] (t ++ r) = .ok ((m, x), r)) := by
  have mm : ∀ (xs : List EF), Trip (fun V => V.vec EF.blank V.ef) xs [] xs (8 + (xs.map EF.bytes).sum) (xs.length < 2 ^ 64 ∧ ∀ e ∈ xs, e.Fits) :=
    fun xs => vec (f := fun V => V.ef) (fun e _ => ef e)
  obtain ⟨t0, a0, c0, l0, b0⟩ := nat 4 m 0
  obtain ⟨t1, a1, c1, l1, b1⟩ := mm (x.map (·.nodes))
  obtain ⟨t2, a2, c2, l2, b2⟩ := mm (x.filterMap (·.ptrs))
  obtain ⟨t3, a3, c3, l3, b3⟩ := mm (x.map (·.left))
  obtain ⟨t4, a4, c4, l4, b4⟩ := mm (x.map (·.sizes))
  have e := ofColumns_self h
  refine ⟨t0 ++ (t1 ++ (t2 ++ (t3 ++ t4))), fun s => ?_, ?_, fun hf r => ?_⟩
  · simp only [Visitor.trie, a0, a1, a2, a3, a4, M.ok_bind, List.append_assoc, e]
  · rw [Trie.bytes_ok h] at hn
    cases hn
    exact l0.append (l1.append (l2.append (l3.append l4)))
  · have fit : ∀ (g : Trie.CLevel → EF), (∀ t ∈ x, (g t).Fits) → (x.map g).length < 2 ^ 64 ∧ ∀ e ∈ x.map g, e.Fits := by
      intro g hg
      refine ⟨by rw [List.length_map]; exact hf.levels, fun e he => ?_⟩
      obtain ⟨t, ht, rfl⟩ := List.mem_map.mp he
      exact hg t ht
    have b0 := b0 hf.size
    have b1 := b1 (fit _ hf.nodes)
    have b2 := b2 ⟨Nat.lt_of_le_of_lt (List.length_filterMap_le _ _) hf.levels, fun e he => by
      obtain ⟨t, ht, e⟩ := List.mem_filterMap.mp he
      exact hf.ptrs t ht _ e⟩
    have b3 := b3 (fit _ hf.left)
    have b4 := b4 (fit _ hf.sizes)
    simp only [Visitor.trie, List.map_nil, List.filterMap_nil, b0, b1, b2, b3, b4, M.ok_bind, List.append_assoc, e]

end Trip

/-! ## The four types -/

/-- an index with other words in the memory after its buffers -/
def Index1.put (x : Index1) (mem : Nat → W) : Index1 :=
  ⟨x.completions, x.docs.put (mem 0) (mem 1), x.minimal.put (mem 2) (mem 3), x.dict, { x.inverted with data := { x.inverted.data with after := mem 4 } },
    { x.forward with data := { x.forward.data with after := mem 5 } }, x.numCompl⟩

def Base.put (x : Base) (mem : Nat → W) : Base :=
  ⟨x.completions, x.docs.put (mem 0) (mem 1), x.dict, { x.lexids with after := mem 6 }⟩

def Index2.put (x : Index2) (mem : Nat → W) : Index2 :=
  ⟨x.toBase.put mem, x.minimal.put (mem 2) (mem 3), { x.inverted with data := { x.inverted.data with after := mem 4 } }⟩

def Index3.put (x : Index3) (mem : Nat → W) : Index3 :=
  ⟨x.toBase.put mem, { x.inverted with data := { x.inverted.data with after := mem 4 } }⟩

def Index4.put (x : Index4) (mem : Nat → W) : Index4 := ⟨x.toBase.put mem, x.inverted.put (fun i => mem (7 + i))⟩

structure Index1.Fits (x : Index1) : Prop where
  completions : Trie.Fits x.numCompl x.completions
  docs : x.docs.Fits
  minimal : x.minimal.Fits
  dict : x.dict.Fits 4 1
  inverted : x.inverted.Fits
  forward : x.forward.Fits

structure Base.Fits (x : Base) : Prop where
  completions : x.completions.Fits 8 4
  docs : x.docs.Fits
  dict : x.dict.Fits 4 1
  lexids : x.lexids.Fits

structure Index2.Fits (x : Index2) : Prop where
  base : x.toBase.Fits
  minimal : x.minimal.Fits
  inverted : x.inverted.Fits

structure Index3.Fits (x : Index3) : Prop where
  base : x.toBase.Fits
  inverted : x.inverted.Fits

structure Index4.Fits (x : Index4) : Prop where
  base : x.toBase.Fits
  inverted : x.inverted.Fits

theorem Trip.index1 {x : Index1} (h1 : Trie.Linked x.completions) {n : Nat} (hn : x.bytes = .ok n)
    (mem : Nat → W) : Trip (fun V => V.index1) x (Index1.blank mem) (x.put mem) n x.Fits := by
  unfold Index1.bytes at hn
  have e := Trie.bytes_ok h1
  rw [e, M.ok_bind] at hn
  cases hn
  obtain ⟨t1, a1, l1, b1⟩ := Trip.trie (m := x.numCompl) h1 e
  obtain ⟨t2, a2, c2, l2, b2⟩ := Trip.ul x.docs (mem 0) (mem 1)
  obtain ⟨t3, a3, c3, l3, b3⟩ := Trip.ul x.minimal (mem 2) (mem 3)
  obtain ⟨t4, a4, c4, l4, b4⟩ := Trip.fc 4 1 x.dict
  obtain ⟨t5, a5, c5, l5, b5⟩ := Trip.inv x.inverted (mem 4)
  obtain ⟨t6, a6, c6, l6, b6⟩ := Trip.fwd x.forward (mem 5)
  refine ⟨t1 ++ (t2 ++ (t3 ++ (t4 ++ (t5 ++ t6)))), fun s => ?_, fun s => ?_, ?_, fun h r => ?_⟩
  · simp only [Visitor.index1, a1, a2, a3, a4, a5, a6, M.ok_bind, List.append_assoc]
  · simp only [Visitor.index1, a1, c2, c3, c4, c5, c6, Index1.put, M.ok_bind, List.append_assoc]
  · have := l1.append (l2.append (l3.append (l4.append (l5.append l6))))
    rwa [← Nat.add_assoc, ← Nat.add_assoc, ← Nat.add_assoc, ← Nat.add_assoc] at this
  · have b1 := b1 h.completions
    have b2 := b2 h.docs
    have b3 := b3 h.minimal
    have b4 := b4 h.dict
    have b5 := b5 h.inverted
    have b6 := b6 h.forward
    simp only [Visitor.index1, Index1.blank, Index1.put, b1, b2, b3, b4, b5, b6, M.ok_bind, List.append_assoc]

theorem Trip.index2 (x : Index2) (mem : Nat → W) : Trip (fun V => V.index2) x (Index2.blank mem) (x.put mem) x.bytes x.Fits := by
  obtain ⟨t1, a1, c1, l1, b1⟩ := Trip.fc 8 4 x.completions
  obtain ⟨t2, a2, c2, l2, b2⟩ := Trip.ul x.docs (mem 0) (mem 1)
  obtain ⟨t3, a3, c3, l3, b3⟩ := Trip.ul x.minimal (mem 2) (mem 3)
  obtain ⟨t4, a4, c4, l4, b4⟩ := Trip.fc 4 1 x.dict
  obtain ⟨t5, a5, c5, l5, b5⟩ := Trip.inv x.inverted (mem 4)
  obtain ⟨t6, a6, c6, l6, b6⟩ := Trip.cv x.lexids (mem 6)
  refine ⟨t1 ++ (t2 ++ (t3 ++ (t4 ++ (t5 ++ t6)))), fun s => ?_, fun s => ?_, ?_, fun h r => ?_⟩
  · simp only [Visitor.index2, a1, a2, a3, a4, a5, a6, M.ok_bind, List.append_assoc]
  · simp only [Visitor.index2, c1, c2, c3, c4, c5, c6, Index2.put, Base.put, M.ok_bind, List.append_assoc]
  · have := l1.append (l2.append (l3.append (l4.append (l5.append l6))))
    have e : x.bytes = x.completions.bytes 8 4 + (x.docs.bytes + (x.minimal.bytes + (x.dict.bytes 4 1 + (x.inverted.bytes + x.lexids.bytes)))) := by
      unfold Index2.bytes; omega
    rwa [e]
  · have b1 := b1 h.base.completions
    have b2 := b2 h.base.docs
    have b3 := b3 h.minimal
    have b4 := b4 h.base.dict
    have b5 := b5 h.inverted
    have b6 := b6 h.base.lexids
    simp only [Visitor.index2, Index2.blank, Index2.put, Base.put, b1, b2, b3, b4, b5, b6, M.ok_bind, List.append_assoc]

theorem Trip.index3 (x : Index3) (mem : Nat → W) : Trip (fun V => V.index3) x (Index3.blank mem) (x.put mem) x.bytes x.Fits := by
  obtain ⟨t1, a1, c1, l1, b1⟩ := Trip.fc 8 4 x.completions
  obtain ⟨t2, a2, c2, l2, b2⟩ := Trip.ul x.docs (mem 0) (mem 1)
  obtain ⟨t4, a4, c4, l4, b4⟩ := Trip.fc 4 1 x.dict
  obtain ⟨t5, a5, c5, l5, b5⟩ := Trip.inv x.inverted (mem 4)
  obtain ⟨t6, a6, c6, l6, b6⟩ := Trip.cv x.lexids (mem 6)
  refine ⟨t1 ++ (t2 ++ (t4 ++ (t5 ++ t6))), fun s => ?_, fun s => ?_, ?_, fun h r => ?_⟩
  · simp only [Visitor.index3, a1, a2, a4, a5, a6, M.ok_bind, List.append_assoc]
  · simp only [Visitor.index3, c1, c2, c4, c5, c6, Index3.put, Base.put, M.ok_bind, List.append_assoc]
  · have := l1.append (l2.append (l4.append (l5.append l6)))
    have e : x.bytes = x.completions.bytes 8 4 + (x.docs.bytes + (x.dict.bytes 4 1 + (x.inverted.bytes + x.lexids.bytes))) := by
      unfold Index3.bytes; omega
    rwa [e]
  · have b1 := b1 h.base.completions
    have b2 := b2 h.base.docs
    have b4 := b4 h.base.dict
    have b5 := b5 h.inverted
    have b6 := b6 h.base.lexids
    simp only [Visitor.index3, Index3.blank, Index3.put, Base.put, b1, b2, b4, b5, b6, M.ok_bind, List.append_assoc]

theorem Trip.index4 (x : Index4) (mem : Nat → W) : Trip (fun V => V.index4) x (Index4.blank mem) (x.put mem) x.bytes x.Fits := by
  obtain ⟨t1, a1, c1, l1, b1⟩ := Trip.fc 8 4 x.completions
  obtain ⟨t2, a2, c2, l2, b2⟩ := Trip.ul x.docs (mem 0) (mem 1)
  obtain ⟨t4, a4, c4, l4, b4⟩ := Trip.fc 4 1 x.dict
  obtain ⟨t5, a5, c5, l5, b5⟩ := Trip.blk x.inverted (fun i => mem (7 + i))
  obtain ⟨t6, a6, c6, l6, b6⟩ := Trip.cv x.lexids (mem 6)
  refine ⟨t1 ++ (t2 ++ (t4 ++ (t5 ++ t6))), fun s => ?_, fun s => ?_, ?_, fun h r => ?_⟩
  · simp only [Visitor.index4, a1, a2, a4, a5, a6, M.ok_bind, List.append_assoc]
  · simp only [Visitor.index4, c1, c2, c4, c5, c6, Index4.put, Base.put, M.ok_bind, List.append_assoc]
  · have := l1.append (l2.append (l4.append (l5.append l6)))
    have e : x.bytes = x.completions.bytes 8 4 + (x.docs.bytes + (x.dict.bytes 4 1 + (x.inverted.bytes + x.lexids.bytes))) := by
      unfold Index4.bytes; omega
    rwa [e]
  · have b1 := b1 h.base.completions
    have b2 := b2 h.base.docs
    have b4 := b4 h.base.dict
    have b5 := b5 h.inverted
    have b6 := b6 h.base.lexids
    simp only [Visitor.index4, Index4.blank, Index4.put, Base.put, b1, b2, b4, b5, b6, M.ok_bind, List.append_assoc]

theorem Trip.save_load {α : Type} {f : {σ : Type} → Visitor σ → α → σ → M (α × σ)} {x d y : α} {n : Nat} {P : Prop} (h : Trip f x d y n P) :
    ∃ file, save f x = .ok file ∧ save f y = .ok file ∧ IsBytes n file ∧ (P → load f d file = .ok y) := by
  obtain ⟨t, a, c, l, b⟩ := h
  refine ⟨t, ?_, ?_, l, fun p => ?_⟩
  · unfold save; rw [a]; rfl
  · unfold save; rw [c]; rfl
  · have b := b p []
    rw [List.append_nil] at b
    unfold load; rw [b]; rfl

/-! ## Building the same with other words in memory -/

theorem bind_ok {α β : Type} {m : M α} {f : α → M β} {y : β} (h : (m >>= f) = .ok y) : ∃ x, m = .ok x ∧ f x = .ok y := by
  cases m with
  | error e => exact absurd h (by simp [bind, Except.bind])
  | ok x => exact ⟨x, rfl, h⟩

theorem EF.compress_plain {vs : List W} {u : W} {x : EF} (h : EF.compress vs u = .ok x) : x.Plain := by
  unfold EF.compress at h
  obtain ⟨⟨a, b⟩, _, h⟩ := bind_ok h
  obtain ⟨d, _, h⟩ := bind_ok h
  cases h
  exact ⟨rfl, rfl⟩

theorem EF.build_plain {vs : List W} {x : EF} (h : EF.build vs = .ok x) : x.Plain := by
  unfold EF.build at h
  split at h
  · cases h
  · exact EF.compress_plain h

theorem EF.buildRuns_plain {vs : List W} {ps : List Nat} {x : EF} (h : EF.buildRuns vs ps = .ok x) : x.Plain := by
  unfold EF.buildRuns at h
  obtain ⟨_, _, h⟩ := bind_ok h
  obtain ⟨_, _, h⟩ := bind_ok h
  obtain ⟨_, _, h⟩ := bind_ok h
  exact EF.build_plain h

theorem RS.build_put {v : BV} {a : W} {b c : Bool} {x : RS} (h : RS.build v b c = .ok x) :
    RS.build { v with after := a } b c = .ok { x with bv := { x.bv with after := a } } := by
  unfold RS.build at h ⊢
  obtain ⟨h1, e1, h⟩ := bind_ok h
  obtain ⟨h2, e2, h⟩ := bind_ok h
  cases h
  dsimp only
  rw [e1, M.ok_bind, e2, M.ok_bind]

theorem BP.leafValues_put (rs : RS) (a : W) (blocks : List Int) : ∀ n k,
    BP.leafValues { rs with bv := { rs.bv with after := a } } blocks n k = BP.leafValues rs blocks n k
  | 0, _ => rfl
  | n + 1, k => by
      simp only [BP.leafValues]
      rw [BP.leafValues_put rs a blocks n (k + 1)]
      rfl

theorem BP.buildTree_put {rs : RS} {a : W} {x : BP} (h : BP.buildTree rs = .ok x) :
    BP.buildTree { rs with bv := { rs.bv with after := a } } = .ok (x.put a) := by
  unfold BP.buildTree at h ⊢
  dsimp only at h ⊢
  obtain ⟨h1, e1, h⟩ := bind_ok h
  obtain ⟨h2, e2, h⟩ := bind_ok h
  obtain ⟨h3, e3, h⟩ := bind_ok h
  cases h
  rw [e1, M.ok_bind, BP.leafValues_put, e2, M.ok_bind, e3, M.ok_bind]
  rfl

theorem BP.build_put {v : BV} {a : W} {b c : Bool} {x : BP} (h : BP.build v b c = .ok x) :
    BP.build { v with after := a } b c = .ok (x.put a) := by
  unfold BP.build at h ⊢
  obtain ⟨rs, e1, h⟩ := bind_ok h
  rw [RS.build_put e1, M.ok_bind]
  dsimp only
  split at h
  · rename_i hz
    rw [if_pos hz]
    cases h
    rfl
  · rename_i hz
    rw [if_neg hz]
    exact BP.buildTree_put h

theorem CT.build_put {v : List Nat} {a b : W} {x : BP} (h : CT.build v a = .ok x) : CT.build v b = .ok (x.put b) := by
  unfold CT.build at h ⊢
  generalize CT.finalize (v.foldl CT.push ⟨[], BVB.empty⟩) = f at h ⊢
  exact BP.build_put (v := BV.build f a) (a := b) h

theorem CV.build_put {vs : List W} {w : Nat} {a b : W} {x : CV} (h : CV.build vs w a = .ok x) :
    CV.build vs w b = .ok { x with after := b } := by
  unfold CV.build at h ⊢
  obtain ⟨h1, e1, h⟩ := bind_ok h
  obtain ⟨h2, e2, h⟩ := bind_ok h
  cases h
  rw [e1, M.ok_bind, e2, M.ok_bind]

theorem CV.buildAuto_put {vs : List W} {a b : W} {x : CV} (h : CV.buildAuto vs a = .ok x) :
    CV.buildAuto vs b = .ok { x with after := b } := by
  unfold CV.buildAuto at h ⊢
  split at h
  · cases h
  · exact CV.build_put h

theorem UL.build_put {l : List Nat} {a1 a2 b1 b2 : W} {x : UL} (h : UL.build l a1 a2 = .ok x) : UL.build l b1 b2 = .ok (x.put b1 b2) := by
  unfold UL.build at h ⊢
  obtain ⟨h1, e1, h⟩ := bind_ok h
  obtain ⟨h2, e2, h⟩ := bind_ok h
  cases h
  rw [CT.build_put e1, M.ok_bind, CV.buildAuto_put e2, M.ok_bind]
  rfl

theorem InvBuilder.build_put {ib : InvBuilder} {a b : W} {x : InvIdx} (h : ib.build a = .ok x) :
    ib.build b = .ok { x with data := { x.data with after := b } } := by
  unfold InvBuilder.build at h ⊢
  obtain ⟨h1, e1, h⟩ := bind_ok h
  cases h
  rw [e1, M.ok_bind]
  rfl

theorem FwdIdx.build_put {n : Nat} {ls : List (List Nat)} {a b : W} {x : FwdIdx} (h : FwdIdx.build n ls a = .ok x) :
    FwdIdx.build n ls b = .ok { x with data := { x.data with after := b } } := by
  unfold FwdIdx.build at h ⊢
  generalize readLists ls 0 [0] [] = p at h ⊢
  obtain ⟨p, t⟩ := p
  dsimp only at h ⊢
  obtain ⟨h1, e1, h⟩ := bind_ok h
  obtain ⟨h2, e2, h⟩ := bind_ok h
  cases h
  rw [CV.build_put e1, M.ok_bind, e2, M.ok_bind]

theorem BlkBuilder.build_put {ib : BlkBuilder} {a b : Nat → W} {x : BlkIdx} (h : ib.build a = .ok x) :
    ib.build b = .ok (x.put b) := by
  unfold BlkBuilder.build at h ⊢
  obtain ⟨h1, e1, h⟩ := bind_ok h
  obtain ⟨h2, e2, h⟩ := bind_ok h
  obtain ⟨h3, e3, h⟩ := bind_ok h
  cases h
  rw [e1, M.ok_bind, e2, M.ok_bind, e3, M.ok_bind]
  rfl

theorem tabM_get {α : Type} {f : Nat → M α} : ∀ {n : Nat} {xs : List α}, tabM f n = .ok xs → xs.length = n ∧ ∀ i x, xs[i]? = some x → f i = .ok x
  | 0, xs, h => by cases h; simp
  | n + 1, xs, h => by
      simp only [tabM] at h
      obtain ⟨ys, e1, h⟩ := bind_ok h
      obtain ⟨y, e2, h⟩ := bind_ok h
      cases h
      obtain ⟨h1, h2⟩ := tabM_get e1
      refine ⟨by simp [h1], ?_⟩
      intro i x hx
      by_cases hi : i < n
      · rw [List.getElem?_append_left (by omega)] at hx
        exact h2 i x hx
      · have hlt : i < (ys ++ [y]).length := by
          obtain ⟨h, _⟩ := List.getElem?_eq_some_iff.mp hx
          exact h
        simp [h1] at hlt
        have : i = n := by omega
        subst this
        rw [List.getElem?_append_right (by omega), h1] at hx
        simp at hx
        subst hx
        exact e2

theorem Trie.buildPtrs_isSome {levels i : Nat} {l : Trie.Level} {p : Option EF} (h : Trie.buildPtrs levels i l = .ok p) (hi : i < levels) :
    p.isSome ↔ i + 1 < levels := by
  unfold Trie.buildPtrs at h
  split at h
  · obtain ⟨q, _, h⟩ := bind_ok h
    cases h
    simp; omega
  · cases h
    simp; omega

theorem Trie.build_linked {levels : Nat} {cs : List Ids} {x : List Trie.CLevel} (h : Trie.build levels cs = .ok x) : Trie.Linked x := by
  unfold Trie.build at h
  obtain ⟨ts, _, h⟩ := bind_ok h
  obtain ⟨hlen, hget⟩ := tabM_get h
  intro i t ht
  have hi : i < x.length := (List.getElem?_eq_some_iff.mp ht).1
  have := hget i t ht
  unfold Trie.buildLevel at this
  obtain ⟨l, e0, this⟩ := bind_ok this
  obtain ⟨p, e1, this⟩ := bind_ok this
  obtain ⟨lf, e2, this⟩ := bind_ok this
  obtain ⟨sz, e3, this⟩ := bind_ok this
  obtain ⟨nd, e4, this⟩ := bind_ok this
  cases this
  rw [hlen] at hi ⊢
  exact Trie.buildPtrs_isSome e1 hi

theorem Index1.build_put {F : Files} {mem mem' : Nat → W} {x : Index1} (h : Index1.build F mem = .ok x) :
    Index1.build F mem' = .ok (x.put mem') ∧ Trie.Linked x.completions := by
  unfold Index1.build at h ⊢
  obtain ⟨ib, e1, h⟩ := bind_ok h
  obtain ⟨docs, e2, h⟩ := bind_ok h
  obtain ⟨minimal, e3, h⟩ := bind_ok h
  obtain ⟨compl, e4, h⟩ := bind_ok h
  obtain ⟨dict, e5, h⟩ := bind_ok h
  obtain ⟨inv, e6, h⟩ := bind_ok h
  obtain ⟨fwd, e7, h⟩ := bind_ok h
  cases h
  have i1 := InvBuilder.build_put (b := mem' 4) e6
  have f1 := FwdIdx.build_put (b := mem' 5) e7
  refine ⟨?_, Trie.build_linked e4⟩
  rw [e1, M.ok_bind, UL.build_put e2, M.ok_bind, UL.build_put e3, M.ok_bind, e4, M.ok_bind, e5, M.ok_bind, i1, M.ok_bind, f1, M.ok_bind]
  rfl

theorem Base.build_put {F : Files} {mem mem' : Nat → W} {x : Base} (h : Base.build F mem = .ok x) : Base.build F mem' = .ok (x.put mem') := by
  unfold Base.build at h ⊢
  obtain ⟨⟨c, d⟩, e1, h⟩ := bind_ok h
  obtain ⟨lex, e2, h⟩ := bind_ok h
  obtain ⟨docs, e3, h⟩ := bind_ok h
  obtain ⟨dict, e4, h⟩ := bind_ok h
  cases h
  rw [e1, M.ok_bind]
  dsimp only at e2 e3 ⊢
  rw [CV.build_put e2, M.ok_bind, UL.build_put e3, M.ok_bind, e4, M.ok_bind]
  rfl

theorem Index2.build_put {F : Files} {mem mem' : Nat → W} {x : Index2} (h : Index2.build F mem = .ok x) :
    Index2.build F mem' = .ok (x.put mem') := by
  unfold Index2.build at h ⊢
  obtain ⟨ib, e1, h⟩ := bind_ok h
  obtain ⟨base, e2, h⟩ := bind_ok h
  obtain ⟨minimal, e3, h⟩ := bind_ok h
  obtain ⟨inv, e6, h⟩ := bind_ok h
  cases h
  have i1 := InvBuilder.build_put (b := mem' 4) e6
  rw [e1, M.ok_bind, Base.build_put e2, M.ok_bind, UL.build_put e3, M.ok_bind, i1, M.ok_bind]
  rfl

theorem Index3.build_put {F : Files} {mem mem' : Nat → W} {x : Index3} (h : Index3.build F mem = .ok x) :
    Index3.build F mem' = .ok (x.put mem') := by
  unfold Index3.build at h ⊢
  obtain ⟨ib, e1, h⟩ := bind_ok h
  obtain ⟨base, e2, h⟩ := bind_ok h
  obtain ⟨inv, e6, h⟩ := bind_ok h
  cases h
  have i1 := InvBuilder.build_put (b := mem' 4) e6
  rw [e1, M.ok_bind, Base.build_put e2, M.ok_bind, i1, M.ok_bind]
  rfl

theorem Index4.build_put {std : StdLib} {m : Nat} {F : Files} {mem mem' : Nat → W} {x : Index4} (h : Index4.build std m F mem = .ok x) :
    Index4.build std m F mem' = .ok (x.put mem') := by
  unfold Index4.build at h ⊢
  obtain ⟨ib, e1, h⟩ := bind_ok h
  obtain ⟨base, e2, h⟩ := bind_ok h
  obtain ⟨inv, e6, h⟩ := bind_ok h
  cases h
  have i1 := BlkBuilder.build_put (b := fun i => mem' (7 + i)) e6
  rw [e1, M.ok_bind, Base.build_put e2, M.ok_bind, i1, M.ok_bind]
  rfl

end AC
