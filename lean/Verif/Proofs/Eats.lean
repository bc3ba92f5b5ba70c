import Verif.Proofs.Visit
/-!
# How much of a file is read

Loading reads from the front of the file. It either runs into the end, or uses up a front part, at least `n` bytes, whatever comes after.
-/
namespace AC

/-- reads at least `n` bytes, and looks at nothing after what it uses up -/
def Eats {α : Type} (f : List Nat → M (α × List Nat)) (n : Nat) : Prop :=
  ∀ s, f s = .error .oob ∨ ∃ y u r, s = u ++ r ∧ n ≤ u.length ∧ ∀ t, f (u ++ t) = .ok (y, t)

namespace Eats
open Visitor

theorem pure {α : Type} (x : α) : Eats (fun s => .ok (x, s)) 0 := fun s => Or.inr ⟨x, [], s, rfl, Nat.le_refl _, fun _ => rfl⟩

theorem mono {α : Type} {f : List Nat → M (α × List Nat)} {n m : Nat} (h : Eats f n) (hm : m ≤ n) : Eats f m := by
  intro s
  rcases h s with h | ⟨y, u, r, a, b, c⟩
  · exact Or.inl h
  · exact Or.inr ⟨y, u, r, a, Nat.le_trans hm b, c⟩

theorem bind {α β : Type} {f : List Nat → M (α × List Nat)} {g : α × List Nat → M (β × List Nat)} {n m : Nat} (hf : Eats f n)
    (hg : ∀ a, Eats (fun s => g (a, s)) m) : Eats (fun s => f s >>= g) (n + m) := by
  intro s
  rcases hf s with h | ⟨y, u, r, rfl, b, c⟩
  · exact Or.inl (by dsimp only; rw [h]; rfl)
  · rcases hg y r with h | ⟨z, v, r', rfl, b', c'⟩
    · refine Or.inl ?_
      dsimp only
      rw [c, M.ok_bind]
      exact h
    · refine Or.inr ⟨z, u ++ v, r', by rw [List.append_assoc], by rw [List.length_append]; omega, fun t => ?_⟩
      dsimp only
      rw [List.append_assoc, c, M.ok_bind]
      exact c' t

theorem take (w : Nat) {α : Type} (h : List Nat → α) : Eats (fun s => if w ≤ s.length then .ok (h (s.take w), s.drop w) else .error .oob) w := by
  intro s
  by_cases hw : w ≤ s.length
  · refine Or.inr ⟨h (s.take w), s.take w, s.drop w, (List.take_append_drop w s).symm, by rw [List.length_take]; omega, fun t => ?_⟩
    have hl : (s.take w).length = w := by rw [List.length_take]; omega
    dsimp only
    rw [if_pos (by rw [List.length_append]; omega), List.take_append_of_le_length (by omega), List.take_of_length_le (by omega),
      List.drop_append_of_le_length (by omega), List.drop_of_length_le (by omega), List.nil_append]
  · exact Or.inl (if_neg hw)

theorem nat (w x : Nat) : Eats (loader.nat w x) w := take w ofLe
theorem int (w : Nat) (x : Int) : Eats (loader.int w x) w := take w ofLeInt
theorem word (x : W) : Eats (loader.word x) 8 := take 8 (fun t => BitVec.ofNat 64 (ofLe t))

theorem each {α : Type} {f : α → List Nat → M (α × List Nat)} {n : Nat} (h : ∀ x, Eats (f x) n) : ∀ xs, Eats (Visitor.each f xs) (xs.length * n)
  | [] => (pure []).mono (by simp)
  | x :: xs => by
      refine mono (f := fun s => Visitor.each f (x :: xs) s) (bind (h x) fun a => bind (each h xs) fun b => pure (a :: b)) ?_
      rw [List.length_cons, Nat.succ_mul]
      omega

theorem vec {α : Type} {f : α → List Nat → M (α × List Nat)} {n : Nat} (h : ∀ x, Eats (f x) n) (d : α) (xs : List α) : Eats (loader.vec d f xs) 8 := by
  unfold Visitor.vec
  exact mono (bind (nat 8 _) fun _ => (each h _).mono (Nat.zero_le _)) (by decide)

theorem nats (w : Nat) (xs : List Nat) : Eats (loader.nats w xs) 8 := vec (nat w) _ _
theorem ints (w : Nat) (xs : List Int) : Eats (loader.ints w xs) 8 := vec (int w) _ _
theorem words (xs : List W) : Eats (loader.words xs) 8 := vec word _ _

theorem bv (x : BV) : Eats (loader.bv x) 16 := by
  unfold Visitor.bv
  exact mono (bind (nat 8 _) fun _ => bind (words _) fun _ => pure _) (by decide)

theorem cv (x : CV) : Eats (loader.cv x) 32 := by
  unfold Visitor.cv
  exact mono (bind (nat 8 _) fun _ => bind (nat 8 _) fun _ => bind (word _) fun _ => bind (words _) fun _ => pure _) (by decide)

theorem da (x : DA) : Eats (loader.da x) 32 := by
  unfold Visitor.da
  exact mono (bind (nat 8 _) fun _ => bind (ints 8 _) fun _ => bind (nats 2 _) fun _ => bind (nats 8 _) fun _ => pure _) (by decide)

theorem ef (x : EF) : Eats (loader.ef x) 73 := by
  unfold Visitor.ef
  exact mono (bind (nat 1 _) fun _ => bind (bv _) fun _ => bind (da _) fun _ => bind (bv _) fun _ => bind (nat 8 _) fun _ => pure _) (by decide)

theorem rs (x : RS) : Eats (loader.rs x) 40 := by
  unfold Visitor.rs
  exact mono (bind (bv _) fun _ => bind (words _) fun _ => bind (nats 8 _) fun _ => bind (nats 8 _) fun _ => pure _) (by decide)

theorem bp (x : BP) : Eats (loader.bp x) 64 := by
  unfold Visitor.bp
  exact mono (bind (rs _) fun _ => bind (nat 8 _) fun _ => bind (ints 2 _) fun _ => bind (ints 4 _) fun _ => pure _) (by decide)

theorem ul (x : UL) : Eats (loader.ul x) 96 := by
  unfold Visitor.ul
  exact mono (bind (bp _) fun _ => bind (cv _) fun _ => pure _) (by decide)

theorem fc (p c : Nat) (x : FC) : Eats (loader.fc p c x) 40 := by
  unfold Visitor.fc
  exact mono (bind (nat 8 _) fun _ => bind (nats p _) fun _ => bind (nats p _) fun _ => bind (nats c _) fun _ => bind (nats 1 _) fun _ => pure _) (by decide)

theorem inv (x : InvIdx) : Eats (loader.inv x) 105 := by
  unfold Visitor.inv
  exact mono (bind (nat 8 _) fun _ => bind (nat 8 _) fun _ => bind (ef _) fun _ => bind (bv _) fun _ => pure _) (by decide)

theorem fwd (x : FwdIdx) : Eats (loader.fwd x) 121 := by
  unfold Visitor.fwd
  exact mono (bind (nat 8 _) fun _ => bind (nat 8 _) fun _ => bind (ef _) fun _ => bind (cv _) fun _ => pure _) (by decide)

theorem blk (x : BlkIdx) : Eats (loader.blk x) 299 := by
  unfold Visitor.blk
  exact mono (bind (nat 8 _) fun _ => bind (nat 8 _) fun _ => bind (nat 8 _) fun _ => bind (nats 4 _) fun _ => bind (ef _) fun _ => bind (bv _) fun _ =>
    bind (ef _) fun _ => bind (bv _) fun _ => bind (ef _) fun _ => bind (bv _) fun _ => pure _) (by decide)

theorem trie (m : Nat) (x : List Trie.CLevel) : Eats (loader.trie m x) 36 := by
  unfold Visitor.trie
  exact mono (bind (nat 4 _) fun _ => bind (vec ef _ _) fun _ => bind (vec ef _ _) fun _ => bind (vec ef _ _) fun _ => bind (vec ef _ _) fun _ => pure _) (by decide)

theorem index1 (x : Index1) : Eats (loader.index1 x) 494 := by
  unfold Visitor.index1
  exact mono (bind (trie _ _) fun _ => bind (ul _) fun _ => bind (ul _) fun _ => bind (fc 4 1 _) fun _ => bind (inv _) fun _ => bind (fwd _) fun _ => pure _) (by decide)

theorem index2 (x : Index2) : Eats (loader.index2 x) 409 := by
  unfold Visitor.index2
  exact mono (bind (fc 8 4 _) fun _ => bind (ul _) fun _ => bind (ul _) fun _ => bind (fc 4 1 _) fun _ => bind (inv _) fun _ => bind (cv _) fun _ => pure _) (by decide)

theorem index3 (x : Index3) : Eats (loader.index3 x) 313 := by
  unfold Visitor.index3
  exact mono (bind (fc 8 4 _) fun _ => bind (ul _) fun _ => bind (fc 4 1 _) fun _ => bind (inv _) fun _ => bind (cv _) fun _ => pure _) (by decide)

theorem index4 (x : Index4) : Eats (loader.index4 x) 507 := by
  unfold Visitor.index4
  exact mono (bind (fc 8 4 _) fun _ => bind (ul _) fun _ => bind (fc 4 1 _) fun _ => bind (blk _) fun _ => bind (cv _) fun _ => pure _) (by decide)

/-- when the file is used up to its end, every strict beginning of it is too short -/
theorem short {α : Type} {f : List Nat → M (α × List Nat)} {n : Nat} (h : Eats f n) {p q : List Nat} {y : α} (hy : f (p ++ q) = .ok (y, [])) (hq : q ≠ []) :
    f p = .error .oob := by
  rcases h p with h | ⟨z, u, r, rfl, _, c⟩
  · exact h
  · rw [List.append_assoc, c] at hy
    cases q with
    | nil => exact absurd rfl hq
    | cons b q => cases r <;> cases hy

/-- more elements than there are bytes left -/
theorem vec_huge {α : Type} {f : α → List Nat → M (α × List Nat)} {n : Nat} (h : ∀ x, Eats (f x) n) (d : α) {s : List Nat}
    (hs : s.length < 8 + ofLe (s.take 8) * n) : loader.vec d f [] s = .error .oob := by
  unfold Visitor.vec
  show ((if 8 ≤ s.length then Except.ok (ofLe (s.take 8), s.drop 8) else Except.error Fault.oob) >>= _) = _
  by_cases h8 : 8 ≤ s.length
  · rw [if_pos h8, M.ok_bind]
    have hl : (Visitor.resize d (ofLe (s.take 8)) ([] : List α)).length = ofLe (s.take 8) := by simp [Visitor.resize]
    rcases each h (Visitor.resize d (ofLe (s.take 8)) []) (s.drop 8) with h | ⟨y, u, r, a, b, _⟩
    · exact h
    · have := congrArg List.length a
      rw [List.length_drop, List.length_append] at this
      rw [hl] at b
      omega
  · rw [if_neg h8]
    rfl

end Eats
end AC
