import Verif.Model.BpVector
import Verif.Proofs.Bits
import Verif.Proofs.BitCount
/-!
# The excess, and its leftmost minimum in a word
-/
namespace AC

/-- ones minus zeros among the first `i` bits -/
def exc (f : Nat → Bool) (i : Nat) : Int := 2 * (cnt f i : Int) - i

theorem exc_zero (f : Nat → Bool) : exc f 0 = 0 := rfl

theorem exc_succ (f : Nat → Bool) (i : Nat) : exc f (i + 1) = exc f i + (if f i then 1 else -1) := by
  unfold exc
  rw [cnt_succ]
  cases f i <;> simp <;> omega

theorem exc_add (f : Nat → Bool) (a n : Nat) : exc f (a + n) = exc f a + exc (fun i => f (a + i)) n := by
  unfold exc
  rw [cnt_add]
  omega

theorem exc_congr {f g : Nat → Bool} {n : Nat} (h : ∀ i, i < n → f i = g i) : exc f n = exc g n := by
  unfold exc; rw [cnt_congr h]

theorem exc_le (f : Nat → Bool) (n : Nat) : exc f n ≤ n := by
  unfold exc; have := cnt_le f n; omega

theorem neg_le_exc (f : Nat → Bool) (n : Nat) : -(n : Int) ≤ exc f n := by
  unfold exc; omega

/-- `p` is the leftmost position of `[lo, hi]` where `e` is least, and `m` is that least value -/
structure Best (e : Nat → Int) (lo hi : Nat) (m : Int) (p : Nat) : Prop where
  lo_le : lo ≤ p
  le_hi : p ≤ hi
  val : e p = m
  le : ∀ q, lo ≤ q → q ≤ hi → m ≤ e q
  left : ∀ q, lo ≤ q → q < p → m < e q

theorem Best.single (e : Nat → Int) (a : Nat) : Best e a a (e a) a :=
  ⟨Nat.le_refl _, Nat.le_refl _, rfl, fun q h1 h2 => by rw [Nat.le_antisymm h1 h2]; exact Int.le_refl _, fun q h1 h2 => by omega⟩

theorem Best.shift {e e' : Nat → Int} {s lo hi : Nat} {m : Int} {p : Nat} (h : Best e lo hi m p)
    (he : ∀ q, lo ≤ q → q ≤ hi → e' (s + q) = e q) : Best e' (s + lo) (s + hi) m (s + p) := by
  refine ⟨by have := h.lo_le; omega, by have := h.le_hi; omega, ?_, ?_, ?_⟩
  · rw [he p h.lo_le h.le_hi]; exact h.val
  · intro q h1 h2
    obtain ⟨q, rfl⟩ := Nat.exists_eq_add_of_le (show s ≤ q by omega)
    rw [he q (by omega) (by omega)]
    exact h.le q (by omega) (by omega)
  · intro q h1 h2
    obtain ⟨q, rfl⟩ := Nat.exists_eq_add_of_le (show s ≤ q by omega)
    have := h.le_hi
    rw [he q (by omega) (by omega)]
    exact h.left q (by omega) (by omega)

theorem Best.merge {e : Nat → Int} {lo hi lo2 hi2 : Nat} {m m2 : Int} {p p2 : Nat} (h : Best e lo hi m p)
    (h2 : Best e lo2 hi2 m2 p2) (a : lo ≤ lo2) (b : lo2 ≤ hi + 1) (c : hi ≤ hi2) :
    Best e lo hi2 (if m2 < m then m2 else m) (if m2 < m then p2 else p) := by
  have k1 := h.lo_le
  have k2 := h.le_hi
  have k3 := h2.lo_le
  have k4 := h2.le_hi
  split
  · rename_i hlt
    refine ⟨by omega, by omega, h2.val, ?_, ?_⟩
    · intro q q1 q2
      by_cases hq : q ≤ hi
      · have := h.le q q1 hq; omega
      · exact h2.le q (by omega) q2
    · intro q q1 q2
      by_cases hq : q ≤ hi
      · have := h.le q q1 hq; omega
      · exact h2.left q (by omega) q2
  · rename_i hlt
    refine ⟨by omega, by omega, h.val, ?_, h.left⟩
    intro q q1 q2
    by_cases hq : q ≤ hi
    · exact h.le q q1 hq
    · have := h2.le q (by omega) q2; omega

theorem Best.unique {e : Nat → Int} {lo hi : Nat} {m m2 : Int} {p p2 : Nat} (h : Best e lo hi m p) (h2 : Best e lo hi m2 p2) :
    m = m2 ∧ p = p2 := by
  have a := h.le p2 h2.lo_le h2.le_hi
  have b := h2.le p h.lo_le h.le_hi
  rw [h2.val] at a
  rw [h.val] at b
  have e1 : m = m2 := by omega
  refine ⟨e1, ?_⟩
  rcases Nat.lt_trichotomy p p2 with hlt | heq | hgt
  · have := h2.left p h.lo_le hlt
    rw [h.val] at this; omega
  · exact heq
  · have := h.left p2 h2.lo_le hgt
    rw [h2.val] at this; omega

/-- cut a range after which everything is greater -/
theorem Best.cut {e : Nat → Int} {lo hi hi2 : Nat} {m : Int} {p : Nat} (h : Best e lo hi m p) (h1 : lo ≤ hi2) (h2 : hi2 ≤ hi)
    (hg : ∀ q, hi2 < q → q ≤ hi → e hi2 < e q) : Best e lo hi2 m p := by
  refine ⟨h.lo_le, ?_, h.val, fun q a b => h.le q a (by omega), h.left⟩
  apply Nat.le_of_not_lt
  intro hc
  have a := hg p hc h.le_hi
  have b := h.le hi2 h1 h2
  rw [h.val] at a
  omega

/-- extend on the right by one position -/
theorem Best.extend {e : Nat → Int} {lo hi : Nat} {m : Int} {p : Nat} (h : Best e lo hi m p) :
    Best e lo (hi + 1) (if e (hi + 1) < m then e (hi + 1) else m) (if e (hi + 1) < m then hi + 1 else p) :=
  h.merge (Best.single e (hi + 1)) (by have := h.lo_le; have := h.le_hi; omega) (Nat.le_refl _) (by omega)

theorem Best.exists (e : Nat → Int) (lo : Nat) : ∀ hi, lo ≤ hi → ∃ m p, Best e lo hi m p := by
  intro hi h
  obtain ⟨n, rfl⟩ := Nat.exists_eq_add_of_le h
  clear h
  induction n with
  | zero => exact ⟨_, _, Best.single e lo⟩
  | succ n ih =>
      obtain ⟨m, p, h⟩ := ih
      exact ⟨_, _, h.extend⟩

namespace ExcessTables

theorem shr_and_one (c i : Nat) : ((c >>> i) &&& 1 ≠ 0) ↔ c.testBit i = true := by
  simp only [Nat.testBit, Nat.and_comm 1 (c >>> i)]
  simp

theorem fold_spec (c : Nat) : ∀ n, n ≤ 8 →
    ((List.range n).foldl (step c) ⟨0, 0, 0⟩).exc = exc c.testBit n ∧
    Best (exc c.testBit) 0 n (-(((List.range n).foldl (step c) ⟨0, 0, 0⟩).min : Int)) ((List.range n).foldl (step c) ⟨0, 0, 0⟩).idx := by
  intro n
  induction n with
  | zero => intro _; exact ⟨rfl, Best.single _ 0⟩
  | succ n ih =>
      intro hn
      obtain ⟨h1, h2⟩ := ih (by omega)
      rw [List.range_succ, List.foldl_append, List.foldl_cons, List.foldl_nil]
      generalize (List.range n).foldl (step c) ⟨0, 0, 0⟩ = t at h1 h2
      have he : (if (c >>> n) &&& 1 ≠ 0 then t.exc + 1 else t.exc - 1) = exc c.testBit (n + 1) := by
        rw [exc_succ, h1]
        by_cases hb : c.testBit n = true
        · rw [if_pos ((shr_and_one c n).mpr hb), if_pos hb]
        · rw [if_neg (fun hc => hb ((shr_and_one c n).mp hc)), if_neg hb]; omega
      have hx := h2.extend
      have hlo := neg_le_exc c.testBit (n + 1)
      unfold step
      simp only
      rw [he]
      split
      · rename_i hgt
        rw [if_pos (by omega), if_pos (by omega)] at hx
        refine ⟨rfl, ?_⟩
        have e1 : ((((-exc c.testBit (n + 1)).toNat % 256 : Nat)) : Int) = -exc c.testBit (n + 1) := by omega
        have e2 : (n + 1) % 256 = n + 1 := by omega
        simp only [e1, e2, Int.neg_neg]
        exact hx
      · rename_i hgt
        rw [if_neg (by omega), if_neg (by omega)] at hx
        exact ⟨rfl, hx⟩

theorem fwd_spec (c : Nat) : (fwd c).exc = exc c.testBit 8 ∧ Best (exc c.testBit) 0 8 (-((fwd c).min : Int)) (fwd c).idx :=
  fold_spec c 8 (Nat.le_refl _)

end ExcessTables

namespace Exc

/-- byte `i` of a word -/
theorem byte_testBit (word : W) (i j : Nat) (hj : j < 8) : ((word >>> (i * 8)) &&& 0xFF).toNat.testBit j = word.getLsbD (8 * i + j) := by
  rw [BitVec.testBit_toNat, BitVec.getLsbD_and, BitVec.getLsbD_ushiftRight, Nat.mul_comm]
  have : (0xFF : W).getLsbD j = true := by
    have : ∀ j : Fin 8, (0xFF : W).getLsbD j = true := by decide
    exact this ⟨j, hj⟩
  rw [this, Bool.and_true]

theorem byte_spec (word : W) (i : Nat) (e0 : Int) (t : ExcessTables.Entry)
    (ht : ExcessTables.fwd ((word >>> (i * 8)) &&& 0xFF).toNat = t) :
    t.exc = exc word.getLsbD (8 * (i + 1)) - exc word.getLsbD (8 * i) ∧
    Best (fun q => e0 + exc word.getLsbD q) (8 * i) (8 * (i + 1)) (e0 + exc word.getLsbD (8 * i) - t.min) (8 * i + t.idx) := by
  obtain ⟨h1, h2⟩ := ExcessTables.fwd_spec ((word >>> (i * 8)) &&& 0xFF).toNat
  rw [ht] at h1 h2
  have hb : ∀ n, n ≤ 8 → exc word.getLsbD (8 * i + n) = exc word.getLsbD (8 * i) + exc ((word >>> (i * 8)) &&& 0xFF).toNat.testBit n := by
    intro n hn
    rw [exc_add]
    congr 1
    apply exc_congr
    intro j hj
    exact (byte_testBit word i j (by omega)).symm
  constructor
  · rw [h1, show 8 * (i + 1) = 8 * i + 8 by omega, hb 8 (Nat.le_refl _)]; omega
  · have h3 : Best (fun q => e0 + exc word.getLsbD (8 * i) + exc ((word >>> (i * 8)) &&& 0xFF).toNat.testBit q) 0 8
        (e0 + exc word.getLsbD (8 * i) - t.min) t.idx := by
      refine ⟨h2.lo_le, h2.le_hi, ?_, ?_, ?_⟩
      · have := h2.val; omega
      · intro q a b
        have := h2.le q a b; omega
      · intro q a b
        have := h2.left q a b; omega
    have h4 := h3.shift (e' := fun q => e0 + exc word.getLsbD q) (s := 8 * i) (by
      intro q _ hq
      rw [hb q hq]; omega)
    exact h4

/-- the scan of the bytes, relative to a starting excess `e0` and a threshold -/
theorem bytes_spec (word : W) (e0 m0 : Int) : ∀ n, ∀ t, (List.range n).foldl (byteStep word) ⟨e0, m0, 0⟩ = t →
    t.cur = e0 + exc word.getLsbD (8 * n) ∧
    ((t.min = m0 ∧ (0 < n → ∀ q, q ≤ 8 * n → m0 ≤ e0 + exc word.getLsbD q)) ∨
     (t.min < m0 ∧ Best (fun q => e0 + exc word.getLsbD q) 0 (8 * n) t.min
        (8 * t.idx + (ExcessTables.fwd ((word >>> (t.idx * 8)) &&& 0xFF).toNat).idx))) := by
  intro n
  induction n with
  | zero => rintro t rfl; exact ⟨by simp [exc_zero], Or.inl ⟨rfl, by omega⟩⟩
  | succ n ih =>
      intro u hu
      rw [List.range_succ, List.foldl_append, List.foldl_cons, List.foldl_nil] at hu
      generalize ht : (List.range n).foldl (byteStep word) ⟨e0, m0, 0⟩ = t at hu
      obtain ⟨h2, h3⟩ := ih t ht
      generalize hf : ExcessTables.fwd ((word >>> (n * 8)) &&& 0xFF).toNat = f
      obtain ⟨b1, b2⟩ := byte_spec word n e0 f hf
      unfold byteStep at hu
      rw [hf, h2] at hu
      dsimp only at hu
      by_cases hlt : e0 + exc word.getLsbD (8 * n) - f.min < t.min
      · rw [if_pos hlt] at hu
        subst hu
        dsimp only
        refine ⟨by omega, Or.inr ?_⟩
        rw [hf]
        rcases h3 with ⟨c1, c2⟩ | ⟨c1, c2⟩
        · refine ⟨by omega, Nat.zero_le _, b2.le_hi, b2.val, ?_, ?_⟩
          · intro q _ q2
            by_cases hq : q < 8 * n
            · have := c2 (by omega) q (by omega); omega
            · exact b2.le q (by omega) q2
          · intro q _ q2
            by_cases hq : q < 8 * n
            · have := c2 (by omega) q (by omega); omega
            · exact b2.left q (by omega) q2
        · have := c2.merge b2 (by omega) (by omega) (by omega)
          rw [if_pos hlt, if_pos hlt] at this
          exact ⟨by omega, this⟩
      · rw [if_neg hlt] at hu
        subst hu
        dsimp only
        refine ⟨by omega, ?_⟩
        rcases h3 with ⟨c1, c2⟩ | ⟨c1, c2⟩
        · refine Or.inl ⟨c1, ?_⟩
          intro _ q hq
          by_cases hq' : q < 8 * n
          · exact c2 (by omega) q (by omega)
          · have := b2.le q (by omega) hq; omega
        · have := c2.merge b2 (by omega) (by omega) (by omega)
          rw [if_neg hlt, if_neg hlt] at this
          exact Or.inr ⟨c1, this⟩

/-- `excess_rmq_in_word`: the leftmost minimum over the 65 positions from the beginning of the word to its end -/
theorem inWord_spec (word : W) (start : Nat) (s : Exc) : ∃ m j, Best (fun q => s.cur + exc word.getLsbD q) 0 64 m j ∧
    inWord word start s = ⟨s.cur + exc word.getLsbD 64, if m < s.min then m else s.min, if m < s.min then start + j else s.idx⟩ := by
  unfold inWord
  generalize ht : (List.range 8).foldl (byteStep word) ⟨s.cur, s.min, 0⟩ = t
  obtain ⟨h2, h3⟩ := bytes_spec word s.cur s.min 8 t ht
  dsimp only
  rcases h3 with ⟨c1, c2⟩ | ⟨c1, c2⟩
  · obtain ⟨m, j, hb⟩ := Best.exists (fun q => s.cur + exc word.getLsbD q) 0 64 (by omega)
    have := c2 (by omega) j hb.le_hi
    have hv := hb.val
    refine ⟨m, j, hb, ?_⟩
    rw [if_neg (by omega), if_neg (by omega), if_neg (by omega), h2]
  · refine ⟨_, _, c2, ?_⟩
    rw [if_pos c1, if_pos c1, if_pos c1, h2, Nat.add_assoc, Nat.mul_comm t.idx 8]

end Exc
end AC
