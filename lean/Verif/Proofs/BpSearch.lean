import Verif.Model.BpMatch
import Verif.Proofs.BpRmq
/-!
# The first block, forwards or backwards, where the excess gets low
-/
namespace AC.BP

variable {b : BP}

theorem bme_le_iff {c : Nat} {t : Int} (hc : 256 * c ≤ b.rs.bv.size) :
    b.bme c ≤ t ↔ ∃ q, 256 * c ≤ q ∧ q ≤ 256 * (c + 1) ∧ q ≤ b.rs.bv.size ∧ exW b.rs.bv.bits q ≤ t := by
  unfold bme
  rw [bm_eq]
  constructor
  · intro h
    obtain ⟨q, q1, q2, q3⟩ := minOver_mem (exW b.rs.bv.bits) (256 * c) (min (256 * (c + 1)) b.rs.bv.size - 256 * c)
    exact ⟨q, q1, by omega, by omega, by omega⟩
  · rintro ⟨q, q1, q2, q3, q4⟩
    have := minOver_le (exW b.rs.bv.bits) (256 * c) (min (256 * (c + 1)) b.rs.bv.size - 256 * c) q q1 (by omega)
    omega

theorem sme_le_iff (H : b.Rep) {k : Nat} {t : Int} (hk : k < b.supers) :
    b.sme k ≤ t ↔ ∃ c, 32 * k ≤ c ∧ c < 32 * (k + 1) ∧ c < b.blocks ∧ b.bme c ≤ t := by
  have hlen := H.rs.wf
  unfold wordsFor at hlen
  unfold supers at hk
  have hbl : b.blocks = (b.rs.bv.bits.length + 3) / 4 := rfl
  unfold sme sm
  constructor
  · intro h
    obtain ⟨q, q1, q2, q3⟩ := minOver_mem (exW b.rs.bv.bits) (8192 * k) (min (8192 * (k + 1)) b.rs.bv.size - 8192 * k)
    by_cases hq : q = 8192 * k
    · exact ⟨32 * k, by omega, by omega, by omega, (bme_le_iff (by omega)).mpr ⟨q, by omega, by omega, by omega, by omega⟩⟩
    · exact ⟨(q - 1) / 256, by omega, by omega, by omega, (bme_le_iff (by omega)).mpr ⟨q, by omega, by omega, by omega, by omega⟩⟩
  · rintro ⟨c, c1, c2, c3, c4⟩
    obtain ⟨q, q1, q2, q3, q4⟩ := (bme_le_iff (by omega)).mp c4
    have := minOver_le (exW b.rs.bv.bits) (8192 * k) (min (8192 * (k + 1)) b.rs.bv.size - 8192 * k) q (by omega) (by omega)
    omega

/-! ## Within a superblock -/

theorem rd_block (H : b.Rep) {c s : Nat} (hc : c < b.blocks) (hs : c / 32 = s) :
    rd b.blockMin c = .ok (b.bme c - exW b.rs.bv.bits (8192 * s)) := by
  apply rd_of_getElem?
  rw [H.blocks, List.getElem?_map, List.getElem?_range (by unfold blocks at hc; omega)]
  simp only [Option.map_some, Option.some.injEq]
  rw [hs]
  rfl

theorem blockUp_spec (H : b.Rep) (s : Nat) {t : Int} : ∀ n c, c / 32 = s ∨ n = 0 → c + n ≤ 32 * (s + 1) → c + n ≤ b.blocks →
    (∃ k, c ≤ k ∧ k < c + n ∧ b.bme k ≤ t ∧ (∀ j, c ≤ j → j < k → t < b.bme j) ∧
      blockUp b.blockMin (exW b.rs.bv.bits (8192 * s)) t n c = .ok (some k)) ∨
    ((∀ j, c ≤ j → j < c + n → t < b.bme j) ∧ blockUp b.blockMin (exW b.rs.bv.bits (8192 * s)) t n c = .ok none) := by
  intro n
  induction n with
  | zero => intro c _ _ _; exact Or.inr ⟨fun j h1 h2 => by omega, rfl⟩
  | succ n ih =>
      intro c h1 h2 h3
      have hs : c / 32 = s := by omega
      unfold blockUp
      rw [rd_block H (by omega) hs, M.ok_bind, show exW b.rs.bv.bits (8192 * s) + (b.bme c - exW b.rs.bv.bits (8192 * s)) = b.bme c by omega]
      by_cases ht : t ≥ b.bme c
      · rw [if_pos ht]
        exact Or.inl ⟨c, Nat.le_refl _, by omega, ht, fun j h1 h2 => by omega, rfl⟩
      · rw [if_neg ht]
        rcases ih (c + 1) (by omega) (by omega) (by omega) with ⟨k, k1, k2, k3, k4, k5⟩ | ⟨k1, k2⟩
        · refine Or.inl ⟨k, by omega, by omega, k3, ?_, k5⟩
          intro j j1 j2
          by_cases hj : j = c
          · subst hj; omega
          · exact k4 j (by omega) j2
        · refine Or.inr ⟨?_, k2⟩
          intro j j1 j2
          by_cases hj : j = c
          · subst hj; omega
          · exact k1 j (by omega) (by omega)

theorem blockDown_spec (H : b.Rep) (s : Nat) {t : Int} : ∀ n, n ≤ 32 → 32 * s + n ≤ b.blocks →
    (∃ k, 32 * s ≤ k ∧ k < 32 * s + n ∧ b.bme k ≤ t ∧ (∀ j, k < j → j < 32 * s + n → t < b.bme j) ∧
      blockDown b.blockMin (exW b.rs.bv.bits (8192 * s)) t (s * 32) n = .ok (some k)) ∨
    ((∀ j, 32 * s ≤ j → j < 32 * s + n → t < b.bme j) ∧ blockDown b.blockMin (exW b.rs.bv.bits (8192 * s)) t (s * 32) n = .ok none) := by
  intro n
  induction n with
  | zero => intro _ _; exact Or.inr ⟨fun j h1 h2 => by omega, rfl⟩
  | succ n ih =>
      intro h1 h2
      unfold blockDown
      rw [rd_block H (c := s * 32 + n) (s := s) (by omega) (by omega), M.ok_bind,
        show exW b.rs.bv.bits (8192 * s) + (b.bme (s * 32 + n) - exW b.rs.bv.bits (8192 * s)) = b.bme (s * 32 + n) by omega]
      by_cases ht : t ≥ b.bme (s * 32 + n)
      · rw [if_pos ht]
        exact Or.inl ⟨s * 32 + n, by omega, by omega, ht, fun j h1 h2 => by omega, rfl⟩
      · rw [if_neg ht]
        rcases ih (by omega) (by omega) with ⟨k, k1, k2, k3, k4, k5⟩ | ⟨k1, k2⟩
        · refine Or.inl ⟨k, by omega, by omega, k3, ?_, k5⟩
          intro j j1 j2
          by_cases hj : j = s * 32 + n
          · subst hj; omega
          · exact k4 j j1 (by omega)
        · refine Or.inr ⟨?_, k2⟩
          intro j j1 j2
          by_cases hj : j = s * 32 + n
          · subst hj; omega
          · exact k1 j j1 (by omega)

theorem searchSuper_up (H : b.Rep) {c : Nat} {t : Int} (hc : c < b.blocks) :
    (∃ k, c ≤ k ∧ k < 32 * (c / 32 + 1) ∧ k < b.blocks ∧ b.bme k ≤ t ∧ (∀ j, c ≤ j → j < k → t < b.bme j) ∧ b.searchSuper true c t = .ok (some k)) ∨
    ((∀ j, c ≤ j → j < 32 * (c / 32 + 1) → j < b.blocks → t < b.bme j) ∧ b.searchSuper true c t = .ok none) := by
  have hlen := H.rs.wf
  unfold wordsFor at hlen
  have hbl : b.blocks = (b.rs.bv.bits.length + 3) / 4 := rfl
  have hl : b.blockMin.length = b.blocks := by rw [H.blocks, List.length_map, List.length_range]; rfl
  unfold searchSuper
  dsimp only
  rw [blockExcess_spec H.rs (by omega) H.small, M.ok_bind, if_pos rfl, hl, show 256 * (c / 32 * 32) = 8192 * (c / 32) by omega]
  rcases blockUp_spec H (c / 32) (t := t) (min ((c / 32 + 1) * 32) b.blocks - c) c (Or.inl rfl) (by omega) (by omega) with
    ⟨k, k1, k2, k3, k4, k5⟩ | ⟨k1, k2⟩
  · exact Or.inl ⟨k, k1, by omega, by omega, k3, k4, k5⟩
  · exact Or.inr ⟨fun j j1 j2 j3 => k1 j j1 (by omega), k2⟩

theorem searchSuper_down (H : b.Rep) {c : Nat} {t : Int} (hc : c < b.blocks) :
    (∃ k, 32 * (c / 32) ≤ k ∧ k ≤ c ∧ b.bme k ≤ t ∧ (∀ j, k < j → j ≤ c → t < b.bme j) ∧ b.searchSuper false c t = .ok (some k)) ∨
    ((∀ j, 32 * (c / 32) ≤ j → j ≤ c → t < b.bme j) ∧ b.searchSuper false c t = .ok none) := by
  have hlen := H.rs.wf
  unfold wordsFor at hlen
  have hbl : b.blocks = (b.rs.bv.bits.length + 3) / 4 := rfl
  unfold searchSuper
  dsimp only
  rw [blockExcess_spec H.rs (by omega) H.small, M.ok_bind, if_neg (by decide), show 256 * (c / 32 * 32) = 8192 * (c / 32) by omega]
  rcases blockDown_spec H (c / 32) (t := t) (c - c / 32 * 32 + 1) (by omega) (by omega) with ⟨k, k1, k2, k3, k4, k5⟩ | ⟨k1, k2⟩
  · exact Or.inl ⟨k, k1, by omega, k3, fun j j1 j2 => k4 j j1 (by omega), k5⟩
  · exact Or.inr ⟨fun j j1 j2 => k1 j j1 (by omega), k2⟩

/-! ## The tree -/

/-- node `c` of level `d`, at height `h`, spans the superblocks from `c * 2^h` up to `(c + 1) * 2^h`, of which some may not
exist -/
structure Node (b : BP) (h d c : Nat) : Prop where
  int : b.internal = 2 ^ (h + d)
  lt : c < 2 ^ d

theorem node_le (H : b.Rep) {t : Int} (ht : t < b.rs.bv.size) : ∀ h d c, Node b h d c → (h = 0 → c < b.supers) →
    ∃ m, b.superMin[2 ^ d + c]? = some m ∧ (m ≤ t ↔ ∃ k, c * 2 ^ h ≤ k ∧ k < (c + 1) * 2 ^ h ∧ k < b.supers ∧ b.sme k ≤ t) := by
  intro h
  induction h with
  | zero =>
      intro d c hn h0
      have := hn.int
      rw [Nat.zero_add] at this
      have hl := H.leaf c (h0 rfl)
      rw [this] at hl
      refine ⟨_, hl, ?_⟩
      simp only [Nat.pow_zero, Nat.mul_one]
      constructor
      · intro h; exact ⟨c, Nat.le_refl _, by omega, h0 rfl, h⟩
      · rintro ⟨k, k1, k2, _, k3⟩
        rw [show k = c by omega] at k3
        exact k3
  | succ h ih =>
      intro d c hn _
      have hint := hn.int
      have hlt := hn.lt
      have e1 : 2 ^ (d + 1) = 2 ^ d + 2 ^ d := by rw [Nat.pow_succ]; omega
      have hp := Nat.two_pow_pos d
      have hv : 2 ^ d + c < b.internal := by
        have : 2 ^ (d + 1) ≤ 2 ^ (h + 1 + d) := Nat.pow_le_pow_right (by omega) (by omega)
        omega
      have n1 : Node b h (d + 1) (2 * c) := ⟨by rw [hint]; congr 1; omega, by omega⟩
      have n2 : Node b h (d + 1) (2 * c + 1) := ⟨by rw [hint]; congr 1; omega, by omega⟩
      have i1 : 2 ^ (d + 1) + 2 * c = 2 * (2 ^ d + c) := by omega
      have i2 : 2 ^ (d + 1) + (2 * c + 1) = 2 * (2 ^ d + c) + 1 := by omega
      have hl : b.superMin.length = b.internal + b.supers := H.len
      have split : ∀ m1 m2 : Int,
          (m1 ≤ t ↔ ∃ k, 2 * c * 2 ^ h ≤ k ∧ k < (2 * c + 1) * 2 ^ h ∧ k < b.supers ∧ b.sme k ≤ t) →
          (m2 ≤ t ↔ ∃ k, (2 * c + 1) * 2 ^ h ≤ k ∧ k < (2 * c + 1 + 1) * 2 ^ h ∧ k < b.supers ∧ b.sme k ≤ t) →
          (min m1 m2 ≤ t ↔ ∃ k, c * 2 ^ (h + 1) ≤ k ∧ k < (c + 1) * 2 ^ (h + 1) ∧ k < b.supers ∧ b.sme k ≤ t) := by
        intro m1 m2 h1 h2
        have a1 : c * 2 ^ (h + 1) = 2 * c * 2 ^ h := by rw [Nat.pow_succ, Nat.mul_comm 2 c, Nat.mul_assoc, Nat.mul_comm 2 (2 ^ h)]
        have a2 : (c + 1) * 2 ^ (h + 1) = (2 * c + 1 + 1) * 2 ^ h := by
          rw [Nat.pow_succ, show 2 * c + 1 + 1 = (c + 1) * 2 by omega, Nat.mul_assoc, Nat.mul_comm 2 (2 ^ h)]
        have a3 : (2 * c + 1) * 2 ^ h = 2 * c * 2 ^ h + 2 ^ h := by rw [Nat.add_mul, Nat.one_mul]
        have a4 : (2 * c + 1 + 1) * 2 ^ h = 2 * c * 2 ^ h + 2 ^ h + 2 ^ h := by rw [Nat.add_mul, a3, Nat.one_mul]
        rw [a1, a2]
        constructor
        · intro hm
          by_cases hm1 : m1 ≤ t
          · obtain ⟨k, k1, k2, k3, k4⟩ := h1.mp hm1
            exact ⟨k, k1, by omega, k3, k4⟩
          · obtain ⟨k, k1, k2, k3, k4⟩ := h2.mp (by omega)
            exact ⟨k, by omega, k2, k3, k4⟩
        · rintro ⟨k, k1, k2, k3, k4⟩
          by_cases hk : k < (2 * c + 1) * 2 ^ h
          · have := h1.mpr ⟨k, k1, hk, k3, k4⟩; omega
          · have := h2.mpr ⟨k, by omega, k2, k3, k4⟩; omega
      by_cases c2 : h = 0 ∧ b.supers ≤ 2 * c + 1
      · obtain ⟨rfl, c2⟩ := c2
        have hint2 : b.internal = 2 ^ (d + 1) := by rw [hint]; congr 1; omega
        have none2 : ∀ m2 : Int, t < m2 → (m2 ≤ t ↔ ∃ k, (2 * c + 1) * 2 ^ 0 ≤ k ∧ k < (2 * c + 1 + 1) * 2 ^ 0 ∧ k < b.supers ∧ b.sme k ≤ t) := by
          intro m2 hm2
          constructor
          · intro h; omega
          · rintro ⟨k, k1, k2, k3, k4⟩
            simp only [Nat.pow_zero, Nat.mul_one] at k1 k2
            omega
        by_cases c1 : b.supers ≤ 2 * c
        · refine ⟨_, H.gap _ hv (by omega), ?_⟩
          have := split (b.rs.bv.size : Int) (b.rs.bv.size : Int) (by
            constructor
            · intro h; omega
            · rintro ⟨k, k1, k2, k3, k4⟩
              simp only [Nat.pow_zero, Nat.mul_one] at k1 k2
              omega) (none2 _ ht)
          rw [Int.min_self] at this
          exact this
        · obtain ⟨m1, t1, t2⟩ := ih (d + 1) (2 * c) n1 (fun _ => by omega)
          rw [i1] at t1
          refine ⟨m1, H.half _ m1 (by omega) hv (by omega) t1, ?_⟩
          have := split m1 (max m1 (t + 1)) t2 (none2 _ (by omega))
          rw [show min m1 (max m1 (t + 1)) = m1 by omega] at this
          exact this
      · obtain ⟨m1, t1, t2⟩ := ih (d + 1) (2 * c) n1 (fun h => by omega)
        obtain ⟨m2, s1, s2⟩ := ih (d + 1) (2 * c + 1) n2 (fun h => by omega)
        rw [i1] at t1
        rw [i2] at s1
        exact ⟨_, H.node _ m1 m2 (by omega) hv t1 s1, split m1 m2 t2 s2⟩

theorem climb_up (H : b.Rep) {t : Int} (ht : t < b.rs.bv.size) {k : Nat} (hk : k < b.supers) (hkt : b.sme k ≤ t) :
    ∀ d h c fuel, d < fuel → Node b h d c → (c + 1) * 2 ^ h ≤ k → (∀ j, (c + 1) * 2 ^ h ≤ j → j < k → t < b.sme j) →
    ∃ h' d' c', climb b.superMin true t fuel (2 ^ d + c) = .ok (2 ^ d' + c') ∧ Node b h' d' c' ∧ c' * 2 ^ h' ≤ k ∧ k < (c' + 1) * 2 ^ h' ∧
      ∀ j, c' * 2 ^ h' ≤ j → j < k → t < b.sme j := by
  have hfit : b.supers ≤ b.internal := H.fits
  intro d
  induction d with
  | zero =>
      intro h c fuel _ hn hck
      have := hn.int
      have hlt := hn.lt
      rw [Nat.pow_zero] at hlt
      rw [show c = 0 by omega, Nat.zero_add, Nat.one_mul] at hck
      rw [Nat.add_zero] at this
      omega
  | succ d ih =>
      intro h c fuel hf hn hck hbef
      obtain ⟨fuel, rfl⟩ : ∃ f, fuel = f + 1 := ⟨fuel - 1, by omega⟩
      have hint := hn.int
      have hlt := hn.lt
      have e1 : 2 ^ (d + 1) = 2 ^ d + 2 ^ d := by rw [Nat.pow_succ]; omega
      have hpar : Node b (h + 1) d (c / 2) := ⟨by rw [hint]; congr 1; omega, by omega⟩
      have hdiv : (2 ^ (d + 1) + c) / 2 = 2 ^ d + c / 2 := by omega
      unfold climb
      rw [hdiv]
      by_cases hodd : c % 2 = 1
      · have hc2 : (c / 2 + 1) * 2 ^ (h + 1) = (c + 1) * 2 ^ h := by
          rw [Nat.pow_succ, show c + 1 = (c / 2 + 1) * 2 by omega, Nat.mul_assoc, Nat.mul_comm 2 (2 ^ h)]
        rw [if_pos (by simp; omega)]
        apply ih (h + 1) (c / 2) fuel (by omega) hpar
        · rw [hc2]; exact hck
        · rw [hc2]; exact hbef
      · have hc2 : (c / 2 + 1) * 2 ^ (h + 1) = (c + 1 + 1) * 2 ^ h := by
          rw [Nat.pow_succ, show c + 1 + 1 = (c / 2 + 1) * 2 by omega, Nat.mul_assoc, Nat.mul_comm 2 (2 ^ h)]
        rw [if_neg (by simp; omega)]
        dsimp only
        have hsib : Node b h (d + 1) (c + 1) := ⟨hint, by omega⟩
        obtain ⟨m, m1, m2⟩ := node_le H ht h (d + 1) (c + 1) hsib (fun h0 => by
          subst h0
          rw [Nat.pow_zero, Nat.mul_one] at hck
          omega)
        rw [if_pos rfl, Nat.add_assoc, rd_of_getElem? m1, M.ok_bind]
        by_cases hm : t ≥ m
        · rw [if_pos hm]
          obtain ⟨j, j1, j2, j3, j4⟩ := m2.mp hm
          refine ⟨h, d + 1, c + 1, rfl, hsib, hck, ?_, hbef⟩
          apply Nat.lt_of_not_le
          intro hle
          have := hbef j j1 (by omega)
          omega
        · rw [if_neg hm]
          apply ih (h + 1) (c / 2) fuel (by omega) hpar
          · rw [hc2]
            apply Nat.le_of_not_lt
            intro hlt
            exact hm (m2.mpr ⟨k, hck, hlt, hk, hkt⟩)
          · rw [hc2]
            intro j j1 j2
            apply hbef j _ j2
            exact Nat.le_trans (Nat.mul_le_mul_right _ (by omega)) j1

theorem climb_down (H : b.Rep) {t : Int} (ht : t < b.rs.bv.size) {k s : Nat} (hs : s < b.supers) (hkt : b.sme k ≤ t) :
    ∀ d h c fuel, d < fuel → Node b h d c → c * 2 ^ h ≤ s → k < c * 2 ^ h → (∀ j, k < j → j < c * 2 ^ h → t < b.sme j) →
    ∃ h' d' c', climb b.superMin false t fuel (2 ^ d + c) = .ok (2 ^ d' + c') ∧ Node b h' d' c' ∧ c' * 2 ^ h' ≤ k ∧ k < (c' + 1) * 2 ^ h' ∧
      (c' + 1) * 2 ^ h' ≤ s ∧ ∀ j, k < j → j < (c' + 1) * 2 ^ h' → t < b.sme j := by
  intro d
  induction d with
  | zero =>
      intro h c fuel _ hn _ hck
      have hlt := hn.lt
      rw [Nat.pow_zero] at hlt
      rw [show c = 0 by omega, Nat.zero_mul] at hck
      omega
  | succ d ih =>
      intro h c fuel hf hn hcs hck hbef
      obtain ⟨fuel, rfl⟩ : ∃ f, fuel = f + 1 := ⟨fuel - 1, by omega⟩
      have hint := hn.int
      have hlt := hn.lt
      have e1 : 2 ^ (d + 1) = 2 ^ d + 2 ^ d := by rw [Nat.pow_succ]; omega
      have hpar : Node b (h + 1) d (c / 2) := ⟨by rw [hint]; congr 1; omega, by omega⟩
      have hdiv : (2 ^ (d + 1) + c) / 2 = 2 ^ d + c / 2 := by omega
      unfold climb
      rw [hdiv]
      by_cases hodd : c % 2 = 0
      · have hc2 : c / 2 * 2 ^ (h + 1) = c * 2 ^ h := by
          rw [Nat.pow_succ, Nat.mul_comm (2 ^ h) 2, ← Nat.mul_assoc, show c / 2 * 2 = c by omega]
        have hx : ((2 ^ (d + 1) + c) % 2 == 1) = false := by
          rw [show (2 ^ (d + 1) + c) % 2 = 0 by omega]; rfl
        rw [hx, if_pos (by decide)]
        apply ih (h + 1) (c / 2) fuel (by omega) hpar
        · rw [hc2]; exact hcs
        · rw [hc2]; exact hck
        · rw [hc2]; exact hbef
      · obtain ⟨u, rfl⟩ : ∃ u, c = u + 1 := ⟨c - 1, by omega⟩
        have hc2 : (u + 1) / 2 * 2 ^ (h + 1) = u * 2 ^ h := by
          rw [Nat.pow_succ, Nat.mul_comm (2 ^ h) 2, ← Nat.mul_assoc, show (u + 1) / 2 * 2 = u by omega]
        have hle : u * 2 ^ h ≤ (u + 1) * 2 ^ h := Nat.mul_le_mul_right _ (by omega)
        have hx : ((2 ^ (d + 1) + (u + 1)) % 2 == 1) = true := by
          rw [show (2 ^ (d + 1) + (u + 1)) % 2 = 1 by omega]; rfl
        rw [hx, if_neg (by decide)]
        dsimp only
        have hsib : Node b h (d + 1) u := ⟨hint, by omega⟩
        obtain ⟨m, m1, m2⟩ := node_le H ht h (d + 1) u hsib (fun h0 => by
          subst h0
          rw [Nat.pow_zero, Nat.mul_one] at hcs
          omega)
        rw [if_neg (by decide), show 2 ^ (d + 1) + (u + 1) - 1 = 2 ^ (d + 1) + u by omega, rd_of_getElem? m1, M.ok_bind]
        by_cases hm : t ≥ m
        · rw [if_pos hm]
          obtain ⟨j, j1, j2, j3, j4⟩ := m2.mp hm
          refine ⟨h, d + 1, u, rfl, hsib, ?_, hck, hcs, hbef⟩
          apply Nat.le_of_not_lt
          intro hlt
          have := hbef j (by omega) j2
          omega
        · rw [if_neg hm]
          apply ih (h + 1) ((u + 1) / 2) fuel (by omega) hpar
          · rw [hc2]; omega
          · rw [hc2]
            apply Nat.lt_of_not_le
            intro hle
            exact hm (m2.mpr ⟨k, hle, hck, by omega, hkt⟩)
          · rw [hc2]
            intro j j1 j2
            exact hbef j j1 (by omega)

theorem children_at (c h : Nat) : c * 2 ^ (h + 1) = 2 * c * 2 ^ h ∧ (c + 1) * 2 ^ (h + 1) = (2 * c + 1 + 1) * 2 ^ h := by
  constructor
  · rw [Nat.pow_succ, Nat.mul_comm 2 c, Nat.mul_assoc, Nat.mul_comm 2 (2 ^ h)]
  · rw [Nat.pow_succ, show 2 * c + 1 + 1 = (c + 1) * 2 by omega, Nat.mul_assoc, Nat.mul_comm 2 (2 ^ h)]

theorem Node.children {h d c : Nat} (hn : Node b (h + 1) d c) : Node b h (d + 1) (2 * c) ∧ Node b h (d + 1) (2 * c + 1) ∧ 2 ^ d + c < b.internal := by
  have hint := hn.int
  have hlt := hn.lt
  have e1 : 2 ^ (d + 1) = 2 ^ d + 2 ^ d := by rw [Nat.pow_succ]; omega
  refine ⟨⟨by rw [hint]; congr 1; omega, by omega⟩, ⟨by rw [hint]; congr 1; omega, by omega⟩, ?_⟩
  have : 2 ^ (d + 1) ≤ 2 ^ (h + 1 + d) := Nat.pow_le_pow_right (by omega) (by omega)
  omega

theorem descend_up (H : b.Rep) {t : Int} (ht : t < b.rs.bv.size) {k : Nat} (hk : k < b.supers) (hkt : b.sme k ≤ t) :
    ∀ h d c fuel, h < fuel → Node b h d c → c * 2 ^ h ≤ k → k < (c + 1) * 2 ^ h → (∀ j, c * 2 ^ h ≤ j → j < k → t < b.sme j) →
    descend b.superMin b.internal true t fuel (2 ^ d + c) = .ok (b.internal + k) := by
  intro h
  induction h with
  | zero =>
      intro d c fuel hf hn h1 h2 _
      obtain ⟨fuel, rfl⟩ : ∃ f, fuel = f + 1 := ⟨fuel - 1, by omega⟩
      have := hn.int
      rw [Nat.zero_add] at this
      simp only [Nat.pow_zero, Nat.mul_one] at h1 h2
      unfold descend
      rw [if_neg (by omega), this, show c = k by omega]
  | succ h ih =>
      intro d c fuel hf hn h1 h2 hbef
      obtain ⟨fuel, rfl⟩ : ∃ f, fuel = f + 1 := ⟨fuel - 1, by omega⟩
      obtain ⟨n1, n2, hv⟩ := hn.children
      obtain ⟨a1, a2⟩ := children_at c h
      rw [a1] at h1 hbef
      rw [a2] at h2
      have e1 : 2 ^ (d + 1) = 2 ^ d + 2 ^ d := by rw [Nat.pow_succ]; omega
      obtain ⟨m, m1, m2⟩ := node_le H ht h (d + 1) (2 * c) n1 (fun h0 => by
        subst h0
        rw [Nat.pow_zero, Nat.mul_one] at h1
        omega)
      unfold descend
      rw [if_pos hv]
      dsimp only
      rw [if_pos rfl, show (2 ^ d + c) * 2 = 2 ^ (d + 1) + 2 * c by omega, rd_of_getElem? m1, M.ok_bind]
      by_cases hm : t ≥ m
      · rw [if_pos hm]
        obtain ⟨j, j1, j2, j3, j4⟩ := m2.mp hm
        apply ih (d + 1) (2 * c) fuel (by omega) n1 h1 _ hbef
        apply Nat.lt_of_not_le
        intro hle
        have := hbef j j1 (by omega)
        omega
      · rw [if_neg hm, if_pos rfl, Nat.add_assoc]
        have hle : (2 * c + 1) * 2 ^ h ≤ k := by
          apply Nat.le_of_not_lt
          intro hlt
          exact hm (m2.mpr ⟨k, h1, hlt, hk, hkt⟩)
        apply ih (d + 1) (2 * c + 1) fuel (by omega) n2 hle h2
        intro j j1 j2
        apply hbef j _ j2
        exact Nat.le_trans (Nat.mul_le_mul_right _ (by omega)) j1

theorem descend_down (H : b.Rep) {t : Int} (ht : t < b.rs.bv.size) {k : Nat} (hkt : b.sme k ≤ t) :
    ∀ h d c fuel, h < fuel → Node b h d c → (c + 1) * 2 ^ h ≤ b.supers → c * 2 ^ h ≤ k → k < (c + 1) * 2 ^ h →
    (∀ j, k < j → j < (c + 1) * 2 ^ h → t < b.sme j) →
    descend b.superMin b.internal false t fuel (2 ^ d + c) = .ok (b.internal + k) := by
  intro h
  induction h with
  | zero =>
      intro d c fuel hf hn _ h1 h2 _
      obtain ⟨fuel, rfl⟩ : ∃ f, fuel = f + 1 := ⟨fuel - 1, by omega⟩
      have := hn.int
      rw [Nat.zero_add] at this
      simp only [Nat.pow_zero, Nat.mul_one] at h1 h2
      unfold descend
      rw [if_neg (by omega), this, show c = k by omega]
  | succ h ih =>
      intro d c fuel hf hn hs h1 h2 hbef
      obtain ⟨fuel, rfl⟩ : ∃ f, fuel = f + 1 := ⟨fuel - 1, by omega⟩
      obtain ⟨n1, n2, hv⟩ := hn.children
      obtain ⟨a1, a2⟩ := children_at c h
      rw [a1] at h1
      rw [a2] at h2 hbef hs
      have e1 : 2 ^ (d + 1) = 2 ^ d + 2 ^ d := by rw [Nat.pow_succ]; omega
      have hmono : (2 * c + 1) * 2 ^ h ≤ (2 * c + 1 + 1) * 2 ^ h := Nat.mul_le_mul_right _ (by omega)
      obtain ⟨m, m1, m2⟩ := node_le H ht h (d + 1) (2 * c + 1) n2 (fun h0 => by
        subst h0
        rw [Nat.pow_zero, Nat.mul_one] at hs
        omega)
      unfold descend
      rw [if_pos hv]
      dsimp only
      rw [if_neg (by decide), show (2 ^ d + c) * 2 + 1 = 2 ^ (d + 1) + (2 * c + 1) by omega, rd_of_getElem? m1, M.ok_bind]
      by_cases hm : t ≥ m
      · rw [if_pos hm]
        obtain ⟨j, j1, j2, j3, j4⟩ := m2.mp hm
        apply ih (d + 1) (2 * c + 1) fuel (by omega) n2 hs _ h2 hbef
        apply Nat.le_of_not_lt
        intro hlt
        have := hbef j (by omega) j2
        omega
      · rw [if_neg hm, if_neg (by decide), show 2 ^ (d + 1) + (2 * c + 1) - 1 = 2 ^ (d + 1) + 2 * c from rfl]
        have hlt : k < (2 * c + 1) * 2 ^ h := by
          apply Nat.lt_of_not_le
          intro hle
          exact hm (m2.mpr ⟨k, hle, h2, by omega, hkt⟩)
        apply ih (d + 1) (2 * c) fuel (by omega) n1 (by omega) h1 hlt
        intro j j1 j2
        exact hbef j j1 (by omega)

theorem Node.height {h d c : Nat} (hn : Node b h d c) : h < b.internal + 1 ∧ d < 2 * b.internal + 1 := by
  have := hn.int
  have : h + d < 2 ^ (h + d) := Nat.lt_two_pow_self
  omega

/-! ## The search -/

/-- forwards: the first block from `c` on whose least excess is at most `t`, if there is one -/
theorem searchTree_up (H : b.Rep) {t : Int} (ht : t < b.rs.bv.size) {c p : Nat} (h1 : c ≤ p) (hp : p < b.blocks) (hpt : b.bme p ≤ t)
    (hbef : ∀ j, c ≤ j → j < p → t < b.bme j) : b.searchTree true c t = .ok p := by
  have key : ∀ c', c ≤ c' → c' ≤ p → c' / 32 = p / 32 → b.searchSuper true c' t = .ok (some p) := by
    intro c' a1 a2 a3
    rcases searchSuper_up H (c := c') (t := t) (by omega) with ⟨k, k1, k2, k3, k4, k5, k6⟩ | ⟨k1, _⟩
    · rw [k6]
      rcases Nat.lt_trichotomy k p with h | h | h
      · have := hbef k (by omega) h; omega
      · rw [h]
      · have := k5 p (by omega) h; omega
    · have := k1 p (by omega) (by omega) hp
      omega
  have hbl : b.blocks = (b.rs.bv.bits.length + 3) / 4 := rfl
  have hsu : b.supers = (b.blocks + 31) / 32 := rfl
  unfold searchTree
  by_cases hs : c / 32 = p / 32
  · rw [key c (Nat.le_refl _) h1 hs, M.ok_bind]
  · have hno : b.searchSuper true c t = .ok none := by
      rcases searchSuper_up H (c := c) (t := t) (by omega) with ⟨k, k1, k2, k3, k4, k5, k6⟩ | ⟨_, k1⟩
      · have := hbef k (by omega) (by omega); omega
      · exact k1
    rw [hno, M.ok_bind]
    dsimp only
    obtain ⟨e, he⟩ := H.pow
    have hk : p / 32 < b.supers := by omega
    have hkt : b.sme (p / 32) ≤ t := (sme_le_iff H hk).mpr ⟨p, by omega, by omega, hp, hpt⟩
    have hbet : ∀ j, c / 32 + 1 ≤ j → j < p / 32 → t < b.sme j := by
      intro j j1 j2
      apply Int.not_le.mp
      intro hle
      obtain ⟨x, x1, x2, x3, x4⟩ := (sme_le_iff H (by omega)).mp hle
      have := hbef x (by omega) (by omega)
      omega
    have hfit : b.supers ≤ b.internal := H.fits
    have hn : Node b 0 e (c / 32) := ⟨by rw [he, Nat.zero_add], by omega⟩
    obtain ⟨h', d', c', r1, r2, r3, r4, r5⟩ := climb_up H ht hk hkt e 0 (c / 32) (2 * b.internal + 1) hn.height.2 hn
      (by rw [Nat.pow_zero, Nat.mul_one]; omega) (by rw [Nat.pow_zero, Nat.mul_one]; exact hbet)
    rw [← he] at r1
    rw [r1, M.ok_bind, descend_up H ht hk hkt h' d' c' (b.internal + 1) r2.height.1 r2 r3 r4 r5, M.ok_bind, if_pos rfl,
      show (b.internal + p / 32 - b.internal) * 32 + 0 = p / 32 * 32 by omega, key (p / 32 * 32) (by omega) (by omega) (by omega), M.ok_bind]
    rfl

/-- backwards: the last block up to `c` whose least excess is at most `t`, if there is one -/
theorem searchTree_down (H : b.Rep) {t : Int} (ht : t < b.rs.bv.size) {c p : Nat} (h1 : p ≤ c) (hc : c < b.blocks) (hpt : b.bme p ≤ t)
    (hbef : ∀ j, p < j → j ≤ c → t < b.bme j) : b.searchTree false c t = .ok p := by
  have key : ∀ c', p ≤ c' → c' ≤ c → c' / 32 = p / 32 → b.searchSuper false c' t = .ok (some p) := by
    intro c' a1 a2 a3
    rcases searchSuper_down H (c := c') (t := t) (by omega) with ⟨k, k1, k2, k4, k5, k6⟩ | ⟨k1, _⟩
    · rw [k6]
      rcases Nat.lt_trichotomy k p with h | h | h
      · have := k5 p h (by omega); omega
      · rw [h]
      · have := hbef k h (by omega); omega
    · have := k1 p (by omega) (by omega)
      omega
  have hbl : b.blocks = (b.rs.bv.bits.length + 3) / 4 := rfl
  have hsu : b.supers = (b.blocks + 31) / 32 := rfl
  unfold searchTree
  by_cases hs : c / 32 = p / 32
  · rw [key c h1 (Nat.le_refl _) hs, M.ok_bind]
  · have hno : b.searchSuper false c t = .ok none := by
      rcases searchSuper_down H (c := c) (t := t) hc with ⟨k, k1, k2, k4, k5, k6⟩ | ⟨_, k1⟩
      · have := hbef k (by omega) (by omega); omega
      · exact k1
    rw [hno, M.ok_bind]
    dsimp only
    obtain ⟨e, he⟩ := H.pow
    have hk : p / 32 < b.supers := by omega
    have hkt : b.sme (p / 32) ≤ t := (sme_le_iff H hk).mpr ⟨p, by omega, by omega, by omega, hpt⟩
    have hbet : ∀ j, p / 32 < j → j < c / 32 → t < b.sme j := by
      intro j j1 j2
      apply Int.not_le.mp
      intro hle
      obtain ⟨x, x1, x2, x3, x4⟩ := (sme_le_iff H (by omega)).mp hle
      have := hbef x (by omega) (by omega)
      omega
    have hfit : b.supers ≤ b.internal := H.fits
    have hn : Node b 0 e (c / 32) := ⟨by rw [he, Nat.zero_add], by omega⟩
    obtain ⟨h', d', c', r1, r2, r3, r4, r5, r6⟩ := climb_down H ht (s := c / 32) (by omega) hkt e 0 (c / 32) (2 * b.internal + 1) hn.height.2 hn
      (by rw [Nat.pow_zero, Nat.mul_one]; omega) (by rw [Nat.pow_zero, Nat.mul_one]; omega) (by rw [Nat.pow_zero, Nat.mul_one]; exact hbet)
    rw [← he] at r1
    rw [r1, M.ok_bind, descend_down H ht hkt h' d' c' (b.internal + 1) r2.height.1 r2 (by omega) r3 r4 r6, M.ok_bind, if_neg (by decide),
      show (b.internal + p / 32 - b.internal) * 32 + 31 = p / 32 * 32 + 31 by omega, key (p / 32 * 32 + 31) (by omega) (by omega) (by omega), M.ok_bind]
    rfl

end AC.BP
