import Verif.Proofs.Excess
import Verif.Proofs.RsBitVector
/-!
# What `bp_vector` stores: the least excess of every block, of every superblock, and the tree of minima
-/
namespace AC

/-- least value of `e` over `[lo, lo + n]` -/
def minOver (e : Nat → Int) (lo : Nat) : Nat → Int
  | 0 => e lo
  | n + 1 => min (minOver e lo n) (e (lo + n + 1))

theorem minOver_le (e : Nat → Int) (lo : Nat) : ∀ n q, lo ≤ q → q ≤ lo + n → minOver e lo n ≤ e q := by
  intro n
  induction n with
  | zero => intro q h1 h2; rw [show q = lo by omega]; exact Int.le_refl _
  | succ n ih =>
      intro q h1 h2
      show min _ _ ≤ _
      by_cases hq : q ≤ lo + n
      · have := ih q h1 hq; omega
      · rw [show q = lo + n + 1 by omega]; omega

theorem minOver_mem (e : Nat → Int) (lo : Nat) : ∀ n, ∃ q, lo ≤ q ∧ q ≤ lo + n ∧ minOver e lo n = e q := by
  intro n
  induction n with
  | zero => exact ⟨lo, Nat.le_refl _, Nat.le_refl _, rfl⟩
  | succ n ih =>
      obtain ⟨q, h1, h2, h3⟩ := ih
      show ∃ q, lo ≤ q ∧ q ≤ lo + (n + 1) ∧ min _ _ = _
      by_cases hq : minOver e lo n ≤ e (lo + n + 1)
      · exact ⟨q, h1, by omega, by omega⟩
      · exact ⟨lo + n + 1, by omega, by omega, by omega⟩

theorem minOver_eq {e : Nat → Int} {lo n : Nat} {m : Int} (h1 : ∀ q, lo ≤ q → q ≤ lo + n → m ≤ e q)
    (h2 : ∃ q, lo ≤ q ∧ q ≤ lo + n ∧ m = e q) : minOver e lo n = m := by
  obtain ⟨q, a, b, c⟩ := h2
  obtain ⟨q', a', b', c'⟩ := minOver_mem e lo n
  have := h1 q' a' b'
  have := minOver_le e lo n q a b
  omega

theorem Best.minOver {e : Nat → Int} {lo hi : Nat} {m : Int} {p : Nat} (h : Best e lo hi m p) : minOver e lo (hi - lo) = m := by
  have := h.lo_le
  have := h.le_hi
  exact minOver_eq (fun q a b => h.le q a (by omega)) ⟨p, by omega, by omega, h.val.symm⟩

theorem minOver_append (e : Nat → Int) (lo a b : Nat) :
    minOver e lo (a + b) = min (minOver e lo a) (minOver e (lo + a) b) := by
  apply minOver_eq
  · intro q h1 h2
    by_cases hq : q ≤ lo + a
    · have := minOver_le e lo a q h1 hq; omega
    · have := minOver_le e (lo + a) b q (by omega) (by omega); omega
  · obtain ⟨q, a1, a2, a3⟩ := minOver_mem e lo a
    obtain ⟨p, b1, b2, b3⟩ := minOver_mem e (lo + a) b
    by_cases h : minOver e lo a ≤ minOver e (lo + a) b
    · exact ⟨q, a1, by omega, by omega⟩
    · exact ⟨p, by omega, by omega, by omega⟩

/-- the excess of the first `q` bits -/
def exW (ws : List W) (q : Nat) : Int := exc (bitAt ws) q

theorem exW_zero (ws : List W) : exW ws 0 = 0 := rfl

theorem exW_word (ws : List W) (k : Nat) (hk : k < ws.length) (i : Nat) (hi : i ≤ 64) :
    exW ws (64 * k + i) = exW ws (64 * k) + exc ws[k].getLsbD i := by
  unfold exW
  rw [exc_add]
  congr 1
  apply exc_congr
  intro j hj
  exact (bitAt_word ws k j hk (by omega)).symm

theorem exW_diff (ws : List W) (a n : Nat) : -(n : Int) ≤ exW ws (a + n) - exW ws a ∧ exW ws (a + n) - exW ws a ≤ n := by
  unfold exW
  rw [exc_add]
  have := exc_le (fun i => bitAt ws (a + i)) n
  have := neg_le_exc (fun i => bitAt ws (a + i)) n
  omega

theorem int16_id {x : Int} (h1 : -32768 ≤ x) (h2 : x < 32768) : int16 x = x := by
  unfold int16
  apply Int.bmod_eq_of_le <;> omega

theorem int32_id {x : Int} (h1 : -2 ^ 31 ≤ x) (h2 : x < 2 ^ 31) : int32 x = x := by
  unfold int32
  apply Int.bmod_eq_of_le <;> omega

namespace BP

/-- least excess over block `k`, both its ends included -/
def bm (ws : List W) (size k : Nat) : Int := minOver (exW ws) (256 * k) (min (256 * (k + 1)) size - 256 * k)

/-- least excess over superblock `k` -/
def sm (ws : List W) (size k : Nat) : Int := minOver (exW ws) (8192 * k) (min (8192 * (k + 1)) size - 8192 * k)

/-- the state inside block `k / 4`, up to position `64 * k + i` -/
structure MinInv (ws : List W) (size k i : Nat) (s : MinSt) : Prop where
  exc : s.curExc = exW ws (64 * k + i) - exW ws (8192 * (k / 128))
  min : s.curMin = minOver (exW ws) (256 * (k / 4)) (64 * k + i - 256 * (k / 4)) - exW ws (8192 * (k / 128))
  blocks : s.blocks = (List.range (k / 4)).map (fun j => bm ws size j - exW ws (8192 * (j / 32)))

theorem bitStep_spec {ws : List W} {size k : Nat} (hk : k < ws.length) : ∀ i, i ≤ 64 → ∀ s, MinInv ws size k 0 s →
    MinInv ws size k i ((List.range i).foldl (bitStep ws[k]) s) := by
  intro i
  induction i with
  | zero => intro _ s h; exact h
  | succ i ih =>
      intro hi s h
      have h1 := ih (by omega) s h
      rw [List.range_succ, List.foldl_append, List.foldl_cons, List.foldl_nil]
      generalize (List.range i).foldl (bitStep ws[k]) s = t at h1
      have e1 : (if ws[k].getLsbD i then t.curExc + 1 else t.curExc - 1) = exW ws (64 * k + (i + 1)) - exW ws (8192 * (k / 128)) := by
        have a := exW_word ws k hk i (by omega)
        have b := exW_word ws k hk (i + 1) (by omega)
        rw [exc_succ] at b
        have c := h1.exc
        split
        · rename_i hb; rw [if_pos hb] at b; omega
        · rename_i hb; rw [if_neg hb] at b; omega
      unfold bitStep
      dsimp only
      rw [e1]
      refine ⟨rfl, ?_, h1.blocks⟩
      dsimp only
      rw [h1.min, show 64 * k + (i + 1) - 256 * (k / 4) = (64 * k + i - 256 * (k / 4)) + 1 by omega]
      show _ = Min.min _ _ - _
      rw [show 256 * (k / 4) + (64 * k + i - 256 * (k / 4)) + 1 = 64 * k + (i + 1) by omega]
      omega

theorem minOver_bound {ws : List W} {a n d s : Nat} (h1 : s ≤ a) (h2 : a + n ≤ s + d) :
    -(d : Int) ≤ minOver (exW ws) a n - exW ws s ∧ minOver (exW ws) a n - exW ws s ≤ d := by
  obtain ⟨q, q1, q2, q3⟩ := minOver_mem (exW ws) a n
  have := exW_diff ws s (q - s)
  rw [show s + (q - s) = q by omega] at this
  omega

/-- at the beginning of word `k`, before the test -/
def PreInv (ws : List W) (size k : Nat) (s : MinSt) : Prop :=
  (k = 0 ∧ s = ⟨[], 0, 0⟩) ∨ (0 < k ∧ MinInv ws size (k - 1) (min 64 (size - 64 * (k - 1))) s)

theorem flush {ws : List W} {size k i : Nat} {s : MinSt} (h : MinInv ws size k i s) (hi : i ≤ 64)
    (he : 64 * k + i = min (256 * (k / 4 + 1)) size) :
    s.blocks ++ [int16 s.curMin] = (List.range (k / 4 + 1)).map (fun j => bm ws size j - exW ws (8192 * (j / 32))) := by
  rw [List.range_succ, List.map_append, ← h.blocks, List.map_cons, List.map_nil]
  congr 2
  have e : s.curMin = bm ws size (k / 4) - exW ws (8192 * (k / 4 / 32)) := by
    rw [h.min, he]
    unfold bm
    rw [show k / 4 / 32 = k / 128 by omega]
  rw [← e]
  have := minOver_bound (ws := ws) (a := 256 * (k / 4)) (n := 64 * k + i - 256 * (k / 4)) (d := 8192) (s := 8192 * (k / 128))
    (by omega) (by omega)
  have e2 := h.min
  apply int16_id <;> omega

theorem wordStart_spec {ws : List W} {size k : Nat} {s : MinSt} (h : PreInv ws size k s) (hk : 64 * k ≤ size) :
    MinInv ws size k 0 (wordStart k s) := by
  rcases h with ⟨h0, hs⟩ | ⟨h0, hi⟩
  · subst h0; subst hs
    refine ⟨by simp [wordStart, exW_zero], by simp [wordStart, minOver, exW_zero], by simp [wordStart]⟩
  · have e64 : min 64 (size - 64 * (k - 1)) = 64 := by omega
    rw [e64] at hi
    have e1 : 64 * (k - 1) + 64 = 64 * k := by omega
    have hx := hi.exc
    rw [e1] at hx
    unfold wordStart
    by_cases hk4 : k % 4 = 0
    · rw [if_pos hk4]
      have hfl := flush hi (by omega) (by omega)
      rw [show (k - 1) / 4 + 1 = k / 4 by omega] at hfl
      have ee : (if k % 128 = 0 then 0 else s.curExc) = exW ws (64 * k) - exW ws (8192 * (k / 128)) := by
        split
        · rw [show 8192 * (k / 128) = 64 * k by omega]; omega
        · rw [hx, show (k - 1) / 128 = k / 128 by omega]
      dsimp only
      rw [if_pos (by omega), ee]
      refine ⟨rfl, ?_, hfl⟩
      dsimp only
      rw [show 64 * k + 0 - 256 * (k / 4) = 0 by omega]
      show _ = exW ws (256 * (k / 4)) - _
      rw [show 256 * (k / 4) = 64 * k by omega]
    · rw [if_neg hk4]
      refine ⟨?_, ?_, ?_⟩
      · rw [hx, show (k - 1) / 128 = k / 128 by omega]; rfl
      · rw [hi.min, show (k - 1) / 128 = k / 128 by omega, show (k - 1) / 4 = k / 4 by omega,
          show 64 * (k - 1) + 64 - 256 * (k / 4) = 64 * k + 0 - 256 * (k / 4) by omega]
      · rw [hi.blocks, show (k - 1) / 4 = k / 4 by omega]

theorem minLoop_spec {ws : List W} {size : Nat} (hlen : ws.length = wordsFor size) : ∀ (vs : List W) (k : Nat) (s : MinSt),
    vs = ws.drop k → k ≤ ws.length → PreInv ws size k s → PreInv ws size ws.length (minLoop size ws.length k vs s) := by
  unfold wordsFor at hlen
  intro vs
  induction vs with
  | nil =>
      intro k s hv hk h
      have : ws.length ≤ k := by
        have := congrArg List.length hv; simp at this; omega
      rw [show ws.length = k by omega]
      exact h
  | cons w vs ih =>
      intro k s hv hk h
      have hkl : k < ws.length := by
        have := congrArg List.length hv; simp at this; omega
      rw [List.drop_eq_getElem_cons hkl] at hv
      injection hv with hw hvs
      have h1 := wordStart_spec h (by omega)
      show PreInv ws size ws.length (minLoop size ws.length (k + 1) vs _)
      apply ih (k + 1) _ hvs (by omega)
      right
      refine ⟨by omega, ?_⟩
      rw [hw]
      have e : (if k = ws.length - 1 ∧ size % 64 ≠ 0 then size % 64 else 64) = min 64 (size - 64 * k) := by
        split <;> omega
      rw [e, Nat.add_sub_cancel]
      exact bitStep_spec hkl _ (by omega) _ h1

theorem buildBlocks_spec {ws : List W} {size : Nat} (hlen : ws.length = wordsFor size) (hs : 0 < size) :
    buildBlocks ws size = (List.range ((ws.length + 3) / 4)).map (fun j => bm ws size j - exW ws (8192 * (j / 32))) := by
  have h := minLoop_spec hlen ws 0 ⟨[], 0, 0⟩ rfl (Nat.zero_le _) (Or.inl ⟨rfl, rfl⟩)
  unfold wordsFor at hlen
  rcases h with ⟨h0, _⟩ | ⟨h0, hi⟩
  · omega
  · unfold buildBlocks
    have := flush hi (by omega) (by omega)
    rw [show (ws.length - 1) / 4 + 1 = (ws.length + 3) / 4 by omega] at this
    exact this

theorem blockExcess_spec {r : RS} (h : r.Rep) {k : Nat} (hk : 256 * k ≤ r.bv.size) (hsz : r.bv.size < 2 ^ 31) :
    blockExcess r k = .ok (exW r.bv.bits (256 * k)) := by
  unfold blockExcess
  have hw := h.wf
  unfold wordsFor at hw
  rw [RS.subBlockRank_spec h (by omega), M.ok_bind]
  apply congrArg Except.ok
  have e : 2 * ((ones r.bv.bits (64 * (k * 4)) : Nat) : Int) - ((k * 4 * 64 : Nat) : Int) = exW r.bv.bits (256 * k) := by
    unfold exW exc ones
    rw [show 64 * (k * 4) = 256 * k by omega, show k * 4 * 64 = 256 * k by omega]
  rw [e]
  have := exW_diff r.bv.bits 0 (256 * k)
  rw [exW_zero, Nat.zero_add] at this
  apply int32_id <;> omega

theorem bm_eq (ws : List W) (size k : Nat) : bm ws size k = minOver (exW ws) (256 * k) (min (256 * (k + 1)) size - 256 * k) := rfl

/-- the blocks of a superblock -/
theorem leafLoop_spec {ws : List W} {size : Nat} {blocks : List Int} (hlen : ws.length = wordsFor size)
    (hb : blocks = (List.range ((ws.length + 3) / 4)).map (fun j => bm ws size j - exW ws (8192 * (j / 32)))) (s : Nat) :
    ∀ n block m, 32 * s ≤ block → block + n ≤ 32 * (s + 1) → block + n ≤ (ws.length + 3) / 4 →
    m = (if block = 32 * s then (size : Int) else minOver (exW ws) (8192 * s) (min (256 * block) size - 8192 * s)) →
    0 < block + n - 32 * s →
    leafLoop blocks (exW ws (8192 * s)) n block m = .ok (minOver (exW ws) (8192 * s) (min (256 * (block + n)) size - 8192 * s)) := by
  unfold wordsFor at hlen
  intro n
  induction n with
  | zero =>
      intro block m h1 h2 h3 hm h4
      rw [if_neg (by omega)] at hm
      show Except.ok m = _
      rw [hm]; rfl
  | succ n ih =>
      intro block m h1 h2 h3 hm h4
      have hr : rd blocks block = .ok (bm ws size block - exW ws (8192 * s)) := by
        apply rd_of_getElem?
        rw [hb, List.getElem?_map, List.getElem?_range (by omega)]
        simp only [Option.map_some, Option.some.injEq]
        rw [show block / 32 = s by omega]
      show (do
        let x ← rd blocks block
        leafLoop blocks (exW ws (8192 * s)) n (block + 1) (min m (exW ws (8192 * s) + x))) = _
      rw [hr, M.ok_bind, show block + (n + 1) = (block + 1) + n by omega]
      apply ih (block + 1) _ (by omega) (by omega) (by omega) ?_ (by omega)
      rw [if_neg (by omega), hm]
      rw [show exW ws (8192 * s) + (bm ws size block - exW ws (8192 * s)) = bm ws size block by omega, bm_eq]
      split
      · rename_i hbk
        obtain ⟨q, q1, q2, q3⟩ := minOver_mem (exW ws) (256 * block) (min (256 * (block + 1)) size - 256 * block)
        have := exW_diff ws 0 q
        rw [exW_zero, Nat.zero_add] at this
        rw [show 8192 * s = 256 * block by omega]
        omega
      · rw [show min (256 * (block + 1)) size - 8192 * s = (256 * block - 8192 * s) + (min (256 * (block + 1)) size - 256 * block) by omega,
          minOver_append, show 8192 * s + (256 * block - 8192 * s) = 256 * block by omega, show min (256 * block) size = 256 * block by omega]

theorem leafValues_spec {r : RS} {blocks : List Int} (h : r.Rep) (hsz : r.bv.size < 2 ^ 31)
    (hb : blocks = (List.range ((r.bv.bits.length + 3) / 4)).map (fun j => bm r.bv.bits r.bv.size j - exW r.bv.bits (8192 * (j / 32)))) :
    ∀ n k, k + n = ((r.bv.bits.length + 3) / 4 + 31) / 32 →
    leafValues r blocks n k = .ok ((List.range n).map (fun i => sm r.bv.bits r.bv.size (k + i))) := by
  have hlen := h.wf
  unfold wordsFor at hlen
  have hbl : blocks.length = (r.bv.bits.length + 3) / 4 := by rw [hb]; simp
  intro n
  induction n with
  | zero => intro k _; rfl
  | succ n ih =>
      intro k hk
      show (do
        let e ← blockExcess r (k * 32)
        let m ← leafLoop blocks e (min ((k + 1) * 32) blocks.length - k * 32) (k * 32) (int32 r.bv.size)
        let l ← leafValues r blocks n (k + 1)
        .ok (m :: l)) = _
      rw [blockExcess_spec h (by omega) hsz, M.ok_bind, show 256 * (k * 32) = 8192 * k by omega, hbl,
        leafLoop_spec h.wf hb k _ _ _ (by omega) (by omega) (by omega) (by rw [if_pos (by omega)]; apply int32_id <;> omega) (by omega),
        M.ok_bind, ih (k + 1) (by omega), M.ok_bind]
      apply congrArg Except.ok
      rw [List.range_succ_eq_map, List.map_cons, List.map_map]
      have e1 : minOver (exW r.bv.bits) (8192 * k)
          (min (256 * (k * 32 + (min ((k + 1) * 32) ((r.bv.bits.length + 3) / 4) - k * 32))) r.bv.size - 8192 * k) = sm r.bv.bits r.bv.size (k + 0) := by
        unfold sm
        simp only [Nat.add_zero]
        rw [show min (256 * (k * 32 + (min ((k + 1) * 32) ((r.bv.bits.length + 3) / 4) - k * 32))) r.bv.size - 8192 * k
          = min (8192 * (k + 1)) r.bv.size - 8192 * k by omega]
      rw [e1]
      apply congrArg (List.cons _)
      apply List.map_congr_left
      intro i _
      rw [Function.comp_apply, Nat.add_assoc, Nat.add_comm 1 i]

theorem leaves_spec (n : Nat) : ∀ fuel k, 0 < k → n < k + fuel → 1 ≤ fuel → (∃ h, k = 2 ^ h) →
    ∃ h, leaves n fuel k = .ok (2 ^ h) ∧ n ≤ 2 ^ h := by
  intro fuel
  induction fuel with
  | zero =>
      intro k h0 h1 h2 _
      omega
  | succ fuel ih =>
      intro k h0 h1 h2 hp
      show ∃ h, (if k < n then leaves n fuel (2 * k) else .ok k) = _ ∧ _
      by_cases hk : k < n
      · rw [if_pos hk]
        obtain ⟨h, hh⟩ := hp
        exact ih (2 * k) (by omega) (by omega) (by omega) ⟨h + 1, by rw [hh, Nat.pow_succ]; omega⟩
      · rw [if_neg hk]
        obtain ⟨h, hh⟩ := hp
        exact ⟨h, by rw [hh], by omega⟩

/-- the tree after the nodes greater than `node` have updated their parents -/
structure FillInv (N T : Nat) (SZ : Int) (leafv : Nat → Int) (node : Nat) (t : List Int) : Prop where
  len : t.length = T
  leaf : ∀ v, N ≤ v → v < T → t[v]? = some (leafv (v - N))
  le : ∀ (v : Nat) x, t[v]? = some x → x ≤ SZ
  both : ∀ v a b, 1 ≤ v → v < N → node < 2 * v → t[2 * v]? = some a → t[2 * v + 1]? = some b → t[v]? = some (min a b)
  one : ∀ v b, 1 ≤ v → v < N → node = 2 * v → t[2 * v + 1]? = some b → t[v]? = some b
  none : ∀ v, v < N → 2 * v + 1 ≤ node → t[v]? = some SZ
  gap : ∀ v, v < N → T ≤ 2 * v → t[v]? = some SZ
  last : ∀ v, v < N → T = 2 * v + 1 → 2 * v ≤ node → t[v]? = some SZ
  half : ∀ v a, 1 ≤ v → v < N → T = 2 * v + 1 → node < 2 * v → t[2 * v]? = some a → t[v]? = some a

theorem fillLoop_spec {N T : Nat} {SZ : Int} {leafv : Nat → Int} (hTN : T ≤ 2 * N) : ∀ node t, 1 ≤ node → node < T →
    FillInv N T SZ leafv node t → ∃ t', fillLoop node t = .ok t' ∧ FillInv N T SZ leafv 1 t' := by
  intro node
  induction node with
  | zero => intro t h; omega
  | succ n ih =>
      intro t _ hT h
      match n, ih with
      | 0, _ => exact ⟨t, rfl, h⟩
      | n + 1, ih =>
        obtain ⟨p, hp⟩ : ∃ p, (n + 2) / 2 = p := ⟨_, rfl⟩
        have hpl : p < t.length := by rw [h.len]; omega
        have hnl : n + 2 < t.length := by rw [h.len]; omega
        show ∃ t', (do
          let p ← rd t ((n + 2) / 2)
          let x ← rd t (n + 2)
          let t ← wr t ((n + 2) / 2) (min p x)
          fillLoop (n + 1) t) = _ ∧ _
        rw [hp, rd_ok hpl, M.ok_bind, rd_ok hnl, M.ok_bind, wr_ok hpl, M.ok_bind]
        apply ih _ (by omega) (by omega)
        have hset : ∀ v, v ≠ p → (t.set p (min t[p] t[n + 2]))[v]? = t[v]? := fun v hv => List.getElem?_set_ne (Ne.symm hv)
        have hsetp : (t.set p (min t[p] t[n + 2]))[p]? = some (min t[p] t[n + 2]) := by
          rw [List.getElem?_set_self hpl]
        have hn2 : t[n + 2]? = some t[n + 2] := List.getElem?_eq_getElem hnl
        have hp2 : t[p]? = some t[p] := List.getElem?_eq_getElem hpl
        refine ⟨by rw [List.length_set]; exact h.len, ?_, ?_, ?_, ?_, ?_, ?_, ?_, ?_⟩
        · intro v h1 h2
          rw [hset v (by omega)]; exact h.leaf v h1 h2
        · intro v x hx
          by_cases hv : v = p
          · rw [hv, hsetp] at hx
            injection hx with hx
            have := h.le p _ hp2
            omega
          · rw [hset v hv] at hx; exact h.le v x hx
        · intro v a b h1 h2 h3 ha hb
          rw [hset (2 * v) (by omega)] at ha
          rw [hset (2 * v + 1) (by omega)] at hb
          by_cases hv : v = p
          · have e : n + 2 = 2 * v := by omega
            have hone := h.one v b h1 h2 e hb
            rw [hv] at hone
            rw [hp2] at hone
            rw [← e, hn2] at ha
            injection hone with hone
            injection ha with ha
            rw [hv, hsetp, hone, ha, Int.min_comm]
          · rw [hset v hv]
            exact h.both v a b h1 h2 (by omega) ha hb
        · intro v b h1 h2 h3 hb
          rw [hset (2 * v + 1) (by omega)] at hb
          have hv : v = p := by omega
          have hno := h.none v h2 (by omega)
          have hle := h.le _ _ hb
          rw [hv, hp2] at hno
          injection hno with hno
          rw [show 2 * v + 1 = n + 2 by omega, hn2] at hb
          injection hb with hb
          rw [hv, hsetp, hno, hb]
          congr 1; omega
        · intro v h1 h2
          rw [hset v (by omega)]
          exact h.none v h1 (by omega)
        · intro v h1 h2
          rw [hset v (by omega)]
          exact h.gap v h1 h2
        · intro v h1 h2 h3
          rw [hset v (by omega)]
          exact h.last v h1 h2 (by omega)
        · intro v a h1 h2 h3 h4 ha
          rw [hset (2 * v) (by omega)] at ha
          by_cases hv : v = p
          · have hno := h.last v h2 h3 (by omega)
            have hle := h.le _ _ ha
            rw [hv, hp2] at hno
            injection hno with hno
            rw [show 2 * v = n + 2 by omega, hn2] at ha
            injection ha with ha
            rw [hv, hsetp, hno, ha]
            congr 1; omega
          · rw [hset v hv]
            exact h.half v a h1 h2 h3 (by omega) ha

/-- what the structure stores about its bits -/
structure Rep (b : BP) : Prop where
  rs : b.rs.Rep
  small : b.rs.bv.size < 2 ^ 31
  blocks : b.blockMin = (List.range ((b.rs.bv.bits.length + 3) / 4)).map
    (fun j => bm b.rs.bv.bits b.rs.bv.size j - exW b.rs.bv.bits (8192 * (j / 32)))
  pow : ∃ h, b.internal = 2 ^ h
  fits : ((b.rs.bv.bits.length + 3) / 4 + 31) / 32 ≤ b.internal
  len : b.superMin.length = b.internal + ((b.rs.bv.bits.length + 3) / 4 + 31) / 32
  leaf : ∀ k, k < ((b.rs.bv.bits.length + 3) / 4 + 31) / 32 → b.superMin[b.internal + k]? = some (sm b.rs.bv.bits b.rs.bv.size k)
  node : ∀ v x y, 1 ≤ v → v < b.internal → b.superMin[2 * v]? = some x → b.superMin[2 * v + 1]? = some y →
    b.superMin[v]? = some (min x y)
  half : ∀ v x, 1 ≤ v → v < b.internal → b.superMin.length = 2 * v + 1 → b.superMin[2 * v]? = some x → b.superMin[v]? = some x
  gap : ∀ v, v < b.internal → b.superMin.length ≤ 2 * v → b.superMin[v]? = some (b.rs.bv.size : Int)

theorem buildTree_spec {r : RS} (h : r.Rep) (hsz : r.bv.size < 2 ^ 31) (h0 : 0 < r.bv.size) :
    ∃ b, buildTree r = .ok b ∧ b.rs = r ∧ b.Rep := by
  have hlen := h.wf
  unfold wordsFor at hlen
  unfold buildTree
  have hb := buildBlocks_spec h.wf h0
  have hc : ceilDiv r.bv.bits.length 4 = (r.bv.bits.length + 3) / 4 := by unfold ceilDiv; omega
  dsimp only
  rw [hb, hc]
  generalize hn : ((r.bv.bits.length + 3) / 4 + 31) / 32 = n
  obtain ⟨e, e1, e2⟩ := leaves_spec n (n + 1) 1 (by omega) (by omega) (by omega) ⟨0, rfl⟩
  rw [e1, M.ok_bind, leafValues_spec h hsz rfl n 0 (by omega), M.ok_bind]
  have hpos : 0 < 2 ^ e := Nat.two_pow_pos e
  have hint : int32 (r.bv.size : Int) = r.bv.size := by apply int32_id <;> omega
  rw [hint]
  obtain ⟨t, t1, t2⟩ := fillLoop_spec (N := 2 ^ e) (T := 2 ^ e + n) (SZ := (r.bv.size : Int))
    (leafv := fun k => sm r.bv.bits r.bv.size k) (by omega) (2 ^ e + n - 1)
    (List.replicate (2 ^ e) (r.bv.size : Int) ++ (List.range n).map (fun i => sm r.bv.bits r.bv.size (0 + i))) (by omega) (by omega) (by
      refine ⟨by simp, ?_, ?_, ?_, ?_, ?_, ?_, ?_, ?_⟩
      · intro v h1 h2
        rw [List.getElem?_append_right (by simpa using h1), List.length_replicate, List.getElem?_map, List.getElem?_range (by omega)]
        simp
      · intro v x hx
        have hx := List.mem_of_getElem? hx
        rw [List.mem_append] at hx
        rcases hx with hx | hx
        · rw [List.eq_of_mem_replicate hx]; exact Int.le_refl _
        · rw [List.mem_map] at hx
          obtain ⟨i, hi, hx⟩ := hx
          rw [List.mem_range] at hi
          rw [← hx, Nat.zero_add]
          unfold sm
          obtain ⟨q, q1, q2, q3⟩ := minOver_mem (exW r.bv.bits) (8192 * i) (min (8192 * (i + 1)) r.bv.size - 8192 * i)
          have := exW_diff r.bv.bits 0 q
          rw [exW_zero, Nat.zero_add] at this
          omega
      · intro v a b h1 h2 h3 ha
        rw [List.getElem?_eq_none (by simp; omega)] at ha; cases ha
      · intro v b h1 h2 h3 ha
        rw [List.getElem?_eq_none (by simp; omega)] at ha; cases ha
      · intro v h1 _
        rw [List.getElem?_append_left (by simpa using h1), List.getElem?_replicate, if_pos h1]
      · intro v h1 _
        rw [List.getElem?_append_left (by simpa using h1), List.getElem?_replicate, if_pos h1]
      · intro v h1 _ _
        rw [List.getElem?_append_left (by simpa using h1), List.getElem?_replicate, if_pos h1]
      · intro v a h1 h2 h3 h4; omega)
  rw [t1, M.ok_bind]
  refine ⟨_, rfl, rfl, h, hsz, rfl, ⟨e, rfl⟩, by rw [hn]; exact e2, by rw [hn]; exact t2.len, ?_, ?_, ?_, ?_⟩
  · intro k hk
    rw [hn] at hk
    have := t2.leaf (2 ^ e + k) (by omega) (by omega)
    rw [Nat.add_sub_cancel_left] at this
    exact this
  · intro v x y h1 h2 hx hy
    exact t2.both v x y h1 h2 (by omega) hx hy
  · intro v x h1 h2 h3 hx
    exact t2.half v x h1 h2 (by rw [t2.len] at h3; exact h3) (by omega) hx
  · intro v h1 h2
    exact t2.gap v h1 (by rw [t2.len] at h2; exact h2)

end BP
end AC
