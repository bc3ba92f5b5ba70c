import Verif.Model.DebugStore
import Verif.Proofs.CefIter
/-! # Lists inside a shared bit vector, in a build with assertions: the assertions hold -/
namespace AC

theorem M.bind_congr_ok {α β : Type} {x : M α} {f g : α → M β} (h : ∀ a, x = .ok a → f a = g a) :
    (x >>= f) = (x >>= g) := by
  cases x with
  | error e => rfl
  | ok a => exact h a rfl

theorem check_true {c : Prop} [Decidable c] (h : c) : check c = .ok () := by
  unfold check; rw [if_pos h]

theorem check_bind {α : Type} {c : Prop} [Decidable c] (h : c) (f : Unit → M α) : (check c >>= f) = f () := by
  rw [check_true h]; rfl

theorem fits_of_lt {x : W} {len : Nat} (h : x.toNat < 2 ^ len) : fits x len := by
  right
  apply BitVec.eq_of_toNat_eq
  rw [BitVec.toNat_ushiftRight, Nat.shiftRight_eq_div_pow, Nat.div_eq_of_lt h]; rfl

theorem BVB.setBitsD_eq (v : BVB) (pos : Nat) (x : W) (len : Nat) (h1 : pos + len ≤ v.size) (h2 : x.toNat < 2 ^ len) :
    v.setBitsD pos x len = v.setBits pos x len := by
  unfold setBitsD
  rw [check_bind h1]
  split
  · rename_i h; unfold setBits; rw [if_pos h]
  · rw [check_bind (fits_of_lt h2)]

theorem BVB.set_size {v r : BVB} {pos : Nat} {b : Bool} (h : v.set pos b = .ok r) : r.size = v.size := by
  unfold set at h
  simp only at h
  cases h1 : rd v.bits (pos / 64) with
  | error e => rw [h1] at h; cases h
  | ok w =>
      rw [h1, M.ok_bind] at h
      cases h2 : wr v.bits (pos / 64) (w &&& ~~~((1 : W) <<< (pos % 64)) ||| (if b then 1 else 0 : W) <<< (pos % 64)) with
      | error e => rw [h2] at h; cases h
      | ok bits => rw [h2] at h; cases h; rfl

theorem BVB.setBits_size {v r : BVB} {pos : Nat} {x : W} {len : Nat} (h : v.setBits pos x len = .ok r) :
    r.size = v.size := by
  unfold setBits at h
  split at h
  · cases h; rfl
  · simp only at h
    cases h1 : rd v.bits (pos / 64) with
    | error e => rw [h1] at h; cases h
    | ok w =>
        rw [h1, M.ok_bind] at h
        cases h2 : wr v.bits (pos / 64) (w &&& ~~~(maskW len <<< (pos % 64)) ||| x <<< (pos % 64)) with
        | error e => rw [h2] at h; cases h
        | ok bits =>
            rw [h2, M.ok_bind] at h
            split at h
            · cases h3 : rd bits (pos / 64 + 1) with
              | error e => rw [h3] at h; cases h
              | ok w' =>
                  rw [h3, M.ok_bind] at h
                  cases h4 : wr bits (pos / 64 + 1) (w' &&& ~~~(maskW len >>> (64 - pos % 64)) ||| x >>> (64 - pos % 64)) with
                  | error e => rw [h4] at h; cases h
                  | ok bits' => rw [h4] at h; cases h; rfl
            · cases h; rfl

namespace CEF

theorem setPtr0sLoop_size (o : Off) (E rank : Nat) : ∀ (fuel ptr0 : Nat) (b b' : BVB),
    setPtr0sLoop o E rank fuel ptr0 b = .ok b' → b'.size = b.size := by
  intro fuel
  induction fuel with
  | zero => intro ptr0 b b' h; cases h
  | succ fuel ih =>
      intro ptr0 b b' h
      unfold setPtr0sLoop at h
      split at h
      · split at h
        · exact ih _ _ _ h
        · cases h1 : b.setBits (o.p0 + (ptr0 - 1) * o.psize) (BitVec.ofNat 64 (ptr0 * 2 ^ logSampling0 + rank)) o.psize with
          | error e => rw [h1] at h; cases h
          | ok b1 =>
              rw [h1, M.ok_bind] at h
              rw [ih _ _ _ h, BVB.setBits_size h1]
      · cases h; rfl

theorem setPtr1_size {o : Off} {i high : Nat} {b b' : BVB} (h : setPtr1 o i high b = .ok b') : b'.size = b.size := by
  unfold setPtr1 at h
  split at h
  · exact BVB.setBits_size h
  · cases h; rfl

theorem setPtr0sLoopD_eq {o : Off} {vs : List Nat} (k : OffOk o vs) (E rank : Nat) (hE : E + rank ≤ o.hlen)
    (hE2 : E ≤ o.hlen - vs.length) : ∀ (fuel ptr0 : Nat) (b : BVB), b.size = o.last →
      setPtr0sLoopD o E rank fuel ptr0 b = setPtr0sLoop o E rank fuel ptr0 b := by
  obtain ⟨o1, o2, o3, o4⟩ := k.order
  intro fuel
  induction fuel with
  | zero => intro ptr0 b hs; rfl
  | succ fuel ih =>
      intro ptr0 b hs
      unfold setPtr0sLoopD setPtr0sLoop
      rw [show 2 ^ logSampling0 = 512 from rfl]
      split
      · rename_i hlt
        split
        · exact ih _ _ hs
        · rename_i h0
          have hr := p0_room k ptr0 (by omega) (by omega)
          have hsz : o.p0 + (ptr0 - 1) * o.psize + o.psize ≤ b.size := by rw [hs]; omega
          have hp : ptr0 * 512 + rank < o.hlen := Nat.lt_of_lt_of_le (Nat.add_lt_add_right hlt rank) hE
          rw [check_bind hr, BVB.setBitsD_eq _ _ _ _ hsz (ptr_toNat k _ hp).2]
          apply M.bind_congr_ok
          intro b1 hb
          exact ih _ _ (by rw [BVB.setBits_size hb]; exact hs)
      · rfl

theorem buildLoopD_eq {o : Off} {vs : List Nat} (k : OffOk o vs) : ∀ (rest : List Nat) (i last lastHigh : Nat) (b : BVB),
    i + rest.length = vs.length → o.univ < 2 ^ 64 → (∀ v ∈ rest, v ≤ o.univ) → b.size = o.last →
      buildLoopD o rest i last lastHigh b = buildLoop o rest i last lastHigh b := by
  obtain ⟨o1, o2, o3, o4⟩ := k.order
  have hl := k.hlen
  have hl2 : vs.length + 2 ≤ o.hlen := by rw [hl]; exact Nat.add_le_add_right (Nat.le_add_right _ _) 2
  have hl3 : o.univ / 2 ^ o.l + 2 + vs.length = o.hlen := by rw [hl]; omega
  have hn := k.n
  intro rest
  induction rest with
  | nil =>
      intro i last lastHigh b hi hu hv hs
      exact setPtr0sLoopD_eq k _ _ (by omega) (by omega) _ _ _ hs
  | cons v rest ih =>
      intro i last lastHigh b hi hu hv hs
      simp only [List.length_cons] at hi
      have hvu := hv v (by simp)
      have hd := Nat.div_le_div_right (c := 2 ^ o.l) hvu
      unfold buildLoopD buildLoop
      split
      · rfl
      · rw [check_bind hvu]
        simp only
        apply M.bind_congr_ok
        intro b1 h1
        have s1 := BVB.set_size h1
        have hr := low_room k i (by omega)
        have hlt : (BitVec.ofNat 64 v &&& maskW o.l).toNat < 2 ^ o.l := by
          rw [and_mask_toNat _ _ (by omega) (by have := k.l56; omega)]
          exact Nat.mod_lt _ (Nat.two_pow_pos _)
        rw [check_bind hr, BVB.setBitsD_eq _ _ _ _ (by omega) hlt]
        apply M.bind_congr_ok
        intro b2 h2
        have s2 := BVB.setBits_size h2
        have e3 : setPtr1D o i (v / 2 ^ o.l + i + 1) b2 = setPtr1 o i (v / 2 ^ o.l + i + 1) b2 := by
          unfold setPtr1D setPtr1
          rw [show 2 ^ logSampling1 = 256 from rfl]
          split
          · rename_i hc
            have hr1 := p1_room k (i / 256) (by omega) (by omega)
            have hsz : o.p1 + (i / 256 - 1) * o.psize + o.psize ≤ b2.size := by rw [s2, s1, hs]; omega
            rw [check_bind (by omega), check_bind hr1,
              BVB.setBitsD_eq _ _ _ _ hsz (ptr_toNat k (v / 2 ^ o.l + i + 1) (by omega)).2]
          · rfl
        rw [e3]
        apply M.bind_congr_ok
        intro b3 h3
        have s3 := setPtr1_size h3
        have e4 : setPtr0sD o (lastHigh + 1) (v / 2 ^ o.l + i + 1) i b3 =
            setPtr0s o (lastHigh + 1) (v / 2 ^ o.l + i + 1) i b3 :=
          setPtr0sLoopD_eq k _ _ (by omega) (by omega) _ _ _ (by omega)
        rw [e4]
        apply M.bind_congr_ok
        intro b4 h4
        have s4 := setPtr0sLoop_size _ _ _ _ _ _ _ h4
        exact ih _ _ _ _ (by omega) hu (fun w hw => hv w (by simp [hw])) (by omega)

theorem offsetsD_eq (base u n : Nat) (hn : 0 < n) : offsetsD base u n = .ok (offsets base u n) := by
  unfold offsetsD lowerBitsD msbNatD
  split
  · rename_i hu
    have : u / n ≠ 0 := by
      have := (Nat.one_le_div_iff hn).mpr (show n ≤ u by omega)
      omega
    rw [check_bind this, M.ok_bind, check_bind hn]
  · rw [M.ok_bind, check_bind hn]

/-- building is the same with and without assertions -/
theorem buildD_eq (b : BVB) {u : Nat} {vs : List Nat} (h : Valid u vs) : buildD b u vs = build b u vs := by
  have hn : 0 < vs.length := List.length_pos_iff.mpr h.ne
  unfold buildD build
  rw [if_neg (by omega), if_neg (by omega), offsetsD_eq _ _ _ hn, M.ok_bind]
  have k := offsets_ok b.size u vs h
  obtain ⟨o1, o2, o3, o4⟩ := k.order
  apply buildLoopD_eq k
  · omega
  · have := h.small; show u < 2 ^ 64; omega
  · exact h.bound
  · show b.size + ((offsets b.size u vs.length).last - b.size) = _
    have : (offsets b.size u vs.length).p0 = b.size := rfl
    omega

end CEF

theorem UI.skipLoop_exit (v : BV) (neg : Bool) (k : Nat) : ∀ (fuel s : Nat) (buf : W) (pos s' : Nat) (buf' : W) (pos' : Nat),
    s ≤ k → skipLoop v neg k fuel s buf pos = .ok (s', buf', pos') → k - s' < buf'.popcount := by
  intro fuel
  induction fuel with
  | zero => intro s buf pos s' buf' pos' hs h; cases h
  | succ fuel ih =>
      intro s buf pos s' buf' pos' hs h
      unfold skipLoop at h
      split at h
      · simp only at h
        cases h1 : rd v.bits ((pos + 64) / 64) with
        | error e => rw [h1] at h; cases h
        | ok w => rw [h1, M.ok_bind] at h; exact ih _ _ _ _ _ _ (by omega) h
      · cases h; omega

theorem W.popcount_zero : (0 : W).popcount = 0 := by decide

theorem W.selectD_eq {x : W} {k : Nat} (h : k < x.popcount) : x.selectD k = .ok (x.select k) := by
  unfold selectD; rw [check_bind h]

theorem ne_zero_of_popcount {x : W} {k : Nat} (h : k < x.popcount) : x ≠ 0 := by
  rintro rfl
  rw [W.popcount_zero] at h; omega

theorem UI.skipD_eq (v : BV) (u : UI) (k : Nat) : skipD v u k = skip v u k := by
  unfold skipD skip
  apply M.bind_congr_ok
  rintro ⟨s, buf, pos⟩ h
  have := skipLoop_exit v false k _ 0 _ _ _ _ _ (by omega) h
  simp only
  rw [check_bind (ne_zero_of_popcount this), W.selectD_eq this, M.ok_bind]

theorem UI.skip0D_eq (v : BV) (u : UI) (k : Nat) : skip0D v u k = skip0 v u k := by
  unfold skip0D skip0
  apply M.bind_congr_ok
  rintro ⟨s, buf, pos⟩ h
  have := skipLoop_exit v true k _ 0 _ _ _ _ _ (by omega) h
  simp only
  rw [check_bind (ne_zero_of_popcount this), W.selectD_eq this, M.ok_bind]

theorem BV.pred1LoopD_ok (v : BV) (r : Nat) : ∀ (block : Nat) (word : W), pred1Loop v block word = .ok r →
    pred1LoopD v block word = .ok r := by
  intro block
  induction block with
  | zero =>
      intro word h
      unfold pred1Loop at h
      unfold pred1LoopD
      cases hm : word.msb with
      | some r' => rw [hm] at h; exact h
      | none => rw [hm] at h; cases h
  | succ b ih =>
      intro word h
      unfold pred1Loop at h
      unfold pred1LoopD
      cases hm : word.msb with
      | some r' => rw [hm] at h; exact h
      | none =>
          rw [hm] at h
          simp only at h ⊢
          cases h1 : rd v.bits b with
          | error e => rw [h1] at h; cases h
          | ok w => rw [h1] at h; rw [M.ok_bind]; exact ih w h

theorem BV.predecessor1D_ok (v : BV) (pos r : Nat) (hp : pos < v.size) (h : v.predecessor1 pos = .ok r) :
    v.predecessor1D pos = .ok r := by
  unfold predecessor1D
  unfold predecessor1 at h
  rw [check_bind hp]
  simp only at h ⊢
  cases h1 : rd v.bits (pos / 64) with
  | error e => rw [h1] at h; cases h
  | ok w => rw [h1] at h; rw [M.ok_bind]; exact pred1LoopD_ok v r _ _ h

namespace CEI
open CEF

theorem slowAccessD_eq (v : BV) (it : CEI) (p : Nat) (h : p ≤ it.off.n) : slowAccessD v it p = slowAccess v it p := by
  unfold slowAccessD slowAccess
  split
  · rfl
  · apply M.bind_congr_ok
    rintro ⟨he, k⟩ _
    simp only
    rw [UI.skipD_eq]
    apply M.bind_congr_ok
    intro he' _
    unfold readNextD
    rw [check_bind (by omega)]

theorem accessD_eq (v : BV) (it : CEI) (p : Nat) (h : p ≤ it.off.n) : accessD v it p = access v it p := by
  unfold accessD access
  rw [check_bind h, slowAccessD_eq v it p h]

theorem nextD_eq (v : BV) (it : CEI) (h : it.pos < it.off.n) : nextD v it = next v it := by
  unfold nextD next
  rw [check_bind (by omega)]
  split
  · rename_i hlt
    unfold readNextD
    rw [check_bind hlt]
  · rfl

theorem mkD_eq (v : BV) (offset u n : Nat) (h : 0 < n) : mkD v offset u n = mk' v offset u n := by
  unfold mkD mk'
  rw [if_neg (by omega), if_neg (by omega), offsetsD_eq _ _ _ h, M.ok_bind, accessD_eq _ _ _ (Nat.zero_le _)]

theorem nextGeqD_eq (v : BV) (it : CEI) (x : Nat) : nextGeqD v it x = nextGeq v it x := by
  unfold nextGeqD nextGeq
  split
  · rfl
  · unfold slowNextGeqD slowNextGeq
    split
    · exact accessD_eq _ _ _ (Nat.le_refl _)
    · apply M.bind_congr_ok
      rintro ⟨he, k⟩ _
      simp only
      rw [UI.skip0D_eq]

theorem next_state {v : BV} {it it' : CEI} (h : next v it = .ok it') : it'.off = it.off ∧ it'.pos = it.pos + 1 := by
  unfold next at h
  split at h
  · cases h1 : readNext v it.off (it.pos + 1) it.he with
    | error e => rw [h1] at h; cases h
    | ok p => rw [h1] at h; cases h; exact ⟨rfl, rfl⟩
  · cases h; exact ⟨rfl, rfl⟩

theorem scanLoopD_eq (v : BV) (x : Nat) : ∀ (fuel : Nat) (it : CEI), it.pos ≤ it.off.n →
    scanLoopD v x fuel it = scanLoop v x fuel it := by
  intro fuel
  induction fuel with
  | zero => intro it h; rfl
  | succ fuel ih =>
      intro it h
      unfold scanLoopD scanLoop
      split
      · rename_i hne
        rw [check_bind (by omega)]
        split
        · rfl
        · rw [nextD_eq v it (by omega)]
          apply M.bind_congr_ok
          intro it' h'
          obtain ⟨e1, e2⟩ := next_state h'
          exact ih it' (by rw [e1, e2]; omega)
      · rfl

theorem intersectsLoopD_eq (v : BV) (r : Range) : ∀ (k : Nat) (it : CEI), it.pos + k ≤ it.off.n →
    intersectsLoopD v r k it = intersectsLoop v r k it := by
  intro k
  induction k with
  | zero => intro it h; rfl
  | succ k ih =>
      intro it h
      unfold intersectsLoopD intersectsLoop
      rw [nextD_eq v it (by omega)]
      apply M.bind_congr_ok
      intro it' h'
      obtain ⟨e1, e2⟩ := next_state h'
      rw [ih it' (by rw [e1, e2]; omega)]

end CEI

namespace CEF

theorem nextGeqByScanD_spec {v : BV} {base u : Nat} {vs : List Nat} (hr : Rep v.bits base u vs) (x : Nat) {it : CEI} {p : Nat}
    (h : At v base u vs it p) : ∃ it1, At v base u vs it1 p ∧ it.nextGeqByScanD v x = it1.nextGeqByScan v x := by
  have hn := (h.ctx hr).ok.n
  have hp := h.pos
  have hle := h.le
  obtain ⟨it1, e1, e2⟩ := access_spec hr h (i := p) hle
  have hn1 := (e2.ctx hr).ok.n
  refine ⟨it1, e2, ?_⟩
  unfold CEI.nextGeqByScanD CEI.nextGeqByScan
  rw [hp, CEI.accessD_eq v it p (by omega), e1, M.ok_bind, check_bind (by rw [h.value, e2.value])]
  exact CEI.scanLoopD_eq v x _ it1 (by rw [e2.pos]; omega)

theorem prevValueD_spec {v : BV} {base u : Nat} {vs : List Nat} (hr : Rep v.bits base u vs)
    (hs : (offsets base u vs.length).last ≤ v.size) {it : CEI} {p : Nat} (h : At v base u vs it p) :
    it.prevValueD v = it.prevValue v := by
  by_cases h0 : p = 0
  · unfold CEI.prevValueD CEI.prevValue
    rw [h.pos, if_pos h0, if_pos h0]
  have x := h.ctx hr
  have hsp := prevValue_spec hr h (by omega)
  have hord := x.ok.order
  have hl2 := x.ok.lo
  have hl3 := x.ok.hlen
  have hlast : it.off.last ≤ v.size := by rw [h.off]; exact hs
  rw [hsp]
  unfold CEI.prevValue at hsp
  unfold CEI.prevValueD
  rw [h.pos, if_neg h0] at hsp ⊢
  have key : ∀ q, q < it.off.lo → ∀ r, v.predecessor1 q = .ok r → v.predecessor1D q = .ok r :=
    fun q hq r hr => v.predecessor1D_ok q r (by omega) hr
  have : CEI.prevHighD v it = CEI.prevHigh v it := by
    cases hp : CEI.prevHigh v it with
    | error e => rw [hp] at hsp; cases hsp
    | ok r =>
        unfold CEI.prevHigh at hp
        unfold CEI.prevHighD
        split at hp
        · rename_i hlt
          rw [if_pos hlt]
          have h1 : p < vs.length := by rw [h.pos, x.ok.n] at hlt; exact hlt
          have h2 := (h.he h1).1
          have h3 := x.in' h1
          exact key _ (by omega) r hp
        · rename_i hlt
          rw [if_neg hlt]
          have h3 := x.in' (j := p - 1) (by have := h.le; omega)
          exact key _ (by omega) r hp
  rw [this]
  exact hsp

theorem intersectsD_eq {v : BV} {base u : Nat} {vs : List Nat} (hr : Rep v.bits base u vs) (r : Range) {it : CEI} {p : Nat}
    (h : At v base u vs it p) : it.intersectsD v r = it.intersects v r := by
  unfold CEI.intersectsD CEI.intersects
  rw [CEI.accessD_eq v it 0 (Nat.zero_le _)]
  apply M.bind_congr_ok
  intro it1 h1
  obtain ⟨it2, e1, e2⟩ := access_spec hr h (i := 0) (by omega)
  rw [e1] at h1
  cases h1
  have := e2.pos
  split
  · rfl
  · split
    · rfl
    · split
      · rfl
      · exact CEI.intersectsLoopD_eq v r _ _ (by omega)

end CEF
end AC
