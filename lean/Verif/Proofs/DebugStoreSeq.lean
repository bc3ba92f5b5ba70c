import Verif.Proofs.DebugStoreList
import Verif.Proofs.EfRuns
import Verif.Proofs.SeqSearch
/-! # Elias-Fano sequences and fixed-width vectors, in a build with assertions: the assertions hold -/
namespace AC

theorem DA.selLoop_exit (neg : Bool) (bits : List W) : ∀ (fuel k : Nat) (word : W) (rem k' : Nat) (word' : W) (rem' : Nat),
    selLoop neg bits fuel k word rem = .ok (k', word', rem') → rem' < word'.popcount := by
  intro fuel
  induction fuel with
  | zero => intro k word rem k' word' rem' h; cases h
  | succ fuel ih =>
      intro k word rem k' word' rem' h
      unfold selLoop at h
      split at h
      · rename_i hlt; cases h; exact hlt
      · cases h1 : rd bits (k + 1) with
        | error e => rw [h1] at h; cases h
        | ok w => rw [h1, M.ok_bind] at h; exact ih _ _ _ _ _ _ h

theorem DA.selectD_eq (neg : Bool) (d : DA) (v : BV) (idx : Nat) (h : idx < d.positions) :
    selectD neg d v idx = select neg d v idx := by
  unfold selectD select
  rw [check_bind h]
  apply M.bind_congr_ok
  intro block _
  split
  · rfl
  · apply M.bind_congr_ok
    intro sub _
    simp only
    split
    · rfl
    · apply M.bind_congr_ok
      intro w _
      apply M.bind_congr_ok
      rintro ⟨k, word, rem⟩ h1
      have := selLoop_exit _ _ _ _ _ _ _ _ _ h1
      simp only
      rw [W.selectD_eq this, M.ok_bind]

namespace EF

theorem lowWidth_lt64 (n : Nat) (u : W) : lowWidth n u.toNat < 64 := by
  unfold lowWidth msbNat
  split
  · rename_i h
    have h1 : u.toNat / n ≤ u.toNat := Nat.div_le_self _ _
    have h2 := u.isLt
    rw [Nat.log2_lt h.2]; omega
  · omega

theorem lowWidthD_eq (n u : Nat) : lowWidthD n u = .ok (lowWidth n u) := by
  unfold lowWidthD lowWidth msbNatD
  split
  · rename_i h; rw [check_bind h.2]
  · rfl

theorem appendLowD_eq (l : Nat) (v : W) (b : BVB) (hl : l < 64) :
    appendLowD l v b = .ok (if l ≠ 0 then b.appendBits (v &&& maskW l) l else b) := by
  unfold appendLowD BVB.appendBitsD
  by_cases h : l ≠ 0
  · rw [if_pos h, if_neg h, if_pos h, check_bind]
    apply fits_of_lt
    rw [BitVec.toNat_and, maskW_toNat _ (by omega), Nat.and_two_pow_sub_one_eq_mod]
    exact Nat.mod_lt _ (Nat.two_pow_pos _)
  · rw [if_neg h, if_neg h]

theorem compressLoopD_eq (l : Nat) (hl : l < 64) : ∀ (vs : List W) (i : Nat) (last : W) (lowB highB : BVB),
    compressLoopD l i last vs lowB highB = compressLoop l i last vs lowB highB := by
  intro vs
  induction vs with
  | nil => intro i last lowB highB; rfl
  | cons v vs ih =>
      intro i last lowB highB
      unfold compressLoopD compressLoop
      split
      · rfl
      · rw [appendLowD_eq l v lowB hl, M.ok_bind]
        apply M.bind_congr_ok
        intro highB' _
        exact ih _ _ _ _

theorem buildD_eq (vs : List W) : buildD vs = build vs := by
  unfold buildD build
  cases vs.getLast? with
  | none => rfl
  | some u =>
      simp only
      unfold compressD compress
      rw [lowWidthD_eq, M.ok_bind]
      simp only
      rw [compressLoopD_eq _ (lowWidth_lt64 vs.length u)]

theorem compressLoop_low (l : Nat) : ∀ (vs : List W) (i : Nat) (last : W) (lowB highB lowB' highB' : BVB),
    compressLoop l i last vs lowB highB = .ok (lowB', highB') → lowB'.size = lowB.size + vs.length * l := by
  intro vs
  induction vs with
  | nil => intro i last lowB highB lowB' highB' h; cases h; simp
  | cons v vs ih =>
      intro i last lowB highB lowB' highB' h
      unfold compressLoop at h
      split at h
      · cases h
      · simp only at h
        cases h1 : highB.set ((v >>> l).toNat + i) true with
        | error e => rw [h1] at h; cases h
        | ok hb =>
            rw [h1, M.ok_bind] at h
            rw [ih _ _ _ _ _ _ h, List.length_cons, Nat.succ_mul]
            split
            · rw [BVB.appendBits_size]; omega
            · rename_i h0
              have : l = 0 := Classical.not_not.mp h0
              subst this; omega

theorem build_low {vs : List W} {e : EF} (h : build vs = .ok e) : e.low.size = vs.length * e.l := by
  unfold build at h
  cases h1 : vs.getLast? with
  | none => rw [h1] at h; cases h
  | some u =>
      rw [h1] at h
      simp only at h
      unfold compress at h
      simp only at h
      cases h2 : compressLoop (lowWidth vs.length u.toNat) 0 0 vs BVB.empty
          (BVB.mk' (vs.length + (u >>> lowWidth vs.length u.toNat).toNat + 1) false) with
      | error e => rw [h2] at h; cases h
      | ok p =>
          obtain ⟨lowB, highB⟩ := p
          rw [h2, M.ok_bind] at h
          simp only at h
          cases h3 : DA.build false (BV.build highB 0) with
          | error e => rw [h3] at h; cases h
          | ok d =>
              rw [h3] at h; cases h
              have := compressLoop_low _ _ _ _ _ _ _ _ h2
              simpa [BVB.empty, BV.build] using this

/-- a sequence with the size of its low bits -/
structure RepD (e : EF) (vs : List W) : Prop where
  rep : e.Rep vs
  lowSize : e.low.size = vs.length * e.l

theorem RepD.positions {e : EF} {vs : List W} (h : e.RepD vs) : e.d1.positions = vs.length := by
  have := h.rep.d1.pos
  rw [seen_false, h.rep.total] at this; exact this

theorem RepD.low_in {e : EF} {vs : List W} (h : e.RepD vs) {i : Nat} (hi : i < vs.length) :
    i * e.l + e.l ≤ e.low.size := by
  have h1 : (i + 1) * e.l ≤ vs.length * e.l := Nat.mul_le_mul_right _ (by omega)
  rw [Nat.add_mul, Nat.one_mul] at h1
  rw [h.lowSize]; omega

theorem accessD_eq {e : EF} {vs : List W} (h : e.RepD vs) {i : Nat} (hi : i < vs.length) : e.accessD i = e.access i := by
  unfold accessD access
  rw [check_bind (by rw [h.rep.size]; exact hi), DA.selectD_eq _ _ _ _ (by rw [h.positions]; exact hi)]
  apply M.bind_congr_ok
  intro p _
  unfold BV.getBitsD
  rw [check_bind (h.low_in hi)]

theorem lowInitD_eq {e : EF} {vs : List W} (h : e.RepD vs) {i : Nat} (hi : i < vs.length) : e.lowInitD i = e.lowInit i := by
  unfold lowInitD lowInit
  split
  · rename_i h0
    have := h.low_in hi
    unfold BV.getWord64D
    rw [check_bind (by omega)]
  · rfl

theorem atD_eq {e : EF} {vs : List W} (h : e.RepD vs) {i : Nat} (hi : i < vs.length) : e.atD i = e.at' i := by
  have hn : 0 < vs.length := List.length_pos_iff.mpr h.rep.ne
  unfold atD at' univ
  rw [accessD_eq h (i := e.size - 1) (by rw [h.rep.size]; omega)]
  apply M.bind_congr_ok
  intro u _
  rw [check_bind (by rw [h.rep.size]; exact hi), lowInitD_eq h hi]
  apply M.bind_congr_ok
  rintro ⟨buf, chunks, avail⟩ _
  simp only
  rw [DA.selectD_eq _ _ _ _ (by rw [h.positions]; exact hi)]
  split
  · rfl
  · apply M.bind_congr_ok
    intro p _
    apply M.bind_congr_ok
    intro it _
    apply M.bind_congr_ok
    intro it' _
    rw [check_bind h.rep.l64]

theorem derefD_eq {e : EF} {vs : List W} (h : e.RepD vs) {it : EFI} {j : Nat} (hj : j < vs.length) (hi : it.Inv e vs j) :
    e.derefD it = e.deref it := by
  unfold derefD deref
  split
  · rfl
  · rw [hi.pos, DA.selectD_eq _ _ _ _ (by rw [h.positions]; exact hj), EF.select_spec h.rep j hj, M.ok_bind,
      check_bind (hi.high hj)]

theorem incD_eq {e : EF} {vs : List W} (h : e.RepD vs) {it : EFI} {j : Nat} (hj : j < vs.length) (hi : it.Inv e vs j) :
    e.incD it = e.inc it := by
  unfold incD inc
  split
  · rfl
  · rename_i hne
    rw [hi.pos, h.rep.size] at hne
    apply M.bind_congr_ok
    intro u _
    unfold refillD refill
    simp only
    split
    · rename_i ha
      have h0 : e.l ≠ 0 := by
        intro h0
        have := hi.many h0; omega
      have := h.low_in (i := j + 1) (by omega)
      unfold BV.getWord64D
      rw [hi.pos, check_bind (by omega)]
    · rfl

theorem seqD_rep {e : EF} {vs : List W} (h : e.RepD vs) : e.seqD.Rep (vs.map BitVec.toNat) := by
  refine ⟨?_, ?_⟩
  · intro i hi
    rw [List.length_map] at hi
    rw [List.getElem_map]
    show e.accessD i = _
    rw [accessD_eq h hi]
    exact EF.access_spec h.rep i hi
  · refine ⟨fun it i => it.Inv e vs i, fun it i => it.Inv e vs i, ?_, ?_, ?_⟩
    · intro i hi
      rw [List.length_map] at hi
      show ∃ it, e.atD i = _ ∧ _
      rw [atD_eq h hi]
      exact EF.at_spec h.rep i hi
    · intro it i hi hI
      have hi' : i < vs.length := by rwa [List.length_map] at hi
      rw [List.getElem_map]
      show ∃ it', e.derefD it = _ ∧ _
      rw [derefD_eq h hi' hI]
      exact EF.deref_spec h.rep it i hi' hI
    · intro it i hi hJ
      rw [List.length_map] at hi ⊢
      show ∃ it', e.incD it = _ ∧ _
      rw [incD_eq h hi hJ]
      exact EF.inc_spec h.rep it i hi hJ

theorem scanD_spec {e : EF} {vs : List W} (h : e.RepD vs) : ∀ (n j : Nat) (it : EFI), j + n ≤ vs.length →
    (0 < n → it.Inv e vs j) → e.scanD n it = .ok (((vs.drop j).take n).map BitVec.toNat) := by
  intro n
  induction n with
  | zero => intro j it _ _; simp [scanD]
  | succ n ih =>
      intro j it hn hi
      have hI := hi (by omega)
      obtain ⟨it1, d1, d2⟩ := EF.deref_spec h.rep it j (by omega) hI
      obtain ⟨it2, i1, i2⟩ := EF.inc_spec h.rep it1 j (by omega) d2
      unfold scanD
      rw [derefD_eq h (by omega) hI, d1]
      simp only [M.ok_bind]
      rw [incD_eq h (by omega) d2, i1]
      simp only [M.ok_bind]
      rw [ih (j + 1) it2 (by omega) (fun h0 => i2 (by omega))]
      simp only [M.ok_bind]
      rw [List.drop_eq_getElem_cons (show j < vs.length by omega), List.take_succ_cons, List.map_cons]

theorem buildD_spec (vs : List W) (hne : vs ≠ []) (hs : vs.Pairwise (fun a b => a.toNat ≤ b.toNat)) :
    ∃ e, buildD vs = .ok e ∧ build vs = .ok e ∧ e.RepD vs := by
  obtain ⟨e, e1, e2⟩ := EF.build_spec vs hne hs
  exact ⟨e, by rw [buildD_eq]; exact e1, e1, e2, build_low e1⟩

theorem sortedW_of_pairwise : ∀ vs : List W, vs.Pairwise (fun a b => a.toNat ≤ b.toNat) → sortedW vs = true
  | [], _ => rfl
  | [_], _ => rfl
  | a :: b :: vs, h => by
      unfold sortedW
      obtain ⟨h1, h2⟩ := List.pairwise_cons.mp h
      rw [sortedW_of_pairwise (b :: vs) h2, decide_eq_true (h1 b (by simp))]; rfl

/-- building from runs -/
theorem buildRunsD_spec {ps : List Nat} {vs : List W} (h : Pointers ps vs.length) (hne : vs ≠ []) (B : Nat)
    (hv : ∀ v ∈ vs, v.toNat ≤ B) (hB : (vs.length + 1) * B < 2 ^ 64) (hr : RunsMono ps (vs.map BitVec.toNat)) :
    ∃ e xs, buildRunsD vs ps = .ok e ∧ buildRuns vs ps = .ok e ∧ e.RepD xs ∧ xs.length = vs.length ∧
      (∀ i (hi : i < xs.length), xs[i].toNat ≤ (i + 1) * B) ∧
      ∀ k (hk : k + 1 < ps.length) i (hi : i < vs.length), ps[k] ≤ i → i < ps[k + 1] →
        (xs.map BitVec.toNat)[i]? = some (Seq.upperOf (xs.map BitVec.toNat) ⟨ps[k], ps[k + 1]⟩ + vs[i].toNat) := by
  obtain ⟨e, xs, e1, e2, e3, e5, e4⟩ := EF.buildRuns_spec h hne B hv hB hr
  have h2 := h.len
  have h0 := h.zero
  rw [List.getElem?_eq_getElem (by omega)] at h0
  have h0 := Option.some.inj h0
  obtain ⟨ys, x1, x2, x3⟩ := EF.sumLoop_spec h vs [] 0 (by omega) (by simp) (by intro k hk i hi; simp at hi) (by simp [h0])
    (by simp)
  rw [List.length_nil, Nat.zero_add] at x2
  have hup : upperW [] ps[0] = 0 := by rw [h0]; rfl
  rw [hup, List.length_nil, Nat.zero_sub] at x1
  have hsort := x3.sorted h x2 B hv hB hr
  have hb : buildRuns vs ps = build ys := by
    unfold EF.buildRuns
    rw [rd_ok (show 0 < ps.length by omega), rd_ok (show 1 < ps.length by omega)]
    simp only [M.ok_bind]
    rw [x1]; rfl
  have hbD : buildRunsD vs ps = build ys := by
    unfold EF.buildRunsD
    rw [rd_ok (show 0 < ps.length by omega), rd_ok (show 1 < ps.length by omega)]
    simp only [M.ok_bind]
    rw [x1, M.ok_bind, check_bind x2, check_bind (sortedW_of_pairwise ys hsort), buildD_eq]
  rw [hb] at e1
  refine ⟨e, xs, by rw [hbD]; exact e1, by rw [hb]; exact e1, ⟨e2, ?_⟩, e3, e5, e4⟩
  rw [build_low e1, x2, e3]

/-- `end()` aborts with assertions, and reads outside of the structure without -/
theorem endItD_aborts {e : EF} {vs : List W} (h : e.RepD vs) : e.endItD = .error .aborted := by
  have hn : 0 < vs.length := List.length_pos_iff.mpr h.rep.ne
  unfold endItD atD
  rw [accessD_eq h (i := e.size - 1) (by rw [h.rep.size]; omega), EF.access_spec h.rep _ (by rw [h.rep.size]; omega),
    M.ok_bind]
  unfold check
  rw [if_neg (by omega)]; rfl

theorem lowInit_cases (e : EF) (pos : Nat) : (∃ x, e.lowInit pos = .ok x) ∨ e.lowInit pos = .error .oob := by
  have hrd : ∀ (l : List W) (i : Nat), (∃ w, rd l i = .ok w) ∨ rd l i = .error .oob := by
    intro l i
    unfold rd
    cases l[i]? with
    | none => exact Or.inr rfl
    | some w => exact Or.inl ⟨w, rfl⟩
  unfold lowInit
  split
  · unfold BV.getWord64
    simp only
    rcases hrd e.low.bits (pos * e.l / 64) with ⟨w, h1⟩ | h1
    · rw [h1]
      simp only [M.ok_bind]
      split
      · rcases hrd e.low.bits (pos * e.l / 64 + 1) with ⟨w', h2⟩ | h2
        · rw [h2]; exact Or.inl ⟨_, rfl⟩
        · rw [h2]; exact Or.inr rfl
      · exact Or.inl ⟨_, rfl⟩
    · rw [h1]; exact Or.inr rfl
  · exact Or.inl ⟨_, rfl⟩

theorem endIt_oob {e : EF} {vs : List W} (h : e.RepD vs) : e.endIt = .error .oob := by
  have hn : 0 < vs.length := List.length_pos_iff.mpr h.rep.ne
  have hp := h.positions
  have hsel : DA.select false e.d1 e.high e.size = .error .oob := by
    have := DA.select_past h.rep.d1 h.rep.highLen (by
      intro i h1 _
      rw [seen_false]
      cases hb : bitAt e.high.bits i with
      | false => rfl
      | true => have := h.rep.pad i hb; omega)
    rw [seen_false, h.rep.total] at this
    rw [h.rep.size]; exact this
  unfold endIt at' univ
  rw [EF.access_spec h.rep _ (by rw [h.rep.size]; omega), M.ok_bind]
  rcases lowInit_cases e e.size with ⟨⟨buf, chunks, avail⟩, h1⟩ | h1
  · rw [h1]
    simp only [M.ok_bind]
    rw [if_neg (by omega), hsel]; rfl
  · rw [h1]; rfl

end EF

namespace CVB

theorem pushBack_width {b b' : CVB} {v : W} (h : b.pushBack v = .ok b') : b'.width = b.width := by
  unfold pushBack at h
  cases h1 : b.pushWords v with
  | error e => rw [h1] at h; cases h
  | ok p =>
      obtain ⟨bits, block, shift⟩ := p
      rw [h1, M.ok_bind] at h
      simp only at h
      split at h <;> cases h <;> rfl

theorem fillD_eq : ∀ (vs : List W) (b : CVB), b.width ≠ 0 → b.fillD vs = b.fill vs := by
  intro vs
  induction vs with
  | nil => intro b h; rfl
  | cons v vs ih =>
      intro b h
      unfold fillD fill pushBackD
      rw [check_bind h]
      apply M.bind_congr_ok
      intro b' hb
      exact ih b' (by rw [pushBack_width hb]; exact h)

theorem set_shape {b b' : CVB} {i : Nat} {v : W} (h : b.set i v = .ok b') : b'.width = b.width ∧ b'.size = b.size := by
  unfold set at h
  simp only at h
  cases h1 : rd b.bits (i * b.width / 64) with
  | error e => rw [h1] at h; cases h
  | ok w =>
      rw [h1, M.ok_bind] at h
      cases h2 : wr b.bits (i * b.width / 64)
          (w &&& ~~~(maskW b.width <<< (i * b.width % 64)) ||| v <<< (i * b.width % 64)) with
      | error e => rw [h2] at h; cases h
      | ok bits =>
          rw [h2, M.ok_bind] at h
          split at h
          · cases h3 : rd bits (i * b.width / 64 + 1) with
            | error e => rw [h3] at h; cases h
            | ok w' =>
                rw [h3, M.ok_bind] at h
                cases h4 : wr bits (i * b.width / 64 + 1)
                    (w' &&& ~~~(maskW b.width >>> (64 - i * b.width % 64)) ||| v >>> (64 - i * b.width % 64)) with
                | error e => rw [h4] at h; cases h
                | ok bits' => rw [h4] at h; cases h; exact ⟨rfl, rfl⟩
          · cases h; exact ⟨rfl, rfl⟩

theorem setsD_eq : ∀ (os : List (Nat × W)) (b : CVB), b.width ≠ 0 → (∀ o ∈ os, o.1 < b.size) → b.setsD os = b.sets os := by
  intro os
  induction os with
  | nil => intro b h _; rfl
  | cons o os ih =>
      intro b h ho
      obtain ⟨i, v⟩ := o
      unfold setsD sets setD
      have hi : i < b.size := ho (i, v) (by simp)
      rw [check_bind h, check_bind hi]
      apply M.bind_congr_ok
      intro b' hb
      obtain ⟨s1, s2⟩ := set_shape hb
      exact ih b' (by rw [s1]; exact h) (fun o' h' => by rw [s2]; exact ho o' (by simp [h']))

end CVB

theorem CV.buildD_eq (vs : List W) (w : Nat) (after : W) : CV.buildD vs w after = CV.build vs w after := by
  unfold CV.buildD CV.build
  apply M.bind_congr_ok
  intro b hb
  unfold CVB.mk' at hb
  split at hb
  · cases hb
  · rename_i hw
    cases hb
    rw [CVB.fillD_eq _ _ (by simp only; omega)]

end AC
