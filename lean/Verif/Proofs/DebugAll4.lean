import Verif.Proofs.DebugAll4Build
/-!
# Type 4 built with all assertions does what it does without, where that succeeds
-/
namespace AC
open Spec

theorem BV.getBitsD_eq (v : BV) {p len : Nat} (h : p + len ≤ v.size) : v.getBitsD p len = v.getBits p len := by
  unfold BV.getBitsD
  rw [check_bind h]

theorem CEF.ItAt.accessD {v : BV} {u : Nat} {xs : List Nat} {it : CEI} {p : Nat} (h : CEF.ItAt v u xs it p) {i : Nat} (hi : i ≤ xs.length) :
    it.accessD v i = it.access v i := CEI.accessD_eq v it i (by rw [h.size]; exact hi)

theorem CEF.ItAt.nextD {v : BV} {u : Nat} {xs : List Nat} {it : CEI} {p : Nat} (h : CEF.ItAt v u xs it p) (hp : p < xs.length) :
    it.nextD v = it.next v := CEI.nextD_eq v it (by rw [h.size, h.pos]; exact hp)

theorem CEF.ItAt.scanA {v : BV} {u : Nat} {xs : List Nat} {it : CEI} {p : Nat} (h : CEF.ItAt v u xs it p) (y : Nat) :
    it.nextGeqByScanD v y = it.nextGeqByScan v y := by
  have hself : it.access v it.pos = .ok it := by
    by_cases hp : p < xs.length
    · exact h.access_self hp
    · obtain ⟨base, h1, h2, h3, h4⟩ := h
      have hn := (h4.ctx h1).ok.n
      have hpos := h4.pos
      have hle := h4.le
      have hval := h4.value
      unfold CEI.access CEI.slowAccess
      rw [if_neg (by omega), if_pos (by omega)]
      obtain ⟨o, ps, val, he⟩ := it
      have ho : o.univ = u := by have := h4.off; dsimp only at this; rw [this]; rfl
      dsimp only at hval hpos hn ⊢
      rw [if_neg hp] at hval
      rw [hval, ho]
  unfold CEI.nextGeqByScanD CEI.nextGeqByScan
  rw [h.accessD (by rw [h.pos]; exact h.le), hself, M.ok_bind, check_bind rfl]
  exact CEI.scanLoopD_eq v y _ it (by rw [h.pos, h.size]; exact h.le)

section
variable {ii : BlkIdx} {u m : Nat} {lists docss : List (List Nat)}

theorem BlkIdx.blockA_eq (h : ii.Rep u m lists docss) (hf : ii.InBits) {j : Nat} (hj : j < ii.blocks.length) : ii.blockA j = ii.block j := by
  have h1 : (0 :: ii.blocks)[j]? = some ((0 :: ii.blocks)[j]'(by simp; omega)) := List.getElem?_eq_getElem _
  have h2 : ii.blocks[j]? = some ii.blocks[j] := List.getElem?_eq_getElem hj
  have hdl : j < docss.length := by rw [h.blocks.len]; exact hj
  have h3 : docss[j]? = some docss[j] := List.getElem?_eq_getElem hdl
  generalize (0 :: ii.blocks)[j]'(by simp; omega) = lo at h1
  generalize ii.blocks[j] = hi at h2
  generalize docss[j] = docs at h3
  obtain ⟨k1, k2, k3⟩ := h.bounds_ok h1 h2
  obtain ⟨p, pe, p1, ⟨p2, p3, p4⟩, p5⟩ := h.at1 j lo hi docs h1 h2 h3
  obtain ⟨q, qe, q1, ⟨q2, q2', q3, q4⟩, q5⟩ := h.at2 j lo hi docs h1 h2 h3
  obtain ⟨r, re, r1, ⟨w, w1, w2, r2, r3, r4⟩, r5⟩ := h.at3 j lo hi docs h1 h2 h3
  have hpos := List.length_pos_iff.mpr p3.valid.ne
  rw [List.length_map] at hpos
  obtain ⟨xs1, x1, x1'⟩ := hf.p1
  obtain ⟨xs2, x2, x2'⟩ := hf.p2
  obtain ⟨xs3, x3, x3'⟩ := hf.p3
  obtain ⟨p', y1, y1'⟩ := hf.f1 j hj
  obtain ⟨q', y2, y2'⟩ := hf.f2 j hj
  obtain ⟨r', y3, y3'⟩ := hf.f3 j hj
  rw [p1] at y1; cases y1
  rw [q1] at y2; cases y2
  rw [r1] at y3; cases y3
  have s1 := offsets_p0_le (p + 32) u _ p3.valid
  have s2 := offsets_p0_le (q + 64) _ _ q3.valid
  rw [List.length_map] at s1
  rw [offsetsFrom_length] at s2
  have s3 := Nat.zero_le (rowTotal (blockRel lists lo hi docs) * w)
  obtain ⟨n1, a1, a2⟩ := ii.lists.getBits_spec p 32 (by omega) (by omega)
  obtain ⟨n2, b1, b2⟩ := ii.offs.getBits_spec q 32 (by omega) (by omega)
  obtain ⟨n4, d1, d2⟩ := ii.terms.getBits_spec r 6 (by omega) (by omega)
  unfold BlkIdx.blockA BlkIdx.block BlkIdx.numBlocks
  rw [check_bind hj, EF.accessD_eq x1 (by omega), EF.accessD_eq x2 (by omega), EF.accessD_eq x3 (by omega), p1, q1, r1]
  refine M.bind_congr_ok ?_
  intro lower _
  rw [M.ok_bind, M.ok_bind, BV.getBitsD_eq _ (by omega), a1, M.ok_bind, M.ok_bind, CEI.mkD_eq _ _ _ _ (by omega)]
  refine M.bind_congr_ok ?_
  intro its _
  rw [M.ok_bind, M.ok_bind, BV.getBitsD_eq _ (by omega), b1, M.ok_bind, M.ok_bind, BV.getBitsD_eq _ (by omega)]
  refine M.bind_congr_ok ?_
  intro n3 _
  rw [CEI.mkD_eq _ _ _ _ (by omega)]
  refine M.bind_congr_ok ?_
  intro ito _
  rw [M.ok_bind, M.ok_bind, BV.getBitsD_eq _ (by omega), d1, M.ok_bind, M.ok_bind, check_bind (by omega)]

theorem BlkIdx.boundsA_eq {lo hi : Nat} {docs : List Nat} {b : Blk} {p : Nat} (h : b.At ii u lists lo hi docs p) (hp : p < docs.length) :
    ii.boundsA b = ii.bounds b := by
  obtain ⟨q, ho⟩ := h.offs
  have hl : (offsetsFrom (blockRel lists lo hi docs) 0).length = docs.length + 1 := by rw [offsetsFrom_length]; simp [blockRel]
  unfold BlkIdx.boundsA BlkIdx.bounds
  rw [ho.accessD (by rw [h.it.pos]; omega)]
  obtain ⟨o, e1, e2⟩ := ho.access (i := b.docs.pos) (by rw [h.it.pos]; omega)
  rw [e1, M.ok_bind, M.ok_bind, e2.accessD (by rw [h.it.pos]; omega)]

theorem BlkIdx.isInA_stays {b : Blk} (h : b.Ok ii u lists) : Stays (ii.isInA b) (ii.isIn b) := by
  obtain ⟨lo, hi, docs, p, h⟩ := h
  unfold BlkIdx.isInA BlkIdx.isIn
  refine .ite (fun _ => .refl _) fun hne => ?_
  rw [h.it.pos, h.it.size] at hne
  have hp : p < docs.length := by have := h.it.le; omega
  obtain ⟨s, e, o, e1, e2, _⟩ := h.bounds_lt hp
  rw [BlkIdx.boundsA_eq h hp, e1, M.ok_bind, M.ok_bind]
  exact .check (fun _ _ => e2) (.refl _)

namespace BInter

theorem nextOneA_stays (hd : ii.numDocs = u) (hu : u < 2 ^ 32) : ∀ (fuel : Nat) (b : Blk) (i : Nat), i ≤ 1 → b.Ok ii u lists →
    Stays (nextOneA ii fuel ⟨b.docs.value, i, [b]⟩) (nextOne ii fuel ⟨b.docs.value, i, [b]⟩)
  | 0, _, _, _, _ => .error
  | fuel + 1, b, i, hi, hb => by
      unfold nextOneA nextOne
      refine .ite (fun hc => ?_) fun _ => .refl _
      dsimp only at hc
      obtain ⟨hc1, hc2⟩ := hc
      have hi0 : i = 0 := by simp only [List.length_singleton] at hc2; omega
      subst hi0
      rw [check_ok rfl, M.ok_bind]
      rw [show rd [b] 0 = .ok b from rfl, M.ok_bind, M.ok_bind]
      obtain ⟨lo, hi', docs, p, h⟩ := hb
      obtain ⟨hp, _⟩ := h.it.value_mem (by omega)
      obtain ⟨it', e1, e2⟩ := h.it.next hp
      have hvle := e2.value_le
      rw [h.it.nextD hp, e1, M.ok_bind, M.ok_bind]
      have hok := Blk.Ok.withDocs h e2
      refine .bind (BlkIdx.isInA_stays hok) ?_
      rintro ⟨r, b'⟩ hr
      obtain ⟨g1, g2⟩ := BlkIdx.isIn_block hok hr
      dsimp only
      rw [show wr [b] 0 b' = .ok [b'] from rfl, M.ok_bind, M.ok_bind, id32_small (by omega)]
      rw [show it'.value = b'.docs.value by rw [g2]]
      exact nextOneA_stays hd hu fuel b' _ (by split <;> omega) g1

theorem nextManyA_stays : ∀ (fuel : Nat) (s : BInter), (∀ b ∈ s.blocks, b.Ok ii u lists) → Stays (nextManyA ii fuel s) (nextMany ii fuel s)
  | 0, _, _ => .error
  | fuel + 1, s, hb => by
      unfold nextManyA nextMany
      refine .ite (fun hc => ?_) fun _ => .refl _
      refine .bind (.refl _) fun b hrd => ?_
      have hmem : b ∈ s.blocks := by
        unfold rd at hrd
        split at hrd
        · cases hrd; exact List.mem_of_getElem? ‹_›
        · cases hrd
      obtain ⟨lo, hi', docs, p, h⟩ := hb b hmem
      obtain ⟨it', p', e1, e2⟩ := h.it.scan' s.candidate
      rw [h.it.scanA, e1, M.ok_bind, M.ok_bind]
      have hok := Blk.Ok.withDocs h e2
      refine .bind (BlkIdx.isInA_stays hok) ?_
      rintro ⟨r, b'⟩ hr
      obtain ⟨g1, -⟩ := BlkIdx.isIn_block hok hr
      refine .bind (.refl _) fun blocks hw => ?_
      have hall : ∀ c ∈ blocks, c.Ok ii u lists := by
        intro c hc
        rw [wr_ok (rd_lt hrd)] at hw
        cases hw
        rcases List.mem_or_eq_of_mem_set hc with hc | hc
        · exact hb c hc
        · subst hc; exact g1
      exact .ite (fun _ => nextManyA_stays fuel _ hall) fun _ => nextManyA_stays fuel _ hall

theorem nextA_stays (hd : ii.numDocs = u) (hu : u < 2 ^ 32) {s : BInter} (h0 : s.i = 0) (hb : ∀ b ∈ s.blocks, b.Ok ii u lists)
    (hc : ∀ b, s.blocks = [b] → s.candidate = b.docs.value) : Stays (nextA ii s) (next ii s) := by
  unfold nextA next
  refine .ite (fun h1 => ?_) fun _ => nextManyA_stays _ _ hb
  obtain ⟨b, hbl⟩ := List.length_eq_one_iff.mp h1
  obtain ⟨c, i, bs⟩ := s
  dsimp only at hbl h0 hc
  subst hbl h0
  rw [hc b rfl]
  exact nextOneA_stays hd hu _ b 0 (by omega) (hb b (List.mem_cons_self ..))

theorem incA_stays {s : BInter} {xs : List BD} {R : List Nat} (h : Enum ii u lists s xs R) (hs : Stopped ii s) (hn : s.hasNext ii = true) :
    Stays (s.incA ii) (s.inc ii) := by
  have hlt : s.candidate < ii.numDocs := by unfold hasNext at hn; exact of_decide_eq_true hn
  have hu := h.univ
  have hd := h.docs
  have hg := h.here.resolve_left (by omega)
  have hbl := h.blocks_ok
  unfold incA inc
  rw [check_ok (hs hlt), M.ok_bind]
  unfold BInter.stepA BInter.step
  by_cases h1 : s.blocks.length > 1
  · rw [if_pos h1, if_pos h1]
    have h0 : 0 < s.blocks.length := by omega
    rw [rd_ok h0, M.ok_bind, M.ok_bind]
    obtain ⟨lo, hi', docs, p, hb⟩ := hbl _ (List.getElem_mem h0)
    have gv := (All2.get hg 0 h0 (by rw [← All2.length h.cur]; exact h0)).1
    obtain ⟨hp, _⟩ := hb.it.value_mem (by omega)
    obtain ⟨it', e1, e2⟩ := hb.it.next hp
    rw [hb.it.nextD hp, e1, M.ok_bind, wr_ok h0, M.ok_bind, M.ok_bind, M.ok_bind]
    refine nextA_stays (lists := lists) hd (by omega) rfl ?_ ?_
    · intro c hc
      rcases List.mem_or_eq_of_mem_set hc with hc | hc
      · exact hbl c hc
      · subst hc; exact Blk.Ok.withDocs hb e2
    · intro b hb
      have := congrArg List.length hb
      simp only [List.length_set, List.length_singleton] at this
      omega
  · rw [if_neg h1, if_neg h1, M.ok_bind, M.ok_bind]
    refine nextA_stays hd (by omega) rfl hbl ?_
    intro b hb
    dsimp only at hb ⊢
    have h0 : 0 < s.blocks.length := by rw [hb]; simp
    have gv := (All2.get hg 0 h0 (by rw [← All2.length h.cur]; exact h0)).1
    simp only [hb, List.getElem_cons_zero] at gv
    exact gv.symm

theorem groupA_stays (h : ii.Rep u m lists docss) (hf : ii.InBits) (std : StdLib) : ∀ (ts : List Nat) (j : Nat) (pend : List Nat), j < ii.blocks.length →
    (∀ t ∈ ts, 1 ≤ t ∧ t ≤ lists.length) →
    Stays (groupA std ii ts j pend) (group std ii ts j pend) ∧ ∀ bs, group std ii ts j pend = .ok bs → ∀ b ∈ bs, b.Ok ii u lists
  | [], j, pend, hj, _ => by
      obtain ⟨b, e1, e2⟩ := Index4.live_block h (j := j) (List.getElem?_eq_getElem (by simp; omega)) (List.getElem?_eq_getElem hj)
      unfold groupA group
      rw [BlkIdx.blockA_eq h hf hj, e1]
      refine ⟨.refl _, ?_⟩
      intro bs hbs c hc
      cases hbs
      rw [List.mem_singleton.mp hc]
      exact ⟨_, _, _, _, e2.1.withIds pend⟩
  | t :: ts, j, pend, hj, ht => by
      obtain ⟨t1, t2⟩ := ht t (List.mem_cons_self ..)
      obtain ⟨j', lo, hi', b1, b2, b3, -⟩ := blockId_spec h std t1 t2
      have hj' := (List.getElem?_eq_some_iff.mp b3).1
      obtain ⟨b, e1, e2⟩ := Index4.live_block h (j := j) (List.getElem?_eq_getElem (by simp; omega)) (List.getElem?_eq_getElem hj)
      have hrest : ∀ t ∈ ts, 1 ≤ t ∧ t ≤ lists.length := fun a ha => ht a (List.mem_cons_of_mem _ ha)
      unfold groupA group
      rw [check_ok (show 0 < t by omega), M.ok_bind, b1, M.ok_bind, M.ok_bind, BlkIdx.blockA_eq h hf hj, e1]
      split
      · obtain ⟨i1, i2⟩ := groupA_stays h hf std ts j' [t] hj' hrest
        refine ⟨.bind (.refl _) fun _ _ => .bind i1 fun _ _ => .refl _, ?_⟩
        intro bs hbs
        rw [M.ok_bind] at hbs
        obtain ⟨bs', e3, hbs⟩ := bind_ok hbs
        cases hbs
        intro c hc
        rcases List.mem_cons.mp hc with rfl | hc
        · exact ⟨_, _, _, _, e2.1.withIds pend⟩
        · exact i2 bs' e3 c hc
      · exact groupA_stays h hf std ts j' (pend ++ [t]) hj' hrest

theorem mkA_stays (h : ii.Rep u m lists docss) (hf : ii.InBits) (hu : u + 1 < 2 ^ 32) (std : StdLib) {ids : List Nat} (hne : ids ≠ []) (hs : ids.Pairwise (· < ·))
    (hv : ∀ t ∈ ids, 1 ≤ t ∧ t ≤ lists.length) {r : Range} (hr : r.isInvalid = false) : Stays (mkA std ii ids r) (mk' std ii ids) := by
  unfold mkA mk'
  rw [check_ok hr, M.ok_bind, check_ok hne, M.ok_bind, check_ok (hs.imp Nat.le_of_lt), M.ok_bind, check_ok (by rw [unique_strict hs]), M.ok_bind]
  obtain ⟨t, ts, rfl⟩ : ∃ t ts, ids = t :: ts := by
    cases ids with
    | nil => exact absurd rfl hne
    | cons t ts => exact ⟨t, ts, rfl⟩
  obtain ⟨v1, v2⟩ := hv t (List.mem_cons_self ..)
  obtain ⟨j, lo, hi', b1, b2, b3, -⟩ := blockId_spec h std v1 v2
  rw [show rd (t :: ts) 0 = .ok t from rfl, M.ok_bind, M.ok_bind, b1, M.ok_bind, M.ok_bind]
  obtain ⟨g1, g2⟩ := groupA_stays h hf std (t :: ts) j [] (List.getElem?_eq_some_iff.mp b3).1 hv
  refine .bind g1 fun bs hbs => ?_
  have hok : ∀ b ∈ std.sort (fun b : Blk => b.docs.off.n) bs, b.Ok ii u lists := fun b hb =>
    g2 bs hbs b ((std.sort_perm (fun b : Blk => b.docs.off.n) bs).mem_iff.mp hb)
  generalize std.sort (fun b : Blk => b.docs.off.n) bs = qs at hok ⊢
  dsimp only
  refine .bind (.refl _) fun b hrd => ?_
  have h0 := rd_lt hrd
  rw [rd_ok h0] at hrd
  cases hrd
  obtain ⟨lo, hi', docs, p, hb⟩ := hok _ (List.getElem_mem h0)
  obtain ⟨it', f1, f2⟩ := hb.it.access (i := 0) (Nat.zero_le _)
  have hvle := f2.value_le
  rw [hb.it.accessD (Nat.zero_le _), f1, M.ok_bind, M.ok_bind, wr_ok h0, M.ok_bind, M.ok_bind, id32_small (by omega)]
  refine nextA_stays (lists := lists) h.docs (by omega) rfl ?_ ?_
  · intro c hc
    rcases List.mem_or_eq_of_mem_set hc with hc | hc
    · exact hok c hc
    · subst hc; exact Blk.Ok.withDocs hb f2
  · intro c hc
    dsimp only at hc ⊢
    have := List.getElem?_set_self (a := { qs[0] with docs := it' }) h0
    rw [hc] at this
    simp only [List.getElem?_cons_zero, Option.some.injEq] at this
    rw [this]

end BInter

namespace Index4

theorem blocksLoopA_stays (h : ii.Rep u m lists docss) (hf : ii.InBits) : ∀ (n i cur bound : Nat) (q : List Blk), 0 < i → cur < ii.blocks.length →
    Stays (blocksLoopA ii n i cur bound q) (blocksLoop ii n i cur bound q) ∧
      ∀ q' cur', blocksLoop ii n i cur bound q = .ok (q', cur') → cur' < ii.blocks.length
  | 0, _, _, _, _, _, hc => ⟨.refl _, fun _ _ e => by cases e; exact hc⟩
  | n + 1, i, cur, bound, q, hi, hc => by
      unfold blocksLoopA blocksLoop
      rw [check_ok hi, M.ok_bind, BlkIdx.blockA_eq h hf hc]
      split
      · constructor
        · exact .bind (.refl _) fun _ _ => .bind (BlkIdx.boundaryD_stays ii _) fun _ hb => (blocksLoopA_stays h hf n _ _ _ _ (by omega) (rd_lt hb)).1
        · intro q' cur' e
          obtain ⟨_, -, e⟩ := bind_ok e
          obtain ⟨_, hb, e⟩ := bind_ok e
          exact (blocksLoopA_stays h hf n _ _ _ _ (by omega) (rd_lt hb)).2 _ _ e
      · exact blocksLoopA_stays h hf n _ _ _ _ (by omega) hc

theorem blocksA_stays (h : ii.Rep u m lists docss) (hf : ii.InBits) (std : StdLib) {r : Range} (h1 : 1 ≤ r.b) : Stays (blocksA std ii r) (blocks std ii r) := by
  unfold blocksA blocks
  refine .bind (.refl _) fun cur _ => .bind (BlkIdx.boundaryD_stays ii _) fun bound hb => ?_
  obtain ⟨g1, g2⟩ := blocksLoopA_stays h hf (r.e - r.b) r.b cur bound [] h1 (rd_lt hb)
  refine .bind g1 ?_
  rintro ⟨q, cur'⟩ hq
  dsimp only
  rw [BlkIdx.blockA_eq h hf (g2 _ _ hq)]
  exact .refl _

theorem checkA_stays {b : Blk} {x : VB × Nat} (h : Live ii u lists b x) (r : Range) {doc : Nat} (hd : b.docs.value = doc) :
    Stays (checkA ii r doc b) (Index4.check ii r b) := by
  unfold checkA Index4.check
  rw [h.1.it.accessD (by rw [h.1.it.pos]; exact h.1.it.le), h.1.it.access_self h.2, M.ok_bind, check_ok hd, M.ok_bind]
  obtain ⟨s, e, o, e1, e2, -⟩ := h.1.bounds_lt h.2
  rw [BlkIdx.boundsA_eq h.1 h.2, e1, M.ok_bind, M.ok_bind]
  exact .check (fun _ _ => e2) (.refl _)

theorem unionLoopA_stays (std : StdLib) (r : Range) (k : Nat) : ∀ (fuel : Nat) (q : List Blk) (scores : List Nat) (n : Nat), Queue ii u lists q →
    Stays (unionLoopA std ii r k fuel q scores n) (unionLoop std ii r k fuel q scores n)
  | 0, _, _, _, _ => .error
  | fuel + 1, [], _, _, _ => .refl _
  | fuel + 1, z :: zs, scores, n, h => by
      obtain ⟨x, hx⟩ := h.2 z (List.mem_cons_self ..)
      unfold unionLoopA unionLoop
      refine .bind (checkA_stays hx r rfl) ?_
      rintro ⟨found, z'⟩ hc
      obtain ⟨l1, l2⟩ := check_live hx hc
      refine .bind (.refl _) ?_
      rintro ⟨scores', n'⟩ _
      refine .ite (fun _ => .refl _) fun _ => ?_
      obtain ⟨d', e1, e2⟩ := l1.1.it.next l1.2
      rw [l1.1.it.nextD l1.2, e1, M.ok_bind, M.ok_bind]
      refine .bind (.refl _) fun q' hq => unionLoopA_stays std r k fuel q' scores' n' ((h.replace std (d := d') ?_).1 q' hq)
      intro hb
      rw [e2.hasNext, decide_eq_true_iff] at hb
      exact ⟨(x.1, x.2 + 1), l1.1.withDocs e2, hb⟩

theorem advanceA_stays (std : StdLib) (r : Range) {doc : Nat} (hdoc : doc ≤ u) : ∀ (fuel : Nat) (q : List Blk), Queue ii u lists q →
    Stays (advanceA std ii r doc fuel q) (advance std ii r doc fuel q) ∧
      ∀ c f q', advance std ii r doc fuel q = .ok (c, f, q') → Queue ii u lists q'
  | 0, _, _ => ⟨.error, fun _ _ _ e => by cases e⟩
  | fuel + 1, [], h => ⟨.refl _, fun _ _ _ e => by cases e; exact h⟩
  | fuel + 1, z :: zs, h => by
      obtain ⟨x, hx⟩ := h.2 z (List.mem_cons_self ..)
      unfold advanceA advance
      dsimp only
      split
      · exact ⟨.refl _, fun _ _ _ e => by cases e; exact h⟩
      · split
        · obtain ⟨d', p', e1, e2, -⟩ := hx.1.it.nextGeq hdoc
          rw [CEI.nextGeqD_eq, e1, M.ok_bind, M.ok_bind]
          have hrep := fun q' hq => (h.replace std (z' := { z with docs := d' }) (d := d') (b := d'.hasNext) (fun hb => by
            rw [e2.hasNext, decide_eq_true_iff] at hb
            exact ⟨(x.1, p'), hx.1.withDocs e2, hb⟩)).2 q' hq
          constructor
          · exact .bind (.refl _) fun q' hq => (advanceA_stays std r hdoc fuel q' (hrep q' hq)).1
          · intro c f q' e
            obtain ⟨q1, hq, e⟩ := bind_ok e
            exact (advanceA_stays std r hdoc fuel q1 (hrep q1 hq)).2 c f q' e
        · constructor
          · exact .bind (checkA_stays hx r (by omega)) fun _ _ => .refl _
          · intro c f q' e
            obtain ⟨⟨found, z'⟩, hc, e⟩ := bind_ok e
            cases e
            obtain ⟨l1, l2⟩ := check_live hx hc
            refine ⟨heap_same h.1 (by unfold key; rw [l2]), ?_⟩
            intro b hb
            rcases List.mem_cons.mp hb with rfl | hb
            · exact ⟨x, l1⟩
            · exact h.2 b (List.mem_cons_of_mem _ hb)

theorem conjLoopA_stays (std : StdLib) (r : Range) (k : Nat) : ∀ (fuel : Nat) (it : BInter) (bs : List BD) (R : List Nat) (q : List Blk) (scores : List Nat)
    (n : Nat), it.Enum ii u lists bs R → BInter.Stopped ii it → Queue ii u lists q →
    Stays (conjLoopA std ii r k fuel it q scores n) (conjLoop std ii r k fuel it q scores n)
  | 0, _, _, _, _, _, _, _, _, _ => .error
  | fuel + 1, it, bs, R, q, scores, n, he, hs, hq => by
      unfold conjLoopA conjLoop
      refine .ite (fun hc => ?_) fun _ => .refl _
      rw [Bool.and_eq_true] at hc
      have hlt : it.candidate < ii.numDocs := by have := hc.1; unfold BInter.hasNext at this; exact of_decide_eq_true this
      have hdocs := he.docs
      obtain ⟨a1, a2⟩ := advanceA_stays (lists := lists) std r (doc := it.candidate) (u := u) (by omega) (q.length + 1) q hq
      refine .bind a1 ?_
      rintro ⟨checked, found, q'⟩ ha
      refine .bind (.refl _) ?_
      rintro ⟨scores', n'⟩ _
      refine .ite (fun _ => .refl _) fun _ => .bind (BInter.incA_stays he hs hc.1) fun it' hi => ?_
      cases R with
      | nil => rw [he.step.1 rfl] at hc; cases hc.1
      | cons d R' =>
          obtain ⟨-, -, s', e1, e2⟩ := he.step.2 d R' rfl
          rw [hi] at e1
          cases e1
          exact conjLoopA_stays std r k fuel it' bs R' q' scores' n' e2 (BInter.inc_stopped hi) (a2 _ _ _ ha)

theorem conjScoresA_stays (h : ii.Rep u m lists docss) (hf : ii.InBits) (hu : u + 1 < 2 ^ 32) (hl : lists.length < 2 ^ 32) (std : StdLib) {pfx : List Nat} (hpfx : ∀ t ∈ pfx, 1 ≤ t ∧ t ≤ lists.length)
    {r : Range} (h1 : 1 ≤ r.b) (h2 : r.b ≤ r.e) (h3 : r.e ≤ lists.length) (k : Nat) (scores : List Nat) :
    Stays (conjScoresA std ii pfx r k scores) (conjScores std ii pfx r k scores) := by
  obtain ⟨q, xs, V, q1, q2, q3, -⟩ := blocks_spec h std r h1 h2 h3
  have hq : Queue ii u lists q := by
    refine ⟨q3, fun b hb => ?_⟩
    obtain ⟨j, hj, rfl⟩ := List.getElem_of_mem hb
    exact ⟨_, All2.get q2 j hj (by rw [← All2.length q2]; exact hj)⟩
  unfold conjScoresA conjScores
  refine .bind (blocksA_stays h hf std h1) fun q' hq' => ?_
  rw [q1] at hq'
  cases hq'
  refine .ite (fun _ => unionLoopA_stays std r k _ q scores 0 hq) fun hne => ?_
  obtain ⟨d1, d2⟩ := deduplicate_spec std pfx
  have hpne : pfx ≠ [] := fun hn => hne (by rw [hn]; rfl)
  have hdne : deduplicate std pfx ≠ [] := by
    obtain ⟨t, ht⟩ := List.exists_mem_of_ne_nil _ hpne
    exact List.ne_nil_of_mem ((d2 t).mpr ht)
  have hdv : ∀ t ∈ deduplicate std pfx, 1 ≤ t ∧ t ≤ lists.length := fun t ht => hpfx t ((d2 t).mp ht)
  have hr : r.isInvalid = false := isInvalid_false h2 (by omega)
  refine .bind (BInter.mkA_stays h hf hu std hdne d1 hdv hr) fun it hit => ?_
  obtain ⟨it', bs, g1, g2⟩ := BInter.mk'_spec h hu std _ hdne d1 hdv (Props.enumerated u lists ii.blocks (deduplicate std pfx))
    (List.Pairwise.filter _ (List.Pairwise.filter _ List.pairwise_lt_range)) (by
      intro d
      rw [← Props.firstOfOne_iff h, Props.mem_enumerated, Props.mem_inAllLists h.valid hdne (fun t ht => (hdv t ht).1)])
  rw [hit] at g1
  cases g1
  exact conjLoopA_stays std r k _ it bs _ q scores 0 g2 (BInter.mk_stopped hit) hq

theorem conjTopkA_stays {C : Coll} {F : Files} (h : Ready C F) (std : StdLib) (h17 : F.terms.length % 17 ≠ 0) (hc17 : F.mapped.length % 17 ≠ 0)
    (hids : ∀ r ∈ C, r.1 < 2 ^ 32 - 2) {x : Index4} (hx : x.Rep m F docss) (hl : x.toBase.LexFits F.mapped)
    (hf : x.inverted.InBits) {q : Str} (hq : IsText q) {k : Nat} (hk : 1 ≤ k) (hk' : k ≤ MAX_K)
    {s : Scratch} (hs : s.WF) : Stays (x.conjTopkA std q k s) (x.conjTopk std q k s) := by
  unfold conjTopkA conjTopk
  refine Stays.bind (analyseD_stays x.dict q hk' false s) ?_
  intro p hp
  have ha := analyse_spec h hx.dict hq false hs.dbuf
  rw [hp] at ha
  cases ha with
  | unknown buf hb hm hu => exact .refl _
  | nothing buf hb hu => exact .refl _
  | some buf hb r hr hk2 =>
      dsimp only
      have h15 := hs.scores
      have hlt := hr.lt
      have hle := hr.le
      have hu : F.univ + 1 < 2 ^ 32 := by
        obtain ⟨r, hr, he⟩ := h.files.univ
        have := hids r hr
        omega
      refine Stays.bind (conjScoresA_stays hx.inverted hf hu h.lists_lt std (pfx := knownPfx F (completeTerms q)) (fun t ht => h.knownPfx_in t ht)
        (r := ⟨r.b + 1, r.e + 1⟩) (by simp) (by simpa using hle) (by rw [h.files.numLists]; simp only; omega) k _) ?_
      rintro ⟨scores, n⟩ ho
      obtain ⟨S, -, s2, scores', n', t1, t2, t3, t4⟩ := scores_run h std hx.inverted hids (complete := completeTerms q) hr hk (o := s.pool.init.scores)
        (by rw [Pool.init, hs.scores]; exact hk')
      have t1' := ho.symm.trans t1
      cases t1'
      refine Base.extractA_stays h h17 hc17 hx.base hl hx.dict (wf_scores (wf_init hs hb) t2) ?_ rfl
        (fun d hd => s2 d (List.mem_of_mem_take (by dsimp only at hd; rwa [t4] at hd)))
      dsimp only [Pool.init] at t2 ⊢
      omega

end Index4

end

theorem Index4.build_inBits {C : Coll} {F : Files} (h : Ready C F) (hc17 : F.mapped.length % 17 ≠ 0) {std : StdLib} {m : Nat} {mem : Nat → W} {x : Index4}
    (hb : Index4.build std m F mem = .ok x) : x.toBase.LexFits F.mapped ∧ x.inverted.InBits := by
  unfold Index4.build at hb
  obtain ⟨ib, i1, hb⟩ := bind_ok hb
  obtain ⟨_, b1, hb⟩ := bind_ok hb
  obtain ⟨_, i2, hb⟩ := bind_ok hb
  cases hb
  exact ⟨Base.build_lexFits h hc17 b1, BlkBuilder.build_fits h.blkLists std m i1 i2⟩

theorem Index4.buildA_stays {C : Coll} {F : Files} (h : Ready C F) (std : StdLib) (m : Nat) (mem : Nat → W) :
    Stays (Index4.buildA std m F mem) (Index4.build std m F mem) := by
  unfold Index4.buildA Index4.build
  refine Stays.ok_bind h.checkParams ?_
  rw [BlkBuilder.mkA_eq h.blkLists]
  refine Stays.bind (.refl _) fun ib _ => Stays.bind (Base.buildA_stays h mem) fun _ _ => ?_
  rw [BlkBuilder.buildA_eq]
  exact .refl _

end AC
