import Verif.Proofs.DebugAllStore
import Verif.Proofs.DebugRmqTree
/-! # Lists with a range-minimum structure and posting lists in a build with all assertions: the assertions hold -/
namespace AC

/-! ## Building -/

theorem ceilLog2A_eq (x : Nat) : ceilLog2A x = .ok (ceilLog2 x) := by
  unfold ceilLog2A ceilLog2
  split
  · unfold msbNatD
    rw [check_bind (by omega)]
    rfl
  · rfl

theorem CV.buildAutoA_eq (vs : List W) (after : W) : CV.buildAutoA vs after = CV.buildAuto vs after := by
  unfold CV.buildAutoA CV.buildAuto
  cases (vs.map BitVec.toNat).max? with
  | none => rfl
  | some m =>
      dsimp only
      rw [ceilLog2A_eq, M.ok_bind, CV.buildD_eq]

theorem UL.buildA_eq {list : List Nat} (h : list.length < 2 ^ 30 - 1) (a b : W) : UL.buildA list a b = UL.build list a b := by
  unfold UL.buildA UL.build
  rw [CT.buildD_eq _ _ h, CV.buildAutoA_eq]

/-! ## Lists with a range-minimum structure -/

namespace UL
variable {u : UL} {v : List Nat}

theorem accessA_eq (h : u.Rep v) {i : Nat} (hi : i < v.length) : u.accessA i = u.access i := by
  unfold accessA access CV.accessD
  rw [check_bind (show i < u.list.size by have := h.size; unfold UL.size at this; omega)]

theorem scanLoopA_eq (h : u.Rep v) : ∀ (n i pos min : Nat), i + n ≤ v.length → u.scanLoopA n i pos min = u.scanLoop n i pos min
  | 0, _, _, _, _ => rfl
  | n + 1, i, pos, min, hi => by
      unfold scanLoopA scanLoop
      rw [accessA_eq h (by omega)]
      apply M.bind_congr_ok
      intro val _
      rw [scanLoopA_eq h n (i + 1) i val (by omega), scanLoopA_eq h n (i + 1) pos min (by omega)]

theorem minPosA_eq (h : u.Rep v) {lo hi : Nat} (hl : lo ≤ hi) (hh : hi < v.length) : u.minPosA lo hi = u.minPos lo hi := by
  unfold minPosA minPos scanA scan
  rw [scanLoopA_eq h _ _ _ _ (by omega), CT.rmqD_eq h.ct hl hh]

theorem subA_eq (h : u.Rep v) {lo hi : Nat} (hl : lo ≤ hi) (hh : hi < v.length) : u.subA lo hi = u.sub lo hi := by
  obtain ⟨m, m1, m2⟩ := minPos_spec h hl hh
  unfold subA sub
  rw [minPosA_eq h hl hh, m1, M.ok_bind, M.ok_bind, accessA_eq h (by have := m2.2.1; omega)]

section
variable {α : Type} (std : StdLib) (key : α → Nat) (wrap : SR → α)

theorem pushLeftA_eq (h : u.Rep v) {lo pos : Nat} (hp : pos ≤ v.length) (q : List α) :
    pushLeftA std key wrap u lo pos q = pushLeft std key wrap u lo pos q := by
  unfold pushLeftA pushLeft
  split
  · rw [subA_eq h (by omega) (by omega)]
  · rfl

theorem pushRightA_eq (h : u.Rep v) {pos hi : Nat} (hh : hi < v.length) (q : List α) :
    pushRightA std key wrap u pos hi q = pushRight std key wrap u pos hi q := by
  unfold pushRightA pushRight
  split
  · rw [subA_eq h (by omega) hh]
  · rfl

end

theorem topkLoopA_eq (std : StdLib) (h : u.Rep v) (k : Nat) (unique : Bool) : ∀ (fuel : Nat) (q : List SR) (buf : List Nat) (i : Nat),
    IsHeap SR.val q → (∀ s ∈ q, s.WF v) → topkLoopA std u k unique fuel q buf i = topkLoop std u k unique fuel q buf i
  | 0, _, _, _, _, _ => rfl
  | fuel + 1, [], _, _, _, _ => rfl
  | fuel + 1, m :: q, buf, i, hq, hwf => by
      obtain ⟨q1, q2, q3, s1, s2, s3, s4, s5, -⟩ := step_spec std h hq hwf
      have hm := hwf m (List.mem_cons_self ..)
      have hpos : m.pos ≤ v.length := by have := hm.min.2.1; have := hm.hi; omega
      have htop : Heap.top (m :: q) = .ok m := rfl
      unfold topkLoopA topkLoop
      rw [htop, M.ok_bind, M.ok_bind, s1]
      simp only [M.ok_bind, pushLeftA_eq std SR.val id h hpos, s2, pushRightA_eq std SR.val id h hm.hi, s3,
        fun buf i => topkLoopA_eq std h k unique fuel q3 buf i s4 s5]

theorem copyLoopA_eq (h : u.Rep v) (lo : Nat) : ∀ (n i : Nat) (buf : List Nat), lo + i + n ≤ v.length → u.copyLoopA lo n i buf = u.copyLoop lo n i buf
  | 0, _, _, _ => rfl
  | n + 1, i, buf, hi => by
      unfold copyLoopA copyLoop
      rw [accessA_eq h (by omega)]
      apply M.bind_congr_ok
      intro x _
      apply M.bind_congr_ok
      intro buf _
      exact copyLoopA_eq h lo n (i + 1) buf (by omega)

theorem start_wf (h : u.Rep v) {lo hi : Nat} (hl : lo ≤ hi) (hh : hi < v.length) :
    ∃ pos, CT.rmq u.rmq lo hi = .ok pos ∧ pos < v.length ∧ u.access pos = .ok (v.getD pos 0) ∧ SR.WF v ⟨lo, hi, pos, v.getD pos 0⟩ := by
  obtain ⟨m, m1, m2⟩ := rmq_min h hl hh
  have hm : m < v.length := by have := m2.2.1; omega
  exact ⟨m, m1, hm, h.access m hm, m2, hh, rfl⟩

theorem topkA_eq (std : StdLib) (h : u.Rep v) {b e : Nat} (hbe : b ≤ e) (he : e ≤ v.length) (k : Nat) (unique : Bool) (buf : List Nat) :
    u.topkA std b e k unique buf = u.topk std b e k unique buf := by
  unfold topkA topk
  dsimp only
  split
  · rw [copyLoopA_eq h _ _ _ _ (by omega)]
  · have hl : b ≤ e - 1 := by omega
    have hh : e - 1 < v.length := by omega
    obtain ⟨pos, p1, p2, p3, p4⟩ := start_wf h hl hh
    obtain ⟨q1, q2⟩ := Heap.push_spec std (IsHeap.nil (key := SR.val)) ⟨b, e - 1, pos, v.getD pos 0⟩
    rw [CT.rmqD_eq h.ct hl hh, p1, M.ok_bind, M.ok_bind, accessA_eq h p2, p3, M.ok_bind, M.ok_bind]
    apply topkLoopA_eq std h _ _ _ _ _ _ q2
    intro s hs
    have := q1.mem_iff.mp hs
    simp only [List.mem_singleton] at this
    rw [this]; exact p4

end UL

/-! ## Inverted index -/

namespace InvBuilder

theorem addA_eq (b : InvBuilder) {l : List Nat} (h : CEF.Valid b.numDocs l) : b.addA l = b.add l := by
  unfold addA add
  apply M.bind_congr_ok
  intro x _
  rw [writeLenA_eq h]
  apply M.bind_congr_ok
  intro bvb _
  rw [CEF.buildD_eq _ h]

theorem add_numDocs {b b' : InvBuilder} {l : List Nat} (h : b.add l = .ok b') : b'.numDocs = b.numDocs := by
  unfold add at h
  obtain ⟨_, _, h⟩ := bind_ok h
  obtain ⟨_, _, h⟩ := bind_ok h
  obtain ⟨_, _, h⟩ := bind_ok h
  cases h; rfl

theorem addAllA_eq : ∀ (ls : List (List Nat)) (b : InvBuilder), (∀ l ∈ ls, CEF.Valid b.numDocs l) → b.addAllA ls = b.addAll ls
  | [], _, _ => rfl
  | l :: ls, b, h => by
      unfold addAllA addAll
      rw [addA_eq b (h l (by simp))]
      apply M.bind_congr_ok
      intro b' hb
      exact addAllA_eq ls b' (fun l' hl' => by rw [add_numDocs hb]; exact h l' (by simp [hl']))

theorem mkA_eq {u : Nat} {lists : List (List Nat)} (h : InvLists u lists) : mkA u lists = mk' u lists := by
  unfold mkA mk'
  rw [addAllA_eq _ _ (fun l hl => h.valid hl)]

theorem buildA_eq (b : InvBuilder) (after : W) : b.buildA after = b.build after := by
  unfold buildA build
  rw [EF.buildD_eq]

end InvBuilder

/-- the lists end within the bits of the index -/
structure InvIdx.RepA (ii : InvIdx) (u : Nat) (lists : List (List Nat)) : Prop where
  rep : ii.Rep u lists
  ptrs : ∃ xs, ii.pointers.RepD xs ∧ xs.length = lists.length
  fits : ∀ i (hi : i < lists.length) p, ii.pointers.access i = .ok p → ListAt ii.data.bits p u lists[i] ∧ listEnd p u lists[i] ≤ ii.data.size

theorem InvBuilder.build_repA {u : Nat} {lists : List (List Nat)} (h : InvLists u lists) {b : InvBuilder} (hb : InvBuilder.mk' u lists = .ok b)
    {after : W} {ii : InvIdx} (hi : b.build after = .ok ii) : ii.RepA u lists := by
  obtain ⟨b', m1, -, m2⟩ := InvBuilder.build_spec h
  rw [m1] at hb
  cases hb
  obtain ⟨ii', m3, m4⟩ := m2 after
  rw [m3] at hi
  cases hi
  obtain ⟨c, init, e1, e2⟩ := InvBuilder.addAll_spec lists ⟨0, u, [0], [], BVB.empty⟩ [] [] (u := u)
    (by
      refine ⟨?_, rfl, rfl, rfl, rfl, rfl, by simp, by intro i l hl; simp at hl, by simp [BVB.empty]⟩
      exact BVB.empty_wf)
    (fun l hl => h.valid hl)
  rw [List.nil_append] at e2
  have hinit : c.pointers.dropLast = init := by rw [e2.ptrs]; simp
  unfold InvBuilder.mk' at m1
  rw [e1] at m1
  simp only [M.ok_bind, hinit] at m1
  injection m1 with m1
  subst m1
  unfold InvBuilder.build at m3
  dsimp only at m3
  obtain ⟨e, f1, m3⟩ := bind_ok m3
  injection m3 with m3
  subst m3
  have hne : init ≠ [] := by
    intro hn
    have := e2.len
    rw [hn] at this
    exact h.ne (List.length_eq_zero_iff.mp this.symm)
  have hs : init.Pairwise (· ≤ ·) ∧ ∀ x ∈ init, x ≤ c.bvb.size := by
    have hs := e2.sorted
    rw [e2.ptrs, List.pairwise_append] at hs
    exact ⟨hs.1, fun x hx => hs.2.2 x hx _ (by simp)⟩
  have hsz := e2.size
  have hc := count_le_sum (lists := lists) (fun l hl => (h.each l hl).1)
  have ht := h.total
  obtain ⟨e', g1, g2, g3, g4⟩ := Trie.ef_words (xs := init) hne (fun x hx => by have := hs.2 x hx; omega) hs.1
  rw [show toWords init = Trie.words init from rfl, g1] at f1
  injection f1 with f1
  subst f1
  refine ⟨m4, ⟨_, EF.build_repD g1, ?_⟩, ?_⟩
  · rw [← e2.len]; simp [Trie.words]
  · intro i hi p hp
    obtain ⟨p', p1, p2, p3⟩ := e2.at' i lists[i] (by rw [List.getElem?_eq_getElem hi])
    have hi2 : i < init.length := by rw [e2.len]; exact hi
    rw [List.getElem?_eq_getElem hi2] at p1
    rw [g3 i hi2, Option.some.inj p1] at hp
    cases hp
    exact ⟨p2, p3⟩

namespace InvIdx
variable {ii : InvIdx} {u : Nat} {lists : List (List Nat)}

theorem iteratorA_eq (h : ii.RepA u lists) {t : Nat} (ht : t < lists.length) : ii.iteratorA t = ii.iterator t := by
  obtain ⟨xs, x1, x2⟩ := h.ptrs
  obtain ⟨p, p1, -⟩ := h.rep.at' t ht
  obtain ⟨p2, p3⟩ := h.fits t ht p p1
  obtain ⟨bi, it, e1, e2, e3, e4⟩ := readList_spec p2
  have hne := List.length_pos_iff.mpr (h.rep.valid.each _ (List.getElem_mem ht)).1
  have hsm := (h.rep.valid.valid (List.getElem_mem ht)).small
  unfold iteratorA iterator
  rw [check_bind (by rw [h.rep.terms]; exact ht), EF.accessD_eq x1 (by omega), p1, M.ok_bind, M.ok_bind, readListA_eq p2 p3, e1, M.ok_bind, M.ok_bind]
  dsimp only
  rw [CEI.mkD_eq]
  rw [BitVec.toNat_ofNat]
  omega

theorem iteratorOfA_eq (h : ii.RepA u lists) {t : Nat} (h0 : 0 < t) (ht : t ≤ lists.length) : ii.iteratorOfA t = ii.iteratorOf t := by
  unfold iteratorOfA iteratorOf
  rw [if_neg (by omega), if_neg (by omega), iteratorA_eq h (by omega)]

theorem Live.nextD {it : CEI} (h : ii.Live u it) : it.nextD ii.data = it.next ii.data := by
  obtain ⟨xs, p, h1, h2⟩ := h
  exact CEI.nextD_eq _ _ (by rw [h1.pos, h1.size]; exact h2)

end InvIdx

namespace Inter
variable {ii : InvIdx} {u : Nat} {lists : List (List Nat)}

theorem nextLoopA_eq (ii : InvIdx) : ∀ (fuel val : Nat) (s : Inter), nextLoopA ii fuel val s = nextLoop ii fuel val s
  | 0, _, _ => rfl
  | fuel + 1, val, s => by
      unfold nextLoopA nextLoop
      simp only [CEI.nextGeqD_eq, nextLoopA_eq ii fuel]

theorem nextA_eq (ii : InvIdx) (s : Inter) : nextA ii s = next ii s := nextLoopA_eq ii _ _ _

theorem iteratorsA_eq (h : ii.RepA u lists) : ∀ {ids : List Nat}, (∀ t ∈ ids, 0 < t ∧ t ≤ lists.length) → iteratorsA ii ids = iterators ii ids
  | [], _ => rfl
  | id :: ids, hv => by
      obtain ⟨h1, h2⟩ := hv id (by simp)
      unfold iteratorsA iterators
      rw [check_bind h1, InvIdx.iteratorOfA_eq h h1 h2, iteratorsA_eq h (fun t ht => hv t (by simp [ht]))]

theorem mkA_eq (std : StdLib) (h : ii.RepA u lists) {ids : List Nat} (hl : 1 < ids.length) (hv : ∀ t ∈ ids, 0 < t ∧ t ≤ lists.length) :
    mkA std ii ids = mk' std ii ids := by
  unfold mkA mk'
  rw [check_bind hl, iteratorsA_eq h hv]
  simp only [CEI.accessD_eq _ _ 0 (Nat.zero_le _), nextA_eq]

/-- the first iterator of a state that gives a document is not at its end -/
theorem Enum.live {s : Inter} {ls : List (List Nat)} {R : List Nat} (h : Enum ii u s ls R) (hn : s.hasNext ii = true) :
    ∃ h0 : 0 < s.its.length, ii.Live u s.its[0] := by
  have hl : 0 < ls.length := List.length_pos_iff.mpr h.ne
  have hlen := All2.length h.its
  have h0 : 0 < s.its.length := by omega
  have hlt : s.candidate < u := by rw [← h.docs]; exact of_decide_eq_true hn
  have hv := h.here.resolve_left (by omega)
  obtain ⟨p, hp⟩ := All2.get h.its 0 h0 hl
  have hv0 := hv _ (List.getElem_mem h0)
  obtain ⟨hplt, _⟩ := hp.value_mem (by omega)
  exact ⟨h0, _, p, hp, hplt⟩

theorem incA_eq {s : Inter} {ls : List (List Nat)} {R : List Nat} (h : Enum ii u s ls R) (hn : s.hasNext ii = true) (hr : Rests ii s) :
    incA ii s = inc ii s := by
  have hc : s.candidate < ii.numDocs := of_decide_eq_true hn
  have hi : s.i = s.its.length := hr.resolve_right (by omega)
  obtain ⟨h0, hlive⟩ := h.live hn
  unfold incA inc
  rw [check_bind hi, rd_ok h0, M.ok_bind, M.ok_bind, hlive.nextD]
  simp only [nextA_eq]

end Inter

theorem DocIter.listA_both {ii : InvIdx} {u : Nat} {xs : List Nat} (hu : u < 2 ^ 32) : ∀ (n : Nat) (it : CEI) (p : Nat), ii.ItAt u xs it p → xs.length - p = n →
    DocIter.Both (DocIter.listA ii) (DocIter.list ii) it (xs.drop p) := by
  intro n
  induction n with
  | zero =>
      intro it p h hn
      rw [List.drop_of_length_le (by omega)]
      have : it.hasNext = false := by rw [h.hasNext]; simp; omega
      exact ⟨this, this⟩
  | succ n ih =>
      intro it p h hn
      have hp : p < xs.length := by omega
      rw [List.drop_eq_getElem_cons hp]
      obtain ⟨it', e1, e2⟩ := h.next hp
      have h1 : it.hasNext = true := by rw [h.hasNext]; simpa using hp
      have h2 : id32 it.value = xs[p] := by
        have := h.lt_of_value hp
        rw [id32, Nat.mod_eq_of_lt (by omega), h.value, List.getElem?_eq_getElem hp]; rfl
      refine ⟨h1, h1, h2, h2, it', e1, ?_, ih it' (p + 1) e2 (by omega)⟩
      show it.nextD ii.data = _
      rw [InvIdx.Live.nextD ⟨xs, p, h, hp⟩]
      exact e1

theorem DocIter.interA_both {ii : InvIdx} {u : Nat} {ls : List (List Nat)} (h0 : 0 < ii.numDocs) : ∀ (R : List Nat) (s : Inter),
    Inter.Enum ii u s ls R → Inter.Rests ii s → DocIter.Both (DocIter.interA ii) (DocIter.inter ii) s R
  | [], s, h, _ => by
      have := h.step.1 rfl
      exact ⟨this, this⟩
  | d :: R, s, h, hr => by
      obtain ⟨h1, h2, s', h3, h4⟩ := h.step.2 d R rfl
      refine ⟨h1, h1, h2, h2, s', h3, ?_, DocIter.interA_both h0 R s' h4 (Inter.inc_rests h0 h3)⟩
      show Inter.incA ii s = _
      rw [Inter.incA_eq h h1 hr, h3]

theorem withDocsA_stays {β : Type} {std : StdLib} {ii : InvIdx} {u : Nat} {lists : List (List Nat)} (H : ii.RepA u lists)
    {pfx : Ids} (hne : pfx ≠ []) (hin : ∀ t ∈ pfx, 0 < t ∧ t ≤ lists.length) {R : List Nat} (hR : R.Pairwise (· < ·))
    (hmem : ∀ d, d ∈ R ↔ ∀ t ∈ pfx, d ∈ lists.getD (t - 1) []) (run' run : {σ : Type} → DocIter σ → σ → M β)
    (hrun : ∀ {σ : Type} (I' I : DocIter σ) (it : σ), DocIter.Both I' I it R → Stays (run' I' it) (run I it)) :
    Stays (withDocsA std ii pfx run') (withDocs std ii pfx run) := by
  have h := H.rep
  obtain ⟨d1, d2⟩ := deduplicate_spec std pfx
  have hdne : deduplicate std pfx ≠ [] := by
    intro he
    cases pfx with
    | nil => exact hne rfl
    | cons t ts => have := (d2 t).mpr (by simp); rw [he] at this; simp at this
  have hdin : ∀ t ∈ deduplicate std pfx, 0 < t ∧ t ≤ lists.length := fun t ht => hin t ((d2 t).mp ht)
  have hdmem : ∀ d, d ∈ R ↔ ∀ t ∈ deduplicate std pfx, d ∈ lists.getD (t - 1) [] := by
    intro d; rw [hmem]
    exact ⟨fun H t ht => H t ((d2 t).mp ht), fun H t ht => H t ((d2 t).mpr ht)⟩
  unfold withDocsA withDocs
  generalize deduplicate std pfx = c at *
  have hpos := List.length_pos_iff.mpr hdne
  have h0 : 0 < ii.numDocs := by
    rw [h.docs]
    obtain ⟨t, ht⟩ := List.exists_mem_of_ne_nil _ hdne
    obtain ⟨v1, v2⟩ := hdin t ht
    obtain ⟨g1, g2, g3⟩ := h.valid.each lists[t - 1] (List.getElem_mem (by omega))
    obtain ⟨x, hx⟩ := List.exists_mem_of_ne_nil _ g1
    have := g3 x hx; omega
  dsimp only
  split
  · rename_i hc
    obtain ⟨t, rfl, hrd⟩ := rd_zero_of_length_one hc
    have ht := hdin t (by simp)
    have htl : t - 1 < lists.length := by omega
    obtain ⟨it, e1, e2⟩ := InvIdx.iterator_spec h (t - 1) htl
    have hRt : R = lists[t - 1] := by
      apply strict_ext hR e2.sorted
      intro d; rw [hdmem]
      simp [List.getElem?_eq_getElem htl]
    rw [hrd, M.ok_bind, M.ok_bind, InvIdx.iteratorOfA_eq H ht.1 ht.2, InvIdx.iteratorOf_pos ht.1, e1, M.ok_bind, M.ok_bind]
    apply hrun
    rw [hRt]
    exact DocIter.listA_both h.valid.univ _ it 0 e2 rfl
  · rename_i hc
    obtain ⟨s, ls, e1, e2⟩ := Inter.mk'_spec std h c hdne hdin R hR hdmem
    rw [Inter.mkA_eq std H (by omega) hdin, e1, M.ok_bind, M.ok_bind]
    exact hrun _ _ _ (DocIter.interA_both h0 R s e2 (Inter.mk'_rests h0 e1))

/-! ## Unions of lists -/

namespace HeapTopK

theorem advanceA_eq (std : StdLib) {ii : InvIdx} {u : Nat} (m : CEI) (q : List CEI) (hg : Good ii u (m :: q)) :
    advanceA std ii (m :: q) = advance std ii (m :: q) := by
  unfold advanceA advance
  rw [show Heap.top (m :: q) = .ok m from rfl, M.ok_bind, M.ok_bind, (hg.live m (List.mem_cons_self ..)).nextD]

theorem fillA_eq {ii : InvIdx} {u : Nat} {lists : List (List Nat)} (h : ii.RepA u lists) : ∀ (n t : Nat), 0 < t → t + n ≤ lists.length + 1 → fillA ii n t = fill ii n t
  | 0, _, _, _ => rfl
  | n + 1, t, h0, ht => by
      unfold fillA fill
      rw [InvIdx.iteratorOfA_eq h h0 (by omega), fillA_eq h n (t + 1) (by omega) (by omega)]

theorem startA_eq {ii : InvIdx} {u : Nat} {lists : List (List Nat)} (h : ii.RepA u lists) {b e : Nat} (h0 : 0 < b) (hbe : b ≤ e) (he : e ≤ lists.length)
    (hs : lists.length < 2 ^ 32) : startA ii b e = fill ii (e + 1 - b) b := by
  unfold startA
  rw [check_ok (isInvalid_false (r := ⟨b, e⟩) hbe (by dsimp only; omega)), M.ok_bind, check_ok h0, M.ok_bind]
  exact fillA_eq h _ _ h0 (by omega)

theorem topkA_stays (std : StdLib) {ii : InvIdx} {u : Nat} {lists : List (List Nat)} (h : ii.RepA u lists) {b e : Nat} (h0 : 0 < b) (hbe : b ≤ e)
    (he : e ≤ lists.length) (hs : lists.length < 2 ^ 32) (k : Nat) (buf : List Nat) : Stays (topkA std ii b e k buf) (topk std ii b e k buf) := by
  obtain ⟨q, q1, q2, -⟩ := start_spec std h.rep h0 (by omega : b ≤ e + 1) he
  unfold topkA topk
  rw [startA_eq h h0 hbe he hs, q1, M.ok_bind, M.ok_bind]
  exact Union.loopD_stays std (step std ii u) (fun m q hg => by rw [advanceA_eq std m q hg]; exact .refl _) k _ _ _ _ q2

end HeapTopK

namespace MinDocs

theorem advanceA_eq (std : StdLib) {ii : InvIdx} {u : Nat} {lists : List (List Nat)} (h : ii.RepA u lists) (hs : lists.length < 2 ^ 32)
    {ul : UL} (hul : ul.Rep (lists.map (fun l => l.headD 0))) (m : RI) (q : List RI) (hg : Good ii u lists (m :: q)) :
    advanceA std ii ul (m :: q) = advance std ii ul (m :: q) := by
  have hm := hg.ok m (List.mem_cons_self ..)
  obtain ⟨sr, mit⟩ := m
  unfold advanceA advance
  rw [show Heap.top ((⟨sr, mit⟩ : RI) :: q) = .ok ⟨sr, mit⟩ from rfl, M.ok_bind, M.ok_bind]
  cases mit with
  | some it =>
      have hm : ii.Live u it := hm
      dsimp only
      rw [hm.nextD]
  | none =>
      have hm : sr.WF (lists.map (fun l => l.headD 0)) := hm
      have h1 := hm.hi
      have h2 := hm.min.2.1
      have hpos : sr.pos < lists.length := by
        simp only [List.length_map] at h1
        omega
      obtain ⟨it, i1, i2⟩ := InvIdx.iterator_spec h.rep sr.pos hpos
      have hlive : ii.Live u it := ⟨_, 0, i2, List.length_pos_iff.mpr (h.rep.valid.each _ (List.getElem_mem hpos)).1⟩
      dsimp only
      have hne : sr.pos ≠ INVALID_TERM := by unfold INVALID_TERM; omega
      rw [check_ok hne, M.ok_bind, InvIdx.iteratorA_eq h hpos, i1, M.ok_bind, M.ok_bind, hlive.nextD]
      simp only [UL.pushLeftA_eq std key closed hul (show sr.pos ≤ _ by omega), UL.pushRightA_eq std key closed hul h1]

theorem topkA_stays (std : StdLib) {ii : InvIdx} {u : Nat} {lists : List (List Nat)} (h : ii.RepA u lists) (hs : lists.length < 2 ^ 32)
    {ul : UL} (hul : ul.Rep (lists.map (fun l => l.headD 0))) {a b : Nat} (hab : a < b) (hb : b ≤ lists.length) (k : Nat) (buf : List Nat) :
    Stays (topkA std ii ul a b k buf) (topk std ii ul a b k buf) := by
  have hlen : (lists.map (fun l => l.headD 0)).length = lists.length := List.length_map _
  obtain ⟨pos, val, p1, p2, p3, p4⟩ := start_spec std (ii := ii) (u := u) hul hab hb
  obtain ⟨pos', q1, q2, -⟩ := UL.start_wf hul (lo := a) (hi := b - 1) (by omega) (by omega)
  rw [p1] at q1
  cases q1
  unfold topkA topk
  rw [CT.rmqD_eq hul.ct (by omega) (by omega), p1, M.ok_bind, M.ok_bind, UL.accessA_eq hul q2, p2, M.ok_bind, M.ok_bind]
  exact Union.loopD_stays std (step std h.rep hul) (fun m q hg => by rw [advanceA_eq std h hs hul m q hg]; exact .refl _) k _ _ _ _ p3

end MinDocs
end AC
