import Verif.Model.DebugType4
import Verif.Proofs.DebugIndex
import Verif.Proofs.DebugSame
import Verif.Proofs.Type4
/-!
# Type 4 with assertions does what it does without, where that succeeds
-/
namespace AC
open Spec

/-! ## An iterator that is told to go where it is -/

theorem UI.unique {v : BV} {u u' : UI} {c : Nat} (hp : u.position = u'.position) (h : u.Inv v c) (h' : u'.Inv v c) : u = u' := by
  obtain ⟨p, b⟩ := u
  obtain ⟨p', b'⟩ := u'
  dsimp only at hp
  subst hp
  congr 1
  apply BitVec.eq_of_getLsbD_eq
  intro j hj
  have h1 := h.buf j hj
  have h2 := h'.buf j hj
  dsimp only at h1 h2
  rw [h1, h2]

theorem CEF.At.unique {v : BV} {base u : Nat} {vs : List Nat} {it it' : CEI} {p : Nat} (hp : p < vs.length) (h : CEF.At v base u vs it p)
    (h' : CEF.At v base u vs it' p) : it = it' := by
  obtain ⟨o, ps, val, he⟩ := it
  obtain ⟨o', ps', val', he'⟩ := it'
  have e1 : o = o' := h.off.trans h'.off.symm
  have e2 : ps = ps' := h.pos.trans h'.pos.symm
  have e3 : val = val' := h.value.trans h'.value.symm
  subst e1 e2 e3
  congr 1
  obtain ⟨a1, a2⟩ := h.he hp
  obtain ⟨b1, b2⟩ := h'.he hp
  dsimp only at a1 a2 b1 b2
  exact UI.unique (a1.trans b1.symm) a2.1 b2.1

theorem CEF.ItAt.access_self {v : BV} {u : Nat} {xs : List Nat} {it : CEI} {p : Nat} (h : CEF.ItAt v u xs it p) (hp : p < xs.length) :
    it.access v it.pos = .ok it := by
  obtain ⟨base, h1, h2, h3, h4⟩ := h
  obtain ⟨it', e1, e2⟩ := CEF.access_spec h1 h4 (i := p) (by omega)
  rw [h4.pos, e1, CEF.At.unique hp e2 h4]

theorem CEF.ItAt.scan' {v : BV} {u : Nat} {xs : List Nat} {it : CEI} {p : Nat} (h : CEF.ItAt v u xs it p) (y : Nat) :
    ∃ it' p', it.nextGeqByScan v y = .ok it' ∧ CEF.ItAt v u xs it' p' := by
  have hn := h.size
  obtain ⟨base, h1, h2, h3, h4⟩ := h
  obtain ⟨it', p', e1, e2, e3, e4, e5⟩ := CEF.scanLoop_spec h1 y (it.off.n + 1) p it h4 (by omega)
  exact ⟨it', p', e1, base, h1, h2, h3, e2⟩

/-! ## The builder -/

namespace BlkBuilder

/-- what the local variables hold before term `term` is added: the lists of terms are increasing, and those that are not empty belong to documents of the
block -/
structure Tidy (term : Nat) (s : BlkLocals) : Prop where
  lower : s.lower ≤ term
  sorted : ∀ d, (s.map d).Pairwise (· ≤ ·)
  le : ∀ d, ∀ x ∈ s.map d, x ≤ term - s.lower
  mem : ∀ d, s.map d ≠ [] → d ∈ s.union

theorem addPostings_tidy {x : Nat} : ∀ (ds : List Nat) (f : Nat → List Nat), (∀ d, (f d).Pairwise (· ≤ ·)) → (∀ d, ∀ y ∈ f d, y ≤ x) →
    (∀ d, (addPostings x ds f d).Pairwise (· ≤ ·)) ∧ (∀ d, ∀ y ∈ addPostings x ds f d, y ≤ x) ∧ ∀ d, addPostings x ds f d ≠ [] → f d ≠ [] ∨ d ∈ ds
  | [], f, h1, h2 => ⟨h1, h2, fun _ h => Or.inl h⟩
  | e :: ds, f, h1, h2 => by
      obtain ⟨a1, a2, a3⟩ := addPostings_tidy (x := x) ds (fun d => if d = e then f d ++ [x] else f d)
        (by
          intro d
          split
          · rw [List.pairwise_append]
            exact ⟨h1 d, List.pairwise_singleton .., fun a ha b hb => by rw [List.mem_singleton.mp hb]; exact h2 d a ha⟩
          · exact h1 d)
        (by
          intro d y hy
          split at hy
          · rcases List.mem_append.mp hy with hy | hy
            · exact h2 d y hy
            · rw [List.mem_singleton.mp hy]; exact Nat.le_refl _
          · exact h2 d y hy)
      refine ⟨a1, a2, fun d hd => ?_⟩
      rcases a3 d hd with h | h
      · split at h
        · rename_i he; exact Or.inr (by rw [he]; exact List.mem_cons_self ..)
        · exact Or.inl h
      · exact Or.inr (List.mem_cons_of_mem _ h)

theorem Tidy.addTerm {b : BlkBuilder} {term : Nat} {list : List Nat} {s : BlkLocals} (h : Tidy term s) : Tidy term (b.addTerm term list s).2 := by
  obtain ⟨a1, a2, a3⟩ := addPostings_tidy list s.map h.sorted h.le
  refine ⟨h.lower, a1, a2, fun d hd => ?_⟩
  rcases a3 d hd with hd | hd
  · exact List.mem_append_left _ (h.mem d hd)
  · exact List.mem_append_right _ hd

theorem Tidy.succ {term : Nat} {s : BlkLocals} (h : Tidy term s) : Tidy (term + 1) s :=
  ⟨Nat.le_succ_of_le h.lower, h.sorted, fun d x hx => by have := h.le d x hx; omega, h.mem⟩

theorem gatherD_stays : ∀ (ds : List Nat) (f : Nat → List Nat) (off : Nat), (∀ d, (f d).Pairwise (· ≤ ·)) →
    gatherD ds f off = .ok (gather ds f off)
  | [], _, _, _ => rfl
  | d :: ds, f, off, h => by
      unfold gatherD gather
      rw [show AC.check ((f d).Pairwise (· ≤ ·)) = .ok () from if_pos (h d), M.ok_bind, gatherD_stays ds _ _ (by
        intro e
        split
        · exact List.Pairwise.nil
        · exact h e)]
      rfl

theorem gather_empty : ∀ (ds : List Nat) (f : Nat → List Nat) (off : Nat), (∀ d, f d ≠ [] → d ∈ ds) → ∀ d, (gather ds f off).2.2 d = []
  | [], f, _, h, d => by
      show f d = []
      exact Classical.byContradiction fun hn => by cases h d hn
  | e :: ds, f, off, h, d => by
      show (gather ds (fun x => if x = e then [] else f x) (off + (f e).length)).2.2 d = []
      refine gather_empty ds _ _ (fun x hx => ?_) d
      split at hx
      · exact absurd rfl hx
      · rename_i hne
        exact (List.mem_cons.mp (h x hx)).resolve_left hne

theorem closeD_stays (std : StdLib) (b : BlkBuilder) {term : Nat} {s : BlkLocals} (h : Tidy term s) : Stays (b.closeD std term s) (b.close std term s) := by
  unfold closeD close
  refine .bind (.refl _) fun lists _ => ?_
  rw [gatherD_stays _ _ _ h.sorted, M.ok_bind]
  exact .refl _

theorem Tidy.close {std : StdLib} {b b' : BlkBuilder} {term : Nat} {s s' : BlkLocals} (h : Tidy term s) (hc : b.close std term s = .ok (b', s')) :
    Tidy (term + 1) s' := by
  unfold BlkBuilder.close at hc
  obtain ⟨_, -, hc⟩ := bind_ok hc
  obtain ⟨_, -, hc⟩ := bind_ok hc
  obtain ⟨_, -, hc⟩ := bind_ok hc
  injection hc with hc
  injection hc with _ hc
  subst hc
  have he : ∀ d, (gather (deduplicate std s.union) s.map 0).2.2 d = [] :=
    gather_empty _ _ _ fun d hd => ((deduplicate_spec std s.union).2 d).mpr (h.mem d hd)
  refine ⟨Nat.le_succ _, fun d => ?_, fun d x hx => ?_, fun d hd => ?_⟩
  · dsimp only; rw [he d]; exact List.Pairwise.nil
  · dsimp only at hx; rw [he d] at hx; cases hx
  · exact absurd (he d) hd

theorem addAllD_stays (std : StdLib) (m : Nat) : ∀ (lists : List (List Nat)) (term : Nat) (b : BlkBuilder) (s : BlkLocals), Tidy term s →
    Stays (addAllD std m lists term b s) (addAll std m lists term b s)
  | [], _, _, _, _ => .refl _
  | list :: rest, term, b, s, h => by
      unfold addAllD addAll
      have e : b.addTermD term list s = .ok (b.addTerm term list s) := by
        unfold addTermD
        rw [show AC.check (list = [] ∨ s.lower ≤ term) = .ok () from if_pos (Or.inr h.lower), M.ok_bind]
      rw [e, M.ok_bind]
      have h1 := h.addTerm (b := b) (list := list)
      generalize b.addTerm term list s = bs at h1 ⊢
      obtain ⟨b1, s1⟩ := bs
      dsimp only at h1 ⊢
      refine .ite (fun _ => .bind (closeD_stays std b1 h1) ?_) fun _ => addAllD_stays std m rest _ _ _ h1.succ
      rintro ⟨b2, s2⟩ hc
      exact addAllD_stays std m rest _ _ _ (h1.close hc)

theorem mkD_stays (std : StdLib) (m univ : Nat) (lists : List (List Nat)) : Stays (mkD std m univ lists) (mk' std m univ lists) :=
  .bind (addAllD_stays std m lists 1 _ _ ⟨Nat.le_refl _, fun _ => List.Pairwise.nil, (fun _ _ h => by cases h), fun _ h => absurd rfl h⟩) fun _ _ => .refl _

theorem gatherD_same : ∀ (ds : List Nat) (f : Nat → List Nat) (off : Nat), Stays (.ok (gather ds f off)) (gatherD ds f off)
  | [], _, _ => .refl _
  | d :: ds, f, off => by
      unfold gatherD gather
      exact .unchecked (.ok_of (gatherD_same ds _ _) (.refl _))

theorem addAllD_same (std : StdLib) (m : Nat) : ∀ (lists : List (List Nat)) (term : Nat) (b : BlkBuilder) (s : BlkLocals),
    Stays (addAll std m lists term b s) (addAllD std m lists term b s)
  | [], _, _, _ => .refl _
  | list :: rest, term, b, s => by
      unfold addAllD addAll addTermD
      refine .ok_of (.unchecked (.refl _)) ?_
      refine .ite (fun _ => .bind ?_ fun _ _ => addAllD_same std m rest _ _ _) fun _ => addAllD_same std m rest _ _ _
      unfold closeD close
      exact .bind (.refl _) fun _ _ => .ok_of (gatherD_same _ _ _) (.refl _)

theorem mkD_same (std : StdLib) (m univ : Nat) (lists : List (List Nat)) : Stays (mk' std m univ lists) (mkD std m univ lists) :=
  .bind (addAllD_same std m lists 1 _ _) fun _ _ => .refl _

end BlkBuilder

theorem Index4.buildD_same (std : StdLib) (m : Nat) (F : Files) (mem : Nat → W) : Stays (Index4.build std m F mem) (Index4.buildD std m F mem) :=
  .skip (.bind (BlkBuilder.mkD_same std m _ _) fun _ _ => .bind (Base.buildD_same _ _) fun _ _ => .refl _)

theorem Index4.buildD_stays {C : Coll} {F : Files} (h : Ready C F) (std : StdLib) (m : Nat) (mem : Nat → W) :
    Stays (Index4.buildD std m F mem) (Index4.build std m F mem) := by
  unfold Index4.buildD Index4.build
  refine Stays.ok_bind h.checkParams ?_
  exact Stays.bind (BlkBuilder.mkD_stays std m _ _) fun _ _ => Stays.bind (Base.buildD_stays h mem) fun _ _ => .refl _

/-! ## Blocks -/

section
variable {ii : BlkIdx} {u m : Nat} {lists docss : List (List Nat)}

/-- a block of the index, at some position -/
def Blk.Ok (ii : BlkIdx) (u : Nat) (lists : List (List Nat)) (b : Blk) : Prop := ∃ lo hi docs p, b.At ii u lists lo hi docs p

theorem BlkIdx.boundaryD_stays (ii : BlkIdx) (j : Nat) : Stays (ii.boundaryD j) (ii.boundary j) := .check (fun _ h => rd_lt h) (.refl _)

theorem BlkIdx.blockD_ok {j : Nat} (hj : j < ii.blocks.length) : ii.blockD j = ii.block j := by
  unfold BlkIdx.blockD BlkIdx.numBlocks
  rw [check_ok hj, M.ok_bind]

theorem Blk.At.bounds_lt {lo hi : Nat} {docs : List Nat} {b : Blk} {p : Nat} (h : b.At ii u lists lo hi docs p) (hp : p < docs.length) :
    ∃ s e o, ii.bounds b = .ok (s, e, { b with offs := o }) ∧ s < e ∧ Blk.At ii u lists lo hi docs { b with offs := o } p := by
  have hd : docs[p]? = some docs[p] := List.getElem?_eq_getElem hp
  obtain ⟨o, e1, e2⟩ := h.bounds hd
  refine ⟨_, _, o, e1, ?_, e2⟩
  obtain ⟨t, t1, t2, t3⟩ := (h.isDocs.mem docs[p]).mp (List.getElem_mem hp)
  have := List.length_pos_of_mem (mem_termsOf.mpr ⟨t1, t2, t3⟩)
  omega

theorem BlkIdx.isInD_stays {b : Blk} (h : b.Ok ii u lists) : Stays (ii.isInD b) (ii.isIn b) := by
  obtain ⟨lo, hi, docs, p, h⟩ := h
  unfold BlkIdx.isInD BlkIdx.isIn
  refine .ite (fun _ => .refl _) fun hne => ?_
  rw [h.it.pos, h.it.size] at hne
  obtain ⟨s, e, o, e1, e2, _⟩ := h.bounds_lt (by have := h.it.le; omega)
  rw [e1, M.ok_bind, M.ok_bind]
  exact .check (fun _ _ => e2) (.refl _)

theorem BlkIdx.isIn_block {b b' : Blk} {r : Bool} (h : b.Ok ii u lists) (hr : ii.isIn b = .ok (r, b')) : b'.Ok ii u lists ∧ b'.docs = b.docs := by
  obtain ⟨lo, hi, docs, p, h⟩ := h
  unfold BlkIdx.isIn at hr
  split at hr
  · cases hr
    exact ⟨⟨lo, hi, docs, p, h⟩, rfl⟩
  · rename_i hne
    rw [h.it.pos, h.it.size] at hne
    obtain ⟨s, e, o, e1, e2, e3⟩ := h.bounds_lt (by have := h.it.le; omega)
    rw [e1, M.ok_bind] at hr
    dsimp only at hr
    split at hr
    · cases hr
      exact ⟨⟨lo, hi, docs, p, e3⟩, rfl⟩
    · obtain ⟨_, -, hr⟩ := bind_ok hr
      cases hr
      exact ⟨⟨lo, hi, docs, p, e3⟩, rfl⟩

theorem Blk.Ok.withDocs {b : Blk} {lo hi : Nat} {docs : List Nat} {p p' : Nat} {it : CEI} (h : b.At ii u lists lo hi docs p)
    (hi' : CEF.ItAt ii.lists u docs it p') : Blk.Ok ii u lists { b with docs := it } := ⟨lo, hi, docs, p', h.withDocs hi'⟩

/-! ## The intersection iterator -/

theorem unique_strict : ∀ {l : Ids}, l.Pairwise (· < ·) → unique l = l
  | [], _ => rfl
  | [x], _ => rfl
  | x :: y :: l, h => by
      obtain ⟨h1, h2⟩ := List.pairwise_cons.mp h
      have hxy := h1 y (List.mem_cons_self ..)
      have ih : uniqueFrom y l = y :: l := unique_strict h2
      show uniqueFrom x (y :: l) = _
      unfold uniqueFrom
      rw [if_neg (by omega), ih]

namespace BInter

theorem nextOneD_stays (hd : ii.numDocs = u) (hu : u < 2 ^ 32) : ∀ (fuel : Nat) (b : Blk) (i : Nat), i ≤ 1 → b.Ok ii u lists →
    Stays (nextOneD ii fuel ⟨b.docs.value, i, [b]⟩) (nextOne ii fuel ⟨b.docs.value, i, [b]⟩)
  | 0, _, _, _, _ => .error
  | fuel + 1, b, i, hi, hb => by
      unfold nextOneD nextOne
      refine .ite (fun hc => ?_) fun _ => .refl _
      dsimp only at hc
      obtain ⟨hc1, hc2⟩ := hc
      have hi0 : i = 0 := by simp only [List.length_singleton] at hc2; omega
      subst hi0
      rw [check_ok rfl, M.ok_bind]
      rw [show rd [b] 0 = .ok b from rfl, M.ok_bind, M.ok_bind]
      obtain ⟨lo, hi', docs, p, h⟩ := hb
      obtain ⟨hp, _⟩ := h.it.value_mem (by omega)
      obtain ⟨it', e1, e2⟩ := h.it.next hp
      have hvle := e2.value_le
      rw [e1, M.ok_bind, M.ok_bind]
      have hok := Blk.Ok.withDocs h e2
      refine .bind (BlkIdx.isInD_stays hok) ?_
      rintro ⟨r, b'⟩ hr
      obtain ⟨g1, g2⟩ := BlkIdx.isIn_block hok hr
      dsimp only
      rw [show wr [b] 0 b' = .ok [b'] from rfl, M.ok_bind, M.ok_bind, id32_small (by omega)]
      rw [show it'.value = b'.docs.value by rw [g2]]
      exact nextOneD_stays hd hu fuel b' _ (by split <;> omega) g1

theorem nextManyD_stays : ∀ (fuel : Nat) (s : BInter), (∀ b ∈ s.blocks, b.Ok ii u lists) → Stays (nextManyD ii fuel s) (nextMany ii fuel s)
  | 0, _, _ => .error
  | fuel + 1, s, hb => by
      unfold nextManyD nextMany
      refine .ite (fun hc => ?_) fun _ => .refl _
      refine .bind (.refl _) fun b hrd => ?_
      have hmem : b ∈ s.blocks := by
        unfold rd at hrd
        split at hrd
        · cases hrd; exact List.mem_of_getElem? ‹_›
        · cases hrd
      obtain ⟨lo, hi', docs, p, h⟩ := hb b hmem
      obtain ⟨it', p', e1, e2⟩ := h.it.scan' s.candidate
      rw [e1, M.ok_bind, M.ok_bind]
      have hok := Blk.Ok.withDocs h e2
      refine .bind (BlkIdx.isInD_stays hok) ?_
      rintro ⟨r, b'⟩ hr
      obtain ⟨g1, -⟩ := BlkIdx.isIn_block hok hr
      refine .bind (.refl _) fun blocks hw => ?_
      have hall : ∀ c ∈ blocks, c.Ok ii u lists := by
        intro c hc
        rw [wr_ok (rd_lt hrd)] at hw
        cases hw
        rcases List.mem_or_eq_of_mem_set hc with hc | hc
        · exact hb c hc
        · subst hc; exact g1
      exact .ite (fun _ => nextManyD_stays fuel _ hall) fun _ => nextManyD_stays fuel _ hall

theorem nextD_stays (hd : ii.numDocs = u) (hu : u < 2 ^ 32) {s : BInter} (h0 : s.i = 0) (hb : ∀ b ∈ s.blocks, b.Ok ii u lists)
    (hc : ∀ b, s.blocks = [b] → s.candidate = b.docs.value) : Stays (nextD ii s) (next ii s) := by
  unfold nextD next
  refine .ite (fun h1 => ?_) fun _ => nextManyD_stays _ _ hb
  obtain ⟨b, hbl⟩ := List.length_eq_one_iff.mp h1
  obtain ⟨c, i, bs⟩ := s
  dsimp only at hbl h0 hc
  subst hbl h0
  rw [hc b rfl]
  exact nextOneD_stays hd hu _ b 0 (by omega) (hb b (List.mem_cons_self ..))

/-- after `next()` -/
def Stopped (ii : BlkIdx) (s : BInter) : Prop := s.candidate < ii.numDocs → s.i = s.blocks.length

theorem nextOne_stopped : ∀ (fuel : Nat) (s s' : BInter), nextOne ii fuel s = .ok s' → Stopped ii s'
  | 0, _, _, h => by cases h
  | fuel + 1, s, s', h => by
      unfold nextOne at h
      split at h
      · obtain ⟨_, -, h⟩ := bind_ok h
        obtain ⟨_, -, h⟩ := bind_ok h
        obtain ⟨_, -, h⟩ := bind_ok h
        obtain ⟨_, -, h⟩ := bind_ok h
        exact nextOne_stopped fuel _ _ h
      · rename_i hc
        cases h
        exact fun hlt => Classical.not_not.mp fun hn => hc ⟨hlt, hn⟩

theorem nextMany_stopped : ∀ (fuel : Nat) (s s' : BInter), nextMany ii fuel s = .ok s' → Stopped ii s'
  | 0, _, _, h => by cases h
  | fuel + 1, s, s', h => by
      unfold nextMany at h
      split at h
      · obtain ⟨_, -, h⟩ := bind_ok h
        obtain ⟨_, -, h⟩ := bind_ok h
        obtain ⟨_, -, h⟩ := bind_ok h
        obtain ⟨_, -, h⟩ := bind_ok h
        split at h
        · exact nextMany_stopped fuel _ _ h
        · exact nextMany_stopped fuel _ _ h
      · rename_i hc
        cases h
        exact fun hlt => Classical.not_not.mp fun hn => hc ⟨hlt, hn⟩

theorem next_stopped {s s' : BInter} (h : next ii s = .ok s') : Stopped ii s' := by
  unfold next at h
  split at h
  · exact nextOne_stopped _ _ _ h
  · exact nextMany_stopped _ _ _ h

theorem inc_stopped {s s' : BInter} (h : s.inc ii = .ok s') : Stopped ii s' := by
  unfold inc at h
  obtain ⟨_, -, h⟩ := bind_ok h
  exact next_stopped h

theorem mk_stopped {std : StdLib} {ids : List Nat} {s : BInter} (h : mk' std ii ids = .ok s) : Stopped ii s := by
  unfold mk' at h
  obtain ⟨_, -, h⟩ := bind_ok h
  obtain ⟨_, -, h⟩ := bind_ok h
  obtain ⟨_, -, h⟩ := bind_ok h
  obtain ⟨_, -, h⟩ := bind_ok h
  obtain ⟨_, -, h⟩ := bind_ok h
  obtain ⟨_, -, h⟩ := bind_ok h
  exact next_stopped h

theorem Enum.blocks_ok {s : BInter} {xs : List BD} {R : List Nat} (h : Enum ii u lists s xs R) : ∀ b ∈ s.blocks, b.Ok ii u lists := by
  intro b hb
  obtain ⟨j, hj, rfl⟩ := List.getElem_of_mem hb
  obtain ⟨p, c1, _⟩ := All2.get h.cur j hj (by rw [← All2.length h.cur]; exact hj)
  exact ⟨_, _, _, p, c1⟩

theorem incD_stays {s : BInter} {xs : List BD} {R : List Nat} (h : Enum ii u lists s xs R) (hs : Stopped ii s) (hn : s.hasNext ii = true) :
    Stays (s.incD ii) (s.inc ii) := by
  have hlt : s.candidate < ii.numDocs := by unfold hasNext at hn; exact of_decide_eq_true hn
  have hu := h.univ
  have hd := h.docs
  have hg := h.here.resolve_left (by omega)
  have hbl := h.blocks_ok
  unfold incD inc
  rw [check_ok (hs hlt), M.ok_bind]
  unfold BInter.step
  by_cases h1 : s.blocks.length > 1
  · rw [if_pos h1]
    have h0 : 0 < s.blocks.length := by omega
    rw [rd_ok h0, M.ok_bind]
    obtain ⟨lo, hi', docs, p, hb⟩ := hbl _ (List.getElem_mem h0)
    have gv := (All2.get hg 0 h0 (by rw [← All2.length h.cur]; exact h0)).1
    obtain ⟨hp, _⟩ := hb.it.value_mem (by omega)
    obtain ⟨it', e1, e2⟩ := hb.it.next hp
    rw [e1, M.ok_bind, wr_ok h0, M.ok_bind, M.ok_bind, M.ok_bind]
    refine nextD_stays (lists := lists) hd (by omega) rfl ?_ ?_
    · intro c hc
      rcases List.mem_or_eq_of_mem_set hc with hc | hc
      · exact hbl c hc
      · subst hc; exact Blk.Ok.withDocs hb e2
    · intro b hb
      have := congrArg List.length hb
      simp only [List.length_set, List.length_singleton] at this
      omega
  · rw [if_neg h1, M.ok_bind, M.ok_bind]
    refine nextD_stays hd (by omega) rfl hbl ?_
    intro b hb
    dsimp only at hb ⊢
    have h0 : 0 < s.blocks.length := by rw [hb]; simp
    have gv := (All2.get hg 0 h0 (by rw [← All2.length h.cur]; exact h0)).1
    simp only [hb, List.getElem_cons_zero] at gv
    exact gv.symm

theorem groupD_stays (h : ii.Rep u m lists docss) (std : StdLib) : ∀ (ts : List Nat) (j : Nat) (pend : List Nat), j < ii.blocks.length →
    (∀ t ∈ ts, 1 ≤ t ∧ t ≤ lists.length) →
    Stays (groupD std ii ts j pend) (group std ii ts j pend) ∧ ∀ bs, group std ii ts j pend = .ok bs → ∀ b ∈ bs, b.Ok ii u lists
  | [], j, pend, hj, _ => by
      obtain ⟨b, e1, e2⟩ := Index4.live_block h (j := j) (List.getElem?_eq_getElem (by simp; omega)) (List.getElem?_eq_getElem hj)
      unfold groupD group
      rw [BlkIdx.blockD_ok hj, e1]
      refine ⟨.refl _, ?_⟩
      intro bs hbs c hc
      cases hbs
      rw [List.mem_singleton.mp hc]
      exact ⟨_, _, _, _, e2.1.withIds pend⟩
  | t :: ts, j, pend, hj, ht => by
      obtain ⟨t1, t2⟩ := ht t (List.mem_cons_self ..)
      obtain ⟨j', lo, hi', b1, b2, b3, -⟩ := blockId_spec h std t1 t2
      have hj' := (List.getElem?_eq_some_iff.mp b3).1
      obtain ⟨b, e1, e2⟩ := Index4.live_block h (j := j) (List.getElem?_eq_getElem (by simp; omega)) (List.getElem?_eq_getElem hj)
      have hrest : ∀ t ∈ ts, 1 ≤ t ∧ t ≤ lists.length := fun a ha => ht a (List.mem_cons_of_mem _ ha)
      unfold groupD group
      rw [check_ok (show 0 < t by omega), M.ok_bind, b1, M.ok_bind, M.ok_bind, BlkIdx.blockD_ok hj, e1]
      split
      · obtain ⟨i1, i2⟩ := groupD_stays h std ts j' [t] hj' hrest
        refine ⟨.bind (.refl _) fun _ _ => .bind i1 fun _ _ => .refl _, ?_⟩
        intro bs hbs
        rw [M.ok_bind] at hbs
        obtain ⟨bs', e3, hbs⟩ := bind_ok hbs
        cases hbs
        intro c hc
        rcases List.mem_cons.mp hc with rfl | hc
        · exact ⟨_, _, _, _, e2.1.withIds pend⟩
        · exact i2 bs' e3 c hc
      · exact groupD_stays h std ts j' (pend ++ [t]) hj' hrest

theorem mkD_stays (h : ii.Rep u m lists docss) (hu : u + 1 < 2 ^ 32) (std : StdLib) {ids : List Nat} (hne : ids ≠ []) (hs : ids.Pairwise (· < ·))
    (hv : ∀ t ∈ ids, 1 ≤ t ∧ t ≤ lists.length) {r : Range} (hr : r.isInvalid = false) : Stays (mkD std ii ids r) (mk' std ii ids) := by
  unfold mkD mk'
  rw [check_ok hr, M.ok_bind, check_ok hne, M.ok_bind, check_ok (hs.imp Nat.le_of_lt), M.ok_bind, check_ok (by rw [unique_strict hs]), M.ok_bind]
  obtain ⟨t, ts, rfl⟩ : ∃ t ts, ids = t :: ts := by
    cases ids with
    | nil => exact absurd rfl hne
    | cons t ts => exact ⟨t, ts, rfl⟩
  obtain ⟨v1, v2⟩ := hv t (List.mem_cons_self ..)
  obtain ⟨j, lo, hi', b1, b2, b3, -⟩ := blockId_spec h std v1 v2
  rw [show rd (t :: ts) 0 = .ok t from rfl, M.ok_bind, M.ok_bind, b1, M.ok_bind, M.ok_bind]
  obtain ⟨g1, g2⟩ := groupD_stays h std (t :: ts) j [] (List.getElem?_eq_some_iff.mp b3).1 hv
  refine .bind g1 fun bs hbs => ?_
  have hok : ∀ b ∈ std.sort (fun b : Blk => b.docs.off.n) bs, b.Ok ii u lists := fun b hb =>
    g2 bs hbs b ((std.sort_perm (fun b : Blk => b.docs.off.n) bs).mem_iff.mp hb)
  generalize std.sort (fun b : Blk => b.docs.off.n) bs = qs at hok ⊢
  dsimp only
  refine .bind (.refl _) fun b hrd => ?_
  have h0 := rd_lt hrd
  rw [rd_ok h0] at hrd
  cases hrd
  obtain ⟨lo, hi', docs, p, hb⟩ := hok _ (List.getElem_mem h0)
  obtain ⟨it', f1, f2⟩ := hb.it.access (i := 0) (Nat.zero_le _)
  have hvle := f2.value_le
  rw [f1, M.ok_bind, M.ok_bind, wr_ok h0, M.ok_bind, M.ok_bind, id32_small (by omega)]
  refine nextD_stays (lists := lists) h.docs (by omega) rfl ?_ ?_
  · intro c hc
    rcases List.mem_or_eq_of_mem_set hc with hc | hc
    · exact hok c hc
    · subst hc; exact Blk.Ok.withDocs hb f2
  · intro c hc
    dsimp only at hc ⊢
    have := List.getElem?_set_self (a := { qs[0] with docs := it' }) h0
    rw [hc] at this
    simp only [List.getElem?_cons_zero, Option.some.injEq] at this
    rw [this]

end BInter

/-! ## The queue -/

namespace Index4

/-- a heap of blocks that are not exhausted -/
def Queue (ii : BlkIdx) (u : Nat) (lists : List (List Nat)) (q : List Blk) : Prop := IsHeap key q ∧ ∀ b ∈ q, ∃ x, Live ii u lists b x

theorem blocksLoopD_stays (h : ii.Rep u m lists docss) : ∀ (n i cur bound : Nat) (q : List Blk), 0 < i → cur < ii.blocks.length →
    Stays (blocksLoopD ii n i cur bound q) (blocksLoop ii n i cur bound q) ∧
      ∀ q' cur', blocksLoop ii n i cur bound q = .ok (q', cur') → cur' < ii.blocks.length
  | 0, _, _, _, _, _, hc => ⟨.refl _, fun _ _ e => by cases e; exact hc⟩
  | n + 1, i, cur, bound, q, hi, hc => by
      unfold blocksLoopD blocksLoop
      rw [check_ok hi, M.ok_bind, BlkIdx.blockD_ok hc]
      split
      · constructor
        · exact .bind (.refl _) fun _ _ => .bind (BlkIdx.boundaryD_stays ii _) fun _ hb => (blocksLoopD_stays h n _ _ _ _ (by omega) (rd_lt hb)).1
        · intro q' cur' e
          obtain ⟨_, -, e⟩ := bind_ok e
          obtain ⟨_, hb, e⟩ := bind_ok e
          exact (blocksLoopD_stays h n _ _ _ _ (by omega) (rd_lt hb)).2 _ _ e
      · exact blocksLoopD_stays h n _ _ _ _ (by omega) hc

theorem blocksD_stays (h : ii.Rep u m lists docss) (std : StdLib) {r : Range} (h1 : 1 ≤ r.b) : Stays (blocksD std ii r) (blocks std ii r) := by
  unfold blocksD blocks
  refine .bind (.refl _) fun cur _ => .bind (BlkIdx.boundaryD_stays ii _) fun bound hb => ?_
  obtain ⟨g1, g2⟩ := blocksLoopD_stays h (r.e - r.b) r.b cur bound [] h1 (rd_lt hb)
  refine .bind g1 ?_
  rintro ⟨q, cur'⟩ hq
  dsimp only
  rw [BlkIdx.blockD_ok (g2 _ _ hq)]
  exact .refl _

theorem checkD_stays {b : Blk} {x : VB × Nat} (h : Live ii u lists b x) (r : Range) {doc : Nat} (hd : b.docs.value = doc) :
    Stays (checkD ii r doc b) (Index4.check ii r b) := by
  unfold checkD Index4.check
  rw [h.1.it.access_self h.2, M.ok_bind, check_ok hd, M.ok_bind]
  obtain ⟨s, e, o, e1, e2, -⟩ := h.1.bounds_lt h.2
  rw [e1, M.ok_bind, M.ok_bind]
  exact .check (fun _ _ => e2) (.refl _)

theorem check_live {b b' : Blk} {x : VB × Nat} {r : Range} {found : Bool} (h : Live ii u lists b x) (hc : Index4.check ii r b = .ok (found, b')) :
    Live ii u lists b' x ∧ b'.docs = b.docs := by
  obtain ⟨o, e1, e2⟩ := check_spec h.1 h.get r
  rw [hc] at e1
  cases e1
  exact ⟨⟨e2, h.2⟩, rfl⟩

theorem Queue.replace (std : StdLib) {z z' : Blk} {zs : List Blk} (h : Queue ii u lists (z :: zs)) {d : CEI} {b : Bool}
    (hz : b = true → ∃ x, Live ii u lists z' x) :
    (∀ q', restore std b (z' :: zs) = .ok q' → Queue ii u lists q') ∧ ∀ q', restore' std b (z' :: zs) = .ok q' → Queue ii u lists q' := by
  obtain ⟨⟨q1, a1, a2, a3⟩, ⟨q2, b1, b2, b3⟩⟩ := replace_top std (z' := z') h.1 b
  have key : ∀ c ∈ (if b then z' :: zs else zs), ∃ x, Live ii u lists c x := by
    intro c hc
    cases b with
    | true =>
        rcases List.mem_cons.mp hc with rfl | hc
        · exact hz rfl
        · exact h.2 c (List.mem_cons_of_mem _ hc)
    | false => exact h.2 c (List.mem_cons_of_mem _ hc)
  constructor
  · intro q' e
    rw [a1] at e
    cases e
    exact ⟨a2, fun c hc => key c (a3.mem_iff.mp hc)⟩
  · intro q' e
    rw [b1] at e
    cases e
    exact ⟨b2, fun c hc => key c (b3.mem_iff.mp hc)⟩

theorem unionLoopD_stays (std : StdLib) (r : Range) (k : Nat) : ∀ (fuel : Nat) (q : List Blk) (scores : List Nat) (n : Nat), Queue ii u lists q →
    Stays (unionLoopD std ii r k fuel q scores n) (unionLoop std ii r k fuel q scores n)
  | 0, _, _, _, _ => .error
  | fuel + 1, [], _, _, _ => .refl _
  | fuel + 1, z :: zs, scores, n, h => by
      obtain ⟨x, hx⟩ := h.2 z (List.mem_cons_self ..)
      unfold unionLoopD unionLoop
      refine .bind (checkD_stays hx r rfl) ?_
      rintro ⟨found, z'⟩ hc
      obtain ⟨l1, l2⟩ := check_live hx hc
      refine .bind (.refl _) ?_
      rintro ⟨scores', n'⟩ _
      refine .ite (fun _ => .refl _) fun _ => ?_
      obtain ⟨d', e1, e2⟩ := l1.1.it.next l1.2
      rw [e1, M.ok_bind, M.ok_bind]
      refine .bind (.refl _) fun q' hq => unionLoopD_stays std r k fuel q' scores' n' ((h.replace std (d := d') ?_).1 q' hq)
      intro hb
      rw [e2.hasNext, decide_eq_true_iff] at hb
      exact ⟨(x.1, x.2 + 1), l1.1.withDocs e2, hb⟩

theorem advanceD_stays (std : StdLib) (r : Range) {doc : Nat} (hdoc : doc ≤ u) : ∀ (fuel : Nat) (q : List Blk), Queue ii u lists q →
    Stays (advanceD std ii r doc fuel q) (advance std ii r doc fuel q) ∧
      ∀ c f q', advance std ii r doc fuel q = .ok (c, f, q') → Queue ii u lists q'
  | 0, _, _ => ⟨.error, fun _ _ _ e => by cases e⟩
  | fuel + 1, [], h => ⟨.refl _, fun _ _ _ e => by cases e; exact h⟩
  | fuel + 1, z :: zs, h => by
      obtain ⟨x, hx⟩ := h.2 z (List.mem_cons_self ..)
      unfold advanceD advance
      dsimp only
      split
      · exact ⟨.refl _, fun _ _ _ e => by cases e; exact h⟩
      · split
        · obtain ⟨d', p', e1, e2, -⟩ := hx.1.it.nextGeq hdoc
          rw [e1, M.ok_bind, M.ok_bind]
          have hrep := fun q' hq => (h.replace std (z' := { z with docs := d' }) (d := d') (b := d'.hasNext) (fun hb => by
            rw [e2.hasNext, decide_eq_true_iff] at hb
            exact ⟨(x.1, p'), hx.1.withDocs e2, hb⟩)).2 q' hq
          constructor
          · exact .bind (.refl _) fun q' hq => (advanceD_stays std r hdoc fuel q' (hrep q' hq)).1
          · intro c f q' e
            obtain ⟨q1, hq, e⟩ := bind_ok e
            exact (advanceD_stays std r hdoc fuel q1 (hrep q1 hq)).2 c f q' e
        · constructor
          · exact .bind (checkD_stays hx r (by omega)) fun _ _ => .refl _
          · intro c f q' e
            obtain ⟨⟨found, z'⟩, hc, e⟩ := bind_ok e
            cases e
            obtain ⟨l1, l2⟩ := check_live hx hc
            refine ⟨heap_same h.1 (by unfold key; rw [l2]), ?_⟩
            intro b hb
            rcases List.mem_cons.mp hb with rfl | hb
            · exact ⟨x, l1⟩
            · exact h.2 b (List.mem_cons_of_mem _ hb)

theorem conjLoopD_stays (std : StdLib) (r : Range) (k : Nat) : ∀ (fuel : Nat) (it : BInter) (bs : List BD) (R : List Nat) (q : List Blk) (scores : List Nat)
    (n : Nat), it.Enum ii u lists bs R → BInter.Stopped ii it → Queue ii u lists q →
    Stays (conjLoopD std ii r k fuel it q scores n) (conjLoop std ii r k fuel it q scores n)
  | 0, _, _, _, _, _, _, _, _, _ => .error
  | fuel + 1, it, bs, R, q, scores, n, he, hs, hq => by
      unfold conjLoopD conjLoop
      refine .ite (fun hc => ?_) fun _ => .refl _
      rw [Bool.and_eq_true] at hc
      have hlt : it.candidate < ii.numDocs := by have := hc.1; unfold BInter.hasNext at this; exact of_decide_eq_true this
      have hdocs := he.docs
      obtain ⟨a1, a2⟩ := advanceD_stays (lists := lists) std r (doc := it.candidate) (u := u) (by omega) (q.length + 1) q hq
      refine .bind a1 ?_
      rintro ⟨checked, found, q'⟩ ha
      refine .bind (.refl _) ?_
      rintro ⟨scores', n'⟩ _
      refine .ite (fun _ => .refl _) fun _ => .bind (BInter.incD_stays he hs hc.1) fun it' hi => ?_
      cases R with
      | nil => rw [he.step.1 rfl] at hc; cases hc.1
      | cons d R' =>
          obtain ⟨-, -, s', e1, e2⟩ := he.step.2 d R' rfl
          rw [hi] at e1
          cases e1
          exact conjLoopD_stays std r k fuel it' bs R' q' scores' n' e2 (BInter.inc_stopped hi) (a2 _ _ _ ha)

theorem conjScoresD_stays (h : ii.Rep u m lists docss) (hu : u + 1 < 2 ^ 32) (hl : lists.length < 2 ^ 32) (std : StdLib) {pfx : List Nat} (hpfx : ∀ t ∈ pfx, 1 ≤ t ∧ t ≤ lists.length)
    {r : Range} (h1 : 1 ≤ r.b) (h2 : r.b ≤ r.e) (h3 : r.e ≤ lists.length) (k : Nat) (scores : List Nat) :
    Stays (conjScoresD std ii pfx r k scores) (conjScores std ii pfx r k scores) := by
  obtain ⟨q, xs, V, q1, q2, q3, -⟩ := blocks_spec h std r h1 h2 h3
  have hq : Queue ii u lists q := by
    refine ⟨q3, fun b hb => ?_⟩
    obtain ⟨j, hj, rfl⟩ := List.getElem_of_mem hb
    exact ⟨_, All2.get q2 j hj (by rw [← All2.length q2]; exact hj)⟩
  unfold conjScoresD conjScores
  refine .bind (blocksD_stays h std h1) fun q' hq' => ?_
  rw [q1] at hq'
  cases hq'
  refine .ite (fun _ => unionLoopD_stays std r k _ q scores 0 hq) fun hne => ?_
  obtain ⟨d1, d2⟩ := deduplicate_spec std pfx
  have hpne : pfx ≠ [] := fun hn => hne (by rw [hn]; rfl)
  have hdne : deduplicate std pfx ≠ [] := by
    obtain ⟨t, ht⟩ := List.exists_mem_of_ne_nil _ hpne
    exact List.ne_nil_of_mem ((d2 t).mpr ht)
  have hdv : ∀ t ∈ deduplicate std pfx, 1 ≤ t ∧ t ≤ lists.length := fun t ht => hpfx t ((d2 t).mp ht)
  have hr : r.isInvalid = false := isInvalid_false h2 (by omega)
  refine .bind (BInter.mkD_stays h hu std hdne d1 hdv hr) fun it hit => ?_
  obtain ⟨it', bs, g1, g2⟩ := BInter.mk'_spec h hu std _ hdne d1 hdv (Props.enumerated u lists ii.blocks (deduplicate std pfx))
    (List.Pairwise.filter _ (List.Pairwise.filter _ List.pairwise_lt_range)) (by
      intro d
      rw [← Props.firstOfOne_iff h, Props.mem_enumerated, Props.mem_inAllLists h.valid hdne (fun t ht => (hdv t ht).1)])
  rw [hit] at g1
  cases g1
  exact conjLoopD_stays std r k _ it bs _ q scores 0 g2 (BInter.mk_stopped hit) hq

theorem conjTopkD_stays {C : Coll} {F : Files} (h : Ready C F) (std : StdLib) (h17 : F.terms.length % 17 ≠ 0) (hc17 : F.mapped.length % 17 ≠ 0)
    (hids : ∀ r ∈ C, r.1 < 2 ^ 32 - 2) {x : Index4} (hx : x.Rep m F docss) {q : Str} (hq : IsText q) {k : Nat} (hk : 1 ≤ k) (hk' : k ≤ MAX_K)
    {s : Scratch} (hs : s.WF) : Stays (x.conjTopkD std q k s) (x.conjTopk std q k s) := by
  unfold conjTopkD conjTopk
  refine Stays.bind (analyseD_stays x.dict q hk' false s) ?_
  intro p hp
  have ha := analyse_spec h hx.dict hq false hs.dbuf
  rw [hp] at ha
  cases ha with
  | unknown buf hb hm hu => exact .refl _
  | nothing buf hb hu => exact .refl _
  | some buf hb r hr hk2 =>
      dsimp only
      have h15 := hs.scores
      have hlt := hr.lt
      have hle := hr.le
      have hu : F.univ + 1 < 2 ^ 32 := by
        obtain ⟨r, hr, he⟩ := h.files.univ
        have := hids r hr
        omega
      refine Stays.bind (conjScoresD_stays hx.inverted hu h.lists_lt std (pfx := knownPfx F (completeTerms q)) (fun t ht => h.knownPfx_in t ht)
        (r := ⟨r.b + 1, r.e + 1⟩) (by simp) (by simpa using hle) (by rw [h.files.numLists]; simp only; omega) k _) ?_
      rintro ⟨scores, n⟩ ho
      obtain ⟨S, -, s2, scores', n', t1, t2, t3, t4⟩ := scores_run h std hx.inverted hids (complete := completeTerms q) hr hk (o := s.pool.init.scores)
        (by rw [Pool.init, hs.scores]; exact hk')
      have t1' := ho.symm.trans t1
      cases t1'
      refine Base.extractD_stays h h17 hc17 hx.base hx.dict (wf_scores (wf_init hs hb) t2) ?_ rfl
        (fun d hd => s2 d (List.mem_of_mem_take (by dsimp only at hd; rwa [t4] at hd)))
      dsimp only [Pool.init] at t2 ⊢
      omega

/-- with the index of a valid collection, a search that succeeds with assertions succeeds without -/
theorem conjTopkD_same {C : Coll} {F : Files} (h : Ready C F) (std : StdLib) (hids : ∀ r ∈ C, r.1 < 2 ^ 32 - 2) {x : Index4} (hx : x.Rep m F docss) {q : Str}
    (hq : IsText q) {k : Nat} (hk : 1 ≤ k) (hk' : k ≤ MAX_K) {s : Scratch} (hs : s.WF) : Stays (x.conjTopk std q k s) (x.conjTopkD std q k s) := by
  unfold conjTopkD conjTopk
  refine .bind (analyseD_same _ _ _ _ _) ?_
  intro p hp'
  have hp := analyseD_same _ _ _ _ _ p hp'
  have ha := analyse_spec h hx.dict hq false hs.dbuf
  rw [hp] at ha
  cases ha with
  | unknown buf hb hm hu => exact .refl _
  | nothing buf hb hu => exact .refl _
  | some buf hb r hr hk2 =>
      dsimp only
      have hlt := hr.lt
      have hle := hr.le
      have hu : F.univ + 1 < 2 ^ 32 := by
        obtain ⟨r, hr, he⟩ := h.files.univ
        have := hids r hr
        omega
      obtain ⟨S, -, s2, scores', n', t1, t2, t3, t4⟩ := scores_run h std hx.inverted hids (complete := completeTerms q) hr hk (o := s.pool.init.scores)
        (by rw [Pool.init, hs.scores]; exact hk')
      have e := conjScoresD_stays hx.inverted hu h.lists_lt std (pfx := knownPfx F (completeTerms q)) (fun t ht => h.knownPfx_in t ht)
        (r := ⟨r.b + 1, r.e + 1⟩) (by simp) (by simpa using hle) (by rw [h.files.numLists]; simp only; omega) k _ _ t1
      refine .bind (fun a ha => ?_) fun _ _ => Base.extractD_same _ _ _
      have := e.symm.trans ha
      exact t1.trans this

end Index4

end
end AC
