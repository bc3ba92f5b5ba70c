import Verif.Proofs.DebugAllStore
import Verif.Proofs.DebugAllLists
import Verif.Proofs.Visit
/-! # The trie and the forward index in a build with all assertions: the assertions hold -/
namespace AC
open Spec

/-! ## Trie -/

theorem EF.pairD_eq {e : EF} {vs : List W} (h : e.RepD vs) {i : Nat} (hi : i + 1 < vs.length) : e.pairD i = e.pair i := by
  unfold EF.pairD EF.pair
  rw [EF.accessD_eq h (by omega), EF.accessD_eq h hi]

theorem tabM_stays {α : Type} {f' f : Nat → M α} (h : ∀ i, Stays (f' i) (f i)) : ∀ n, Stays (tabM f' n) (tabM f n)
  | 0 => .refl _
  | n + 1 => .bind (tabM_stays h n) fun _ _ => .bind (h n) fun _ _ => .refl _

namespace Trie

theorem buildLevelA_stays (levels : Nat) (ts : List Level) (i : Nat) : Stays (buildLevelA levels ts i) (buildLevel levels ts i) := by
  unfold buildLevelA buildLevel
  refine .bind (.refl _) fun t _ => .bind ?_ fun _ _ => .bind (EF.buildD_stays _) fun _ _ => .bind (EF.buildD_stays _) fun _ _ => .bind ?_ fun _ _ => .refl _
  · unfold buildPtrsA buildPtrs
    exact .ite (fun _ => .bind (EF.buildD_stays _) fun _ _ => .refl _) fun _ => .refl _
  · unfold buildNodesA buildNodes
    exact .ite (fun _ => .bind (.refl _) fun _ _ => EF.buildRunsD_stays _ _) fun _ => EF.buildD_stays _

theorem buildA_stays (levels : Nat) (cs : List Ids) : Stays (buildA levels cs) (build levels cs) := by
  unfold buildA build
  exact .bind (.refl _) fun ts _ => tabM_stays (buildLevelA_stays levels ts) _

/-- the sequences of a level have an element for each node -/
structure Sides (L : List Ids) (i : Nat) (t : CLevel) : Prop where
  nodes : ∃ xs, t.nodes.RepD xs ∧ xs.length = (keys i L).length
  left : ∃ xs, t.left.RepD xs ∧ xs.length = (keys i L).length
  sizes : ∃ xs, t.sizes.RepD xs ∧ xs.length = (keys i L).length
  ptrs : ∀ p, t.ptrs = some p → ∃ xs, p.RepD xs ∧ (keys i L).length + 1 ≤ xs.length

theorem build_sides {levels : Nat} {L : List Ids} (hL : Compl L) (hsh : Shape levels L) {T : List CLevel} (hT : build levels L = .ok T) :
    ∀ i t, T[i]? = some t → Sides L i t := by
  have hne : L ≠ [] := by
    obtain ⟨c, hc, -⟩ := hsh.max
    exact List.ne_nil_of_mem hc
  obtain ⟨ts, t1, t2, t3⟩ := collect_spec hL hne hsh.lt
  unfold build at hT
  rw [t1, M.ok_bind] at hT
  obtain ⟨g1, g2⟩ := tabM_get hT
  intro i t ht
  have hi : i < levels := by rw [← g1]; exact (List.getElem?_eq_some_iff.mp ht).1
  have hb := g2 i t ht
  obtain ⟨A, B, d⟩ := t3 i (by omega)
  unfold buildLevel at hb
  rw [rd_ok (show i < ts.length by omega), M.ok_bind] at hb
  obtain ⟨p, hp, hb⟩ := bind_ok hb
  obtain ⟨l, hl, hb⟩ := bind_ok hb
  obtain ⟨s, hs, hb⟩ := bind_ok hb
  obtain ⟨n, hn, hb⟩ := bind_ok hb
  cases hb
  refine ⟨?_, ⟨_, EF.build_repD hl, ?_⟩, ⟨_, EF.build_repD hs, ?_⟩, ?_⟩
  · have hlen : (words ts[i].nodes).length = (keys i L).length := by rw [d.nodes]; simp [words]
    unfold buildNodes at hn
    split at hn
    · obtain ⟨up, _, hn⟩ := bind_ok hn
      obtain ⟨_, xs, x1, x2⟩ := EF.buildRuns_repD hn
      exact ⟨xs, x1, by rw [x2, hlen]⟩
    · exact ⟨_, EF.build_repD hn, hlen⟩
  · rw [d.left]; simp [words, d.lenA]
  · rw [d.sizes]
    unfold words
    rw [List.length_map, sumLoop_length]
    have := d.lenA; have := d.lenB
    omega
  · intro p' hp'
    dsimp only at hp'
    subst hp'
    unfold buildPtrs at hp
    split at hp
    · rename_i hne
      obtain ⟨e, he, hp⟩ := bind_ok hp
      cases hp
      refine ⟨_, EF.build_repD he, ?_⟩
      have := (d.ptrs (by omega)).len
      simpa [words] using this
    · cases hp

section
variable {T : List CLevel} {levels : Nat} {L : List Ids}

theorem childrenA_eq {i : Nat} {t : CLevel} (h : Sides L i t) {q : Nat} (hq : q < (keys i L).length) : childrenA t q = children t q := by
  unfold childrenA children
  cases e : t.ptrs with
  | none => rfl
  | some p =>
      obtain ⟨xs, x1, x2⟩ := h.ptrs p e
      exact EF.pairD_eq x1 (by omega)

theorem Sides.searches {i : Nat} {t : CLevel} (h : Sides L i t) (hn : L.length < 2 ^ 32) {path : Ids} {r : Range}
    (hr : NodeRun t.nodes.seq (keys i L) i path r) :
    (∀ id, t.nodes.findInD r id = t.nodes.seq.findIn r id) ∧ ∀ lex, t.nodes.findRangeD r lex = t.nodes.seq.findRange r lex := by
  obtain ⟨xs, x1, x2⟩ := h.nodes
  have := keys_card i L
  exact EF.seq_list x1 hr.lt (by rw [x2]; exact hr.le) (by omega)

theorem descendA_eq (h : Rep T levels L) (hS : ∀ i t, T[i]? = some t → Sides L i t) :
    ∀ (xs path : Ids) (t : CLevel) (r : Range), (∀ x ∈ path, 0 < x) → (∀ x ∈ xs, 0 < x ∧ x < 2 ^ 32) →
      T[path.length]? = some t → NodeRun t.nodes.seq (keys path.length L) path.length path r →
      descendA T path.length r xs = descend T path.length r xs
  | [], path, t, r, _, _, _, _ => rfl
  | x :: xs, path, t, r, hp, hx, ht, hr => by
      have hx0 := hx x (by simp)
      obtain ⟨f1, f2⟩ := hr.find x hx0.2
      unfold descendA descend
      rw [rd_of_getElem? ht]
      simp only [M.ok_bind]
      rw [((hS _ t ht).searches h.small hr).1]
      by_cases hm : path ++ [x] ∈ keys path.length L
      · obtain ⟨q, hq, eq⟩ := List.getElem_of_mem hm
        rw [f1 q hq eq]
        simp only [M.ok_bind]
        have hpos : ∀ y ∈ path ++ [x], 0 < y := by
          intro y hy
          rcases List.mem_append.mp hy with hy | hy
          · exact hp y hy
          · have : y = x := by simpa using hy
            rw [this]; exact hx0.1
        obtain ⟨t2, t3, r2, c1, c2, c3, c4⟩ := (h.child path.length q hq (by rw [eq]; exact hpos)).ex
        split
        · rfl
        · rw [ht] at c1
          cases c1
          rw [childrenA_eq (hS _ t ht) hq, c3]
          simp only [M.ok_bind]
          have hl : (path ++ [x]).length = path.length + 1 := by simp
          have ih := descendA_eq h hS xs (path ++ [x]) t3 r2 hpos (fun y hy => hx y (by simp [hy])) (by rw [hl]; exact c2) (by rw [hl, ← eq]; exact c4)
          rw [hl] at ih
          exact ih
      · rw [f2 hm]
        rfl

theorem extentA_eq {i : Nat} {t : CLevel} (h : Sides L i t) {q : Range} (hq : q.b < q.e) (hqe : q.e ≤ (keys i L).length) : extentA t q = extent t q := by
  obtain ⟨ls, l1, l2⟩ := h.left
  obtain ⟨ss, s1, s2⟩ := h.sizes
  have h1 : ∀ rb, lastLeftA t q.b (q.e - 1) rb = lastLeft t q.b (q.e - 1) rb := by
    intro rb
    unfold lastLeftA lastLeft
    rw [EF.accessD_eq l1 (by omega)]
  have h2 : sizeBeforeA t (q.e - 1) = sizeBefore t (q.e - 1) := by
    unfold sizeBeforeA sizeBefore
    rw [EF.accessD_eq s1 (by omega)]
  unfold extentA extent
  dsimp only
  rw [EF.accessD_eq l1 (by omega), EF.accessD_eq s1 (by omega), h2]
  simp only [h1]

theorem locatePrefixA_stays (h : Rep T levels L) (hS : ∀ i t, T[i]? = some t → Sides L i t) (hL : Compl L)
    (hsh : Shape levels L) (hn : L.length < 2 ^ 32)
    {pfx : Ids} (hp : ∀ x ∈ pfx, 0 < x ∧ x < 2 ^ 32) {b e : Nat} (hbe : b ≤ e) (he : e < 2 ^ 32) :
    Stays (locatePrefixA T pfx ⟨b, e⟩) (locatePrefix T pfx ⟨b, e⟩) := by
  refine fun a ha => ?_
  have hD := locatePrefixD_stays h hL hsh hn hp hbe he a ha
  obtain ⟨t0, r1, r2⟩ := h.root
  unfold locatePrefixD at hD
  unfold locatePrefixA
  rw [rd_of_getElem? r1, M.ok_bind] at hD ⊢
  have hd := descendA_eq h hS pfx [] t0 ⟨0, t0.nodes.size⟩ (by simp) hp r1 r2
  rw [List.length_nil] at hd
  rw [hd]
  rcases descend_spec h pfx [] t0 ⟨0, t0.nodes.size⟩ (by simp) hp r1 r2 with ⟨d1, d2⟩ | ⟨t, r', d1, d2, d3⟩
  · rw [List.length_nil] at d1
    rw [d1] at hD ⊢
    exact hD
  · simp only [List.length_nil, Nat.zero_add, List.nil_append] at d1 d2 d3
    rw [d1] at hD ⊢
    simp only [M.ok_bind] at hD ⊢
    rw [d2] at hD ⊢
    simp only at hD ⊢
    obtain ⟨q, q1, q2, q3, q4⟩ := d3.range ⟨b, e⟩ hbe he
    rw [((hS _ t d2).searches hn d3).2]
    rw [q1] at hD ⊢
    simp only [M.ok_bind] at hD ⊢
    by_cases hq : q.b = q.e
    · rw [if_pos hq] at hD ⊢
      exact hD
    · rw [extentA_eq (hS _ t d2) (by omega) q3]
      exact hD

end
end Trie

/-! ## Forward index -/

structure FwdIdx.RepA (fi : FwdIdx) (numTerms : Nat) (lists : List (List Nat)) : Prop where
  rep : fi.Rep numTerms lists
  ptrs : ∃ xs, fi.pointers.RepD xs ∧ xs.length = lists.length + 1
  fits : ∀ i (hi : i < lists.length) it, fi.iterator i = .ok it → it.base + lists[i].length ≤ fi.data.size

theorem FwdIdx.build_repA {numTerms : Nat} {lists : List (List Nat)} (h : FwdLists numTerms lists) {after : W} {fi : FwdIdx}
    (hb : FwdIdx.build numTerms lists after = .ok fi) : fi.RepA numTerms lists := by
  obtain ⟨fi', m1, m2⟩ := FwdIdx.build_spec h after
  rw [m1] at hb
  cases hb
  have ht := h.terms
  have hs := h.small
  have w1 := ceilLog2_pos (numTerms + 1) (by omega)
  have w64 := ceilLog2_le (numTerms + 1) 32 (by omega)
  obtain ⟨c, c1, c2, _⟩ := CV.build_spec (toWords lists.flatten) (ceilLog2 (numTerms + 1)) after w1 (by omega)
  have hle := ends_le 0 lists
  obtain ⟨e, e1, e2, e3, _⟩ := Trie.ef_words (xs := 0 :: ends 0 lists) (by simp)
    (by
      intro x hx
      rcases List.mem_cons.mp hx with hx | hx
      · omega
      · have := hle x hx; have := h.total; omega)
    (ends_sorted 0 lists)
  unfold FwdIdx.build at m1
  rw [readLists_eq] at m1
  simp only [List.nil_append] at m1
  rw [c1] at m1
  simp only [M.ok_bind, List.cons_append, List.nil_append] at m1
  rw [show toWords (0 :: ends 0 lists) = Trie.words (0 :: ends 0 lists) from rfl, e1, M.ok_bind] at m1
  cases m1
  refine ⟨m2, ⟨_, EF.build_repD e1, by simp [Trie.words, ends_length]⟩, ?_⟩
  intro i hi it hit
  obtain ⟨a, a1, a2, a3⟩ := ends_get 0 lists i hi
  rw [Nat.zero_add] at a1 a2
  have i1 : i < (0 :: ends 0 lists).length := by simp [ends_length]; omega
  have i2 : i + 1 < (0 :: ends 0 lists).length := by simp [ends_length]; omega
  rw [List.getElem?_eq_getElem i1] at a1
  have a2' := a2
  rw [List.getElem?_eq_getElem i2] at a2
  unfold FwdIdx.iterator at hit
  simp only at hit
  rw [e3 i i1, e3 (i + 1) i2] at hit
  simp only [M.ok_bind] at hit
  cases hit
  dsimp only
  rw [Option.some.inj a1, c2.size]
  have hm : (ends 0 lists)[i]? = some (a + lists[i].length) := by simpa using a2'
  have := hle _ (List.mem_of_getElem? hm)
  simp only [toWords, List.length_map, List.length_flatten]
  omega

theorem FwdIdx.buildA_eq {numTerms : Nat} {lists : List (List Nat)} (hl : ∀ l ∈ lists, l.length < MAX_TERMS ∧ ∀ x ∈ l, 0 < x) (after : W) :
    FwdIdx.buildA numTerms lists after = FwdIdx.build numTerms lists after := by
  unfold FwdIdx.buildA FwdIdx.build
  rw [FwdIdx.checkLists_ok hl, M.ok_bind]
  simp only [ceilLog2A_eq, M.ok_bind, CV.buildD_eq, EF.buildD_eq]

namespace FwdIdx
variable {fi : FwdIdx} {nt : Nat} {lists : List (List Nat)}

theorem iteratorA_eq (h : fi.RepA nt lists) {d : Nat} (hd : d < lists.length) : fi.iteratorA d = fi.iterator d := by
  obtain ⟨xs, x1, x2⟩ := h.ptrs
  unfold iteratorA iterator
  rw [check_bind (by rw [h.rep.docs]; exact hd), EF.accessD_eq x1 (by omega), EF.accessD_eq x1 (by omega)]

theorem _root_.AC.CV.getD'_eq {c : CV} {i : Nat} (h : i < c.size) : c.getD' i = c.get i := check_bind h _

theorem _root_.AC.FwdIt.intersectsLoopA_eq {it : FwdIt} (r : Range) {l : List Nat} (hs : it.base + l.length ≤ fi.data.size) : ∀ (k i : Nat), i + k ≤ l.length →
    it.intersectsLoopA fi r k i = it.intersectsLoopD fi r k i
  | 0, _, _ => rfl
  | k + 1, i, hi => by
      unfold FwdIt.intersectsLoopA FwdIt.intersectsLoopD
      rw [CV.getD'_eq (by omega), FwdIt.intersectsLoopA_eq r hs k (i + 1) (by omega)]

theorem intersectsA_eq (h : fi.RepA nt lists) {d : Nat} (hd : d < lists.length) (hl : ∀ x ∈ lists[d], 0 < x) (r : Range) :
    fi.intersectsA d r = fi.intersects d r := by
  rw [← intersectsD_ok h.rep hd hl r]
  obtain ⟨p, p1, p2⟩ := h.rep.at' d hd
  have hf := h.fits d hd _ p1
  unfold intersectsA intersectsD
  rw [iteratorA_eq h hd, iteratorD_ok (by rw [h.rep.docs]; exact hd), p1, M.ok_bind, M.ok_bind]
  exact FwdIt.intersectsLoopA_eq r hf _ _ (by simp)

end FwdIdx
end AC
