import Verif.Proofs.BlkInter
import Verif.Proofs.ConjLoops
/-!
# The loops of the conjunctive queries with index type 4
-/
namespace AC
open Spec

/-- a block in the queue -/
structure VB where
  lo : Nat
  hi : Nat
  docs : List Nat

namespace Index4

variable {ii : BlkIdx} {u : Nat} {lists : List (List Nat)}

/-- the key of the heap -/
abbrev key (b : Blk) : Nat := b.docs.value

/-- a block that is not exhausted, with its position -/
def Live (ii : BlkIdx) (u : Nat) (lists : List (List Nat)) (b : Blk) (x : VB × Nat) : Prop :=
  b.At ii u lists x.1.lo x.1.hi x.1.docs x.2 ∧ x.2 < x.1.docs.length

theorem Live.get {b : Blk} {x : VB × Nat} (h : Live ii u lists b x) : x.1.docs[x.2]? = some (key b) := by
  obtain ⟨h1, h2⟩ := h
  rw [List.getElem?_eq_getElem h2]
  unfold key
  rw [h1.it.value, List.getElem?_eq_getElem h2]; rfl

theorem Live.drop {b : Blk} {x : VB × Nat} (h : Live ii u lists b x) : x.1.docs.drop x.2 = key b :: x.1.docs.drop (x.2 + 1) := by
  obtain ⟨a, b⟩ := List.getElem?_eq_some_iff.mp h.get
  rw [List.drop_eq_getElem_cons a, b]

theorem Live.le {b : Blk} {x : VB × Nat} (h : Live ii u lists b x) : ∀ d ∈ x.1.docs.drop x.2, key b ≤ d := by
  intro d hd
  rw [h.drop] at hd
  have hs := h.1.it.sorted.drop (i := x.2)
  rw [h.drop, List.pairwise_cons] at hs
  rcases List.mem_cons.mp hd with rfl | hd
  · exact Nat.le_refl _
  · exact Nat.le_of_lt (hs.1 d hd)

theorem Live.lt {b : Blk} {x : VB × Nat} (h : Live ii u lists b x) : key b < u := h.1.it.bound _ (List.mem_of_getElem? h.get)

/-- the documents to come that have a term of the range, once for each block -/
def pending (lists : List (List Nat)) (r : Range) (xs : List (VB × Nat)) : List Nat :=
  xs.flatMap (fun x => (x.1.docs.drop x.2).filter (hasIn lists x.1.lo x.1.hi r))

theorem pending_perm {r : Range} {xs ys : List (VB × Nat)} (h : xs.Perm ys) : (pending lists r xs).Perm (pending lists r ys) :=
  List.Perm.flatMap_right _ h

/-- the number of steps to come -/
def steps (xs : List (VB × Nat)) : Nat := (xs.map (fun x => x.1.docs.length - x.2)).sum

theorem steps_perm {xs ys : List (VB × Nat)} (h : xs.Perm ys) : steps xs = steps ys := (h.map _).sum_nat

/-- replacing the block on top of the queue -/
theorem replace_top (std : StdLib) {z z' : Blk} {zs : List Blk} (h : IsHeap key (z :: zs)) (b : Bool) :
    (∃ q', restore std b (z' :: zs) = .ok q' ∧ IsHeap key q' ∧ q'.Perm (if b then z' :: zs else zs)) ∧
    ∃ q', restore' std b (z' :: zs) = .ok q' ∧ IsHeap key q' ∧ q'.Perm (if b then z' :: zs else zs) := by
  cases b with
  | true =>
      obtain ⟨q', e1, e2, e3⟩ := Heap.heapify_spec (IsHeap.below (y := z') h)
      exact ⟨⟨q', e1, e3, e2⟩, ⟨q', e1, e3, e2⟩⟩
  | false =>
      constructor
      · obtain ⟨q1, q', e1, e2, e3, e4⟩ := Heap.pop_heapify std (IsHeap.below (y := z') h)
        refine ⟨q', ?_, e4, e3⟩
        unfold restore
        rw [if_neg (by simp), e1, M.ok_bind, e2]
      · obtain ⟨q', e1, e2, e3⟩ := Heap.pop_spec std (IsHeap.below (y := z') h)
        exact ⟨q', e1, e3, e2⟩

theorem top_le {z : Blk} {zs : List Blk} {xs : List (VB × Nat)} (h : IsHeap key (z :: zs)) (hA : All2 (Live ii u lists) (z :: zs) xs) :
    ∀ x ∈ xs, ∀ d ∈ x.1.docs.drop x.2, key z ≤ d := by
  intro x hx d hd
  obtain ⟨i, hi, rfl⟩ := List.getElem_of_mem hx
  have hl := All2.length hA
  have hlive := All2.get hA i (by omega) hi
  have h1 := IsHeap.top_le h _ (List.getElem_mem (by omega : i < (z :: zs).length))
  have h2 := hlive.le d hd
  omega

theorem all2_if {z' : Blk} {zs q' : List Blk} {x' : VB × Nat} {xs : List (VB × Nat)} {b : Bool} (hA : All2 (Live ii u lists) zs xs)
    (hx : b = true → Live ii u lists z' x') (hp : q'.Perm (if b then z' :: zs else zs)) :
    ∃ ys, ys.Perm (if b then x' :: xs else xs) ∧ All2 (Live ii u lists) q' ys := by
  have h0 : All2 (Live ii u lists) (if b then z' :: zs else zs) (if b then x' :: xs else xs) := by
    cases b with
    | true => exact .cons (hx rfl) hA
    | false => exact hA
  obtain ⟨ys, p1, p2⟩ := All2.perm hp.symm h0
  exact ⟨ys, p1.symm, p2⟩

theorem record_true {doc : Nat} {scores : List Nat} {n : Nat} (hn : n < scores.length) (hd : doc < 2 ^ 32) :
    record true doc scores n = .ok (scores.set n doc, n + 1) := by
  unfold record
  rw [if_pos rfl, wr_ok hn, M.ok_bind, BInter.id32_small hd]

/-- The loop without complete terms: the documents to come are stored in increasing order, up to `k` of them. A document is stored once
for every block of the queue in which it has a term of the range. -/
theorem unionLoop_spec (std : StdLib) (hu : u < 2 ^ 32) (r : Range) (k : Nat) : ∀ (fuel : Nat) (q : List Blk) (xs : List (VB × Nat))
    (scores : List Nat) (n : Nat), All2 (Live ii u lists) q xs → IsHeap key q → n < k → k ≤ scores.length → steps xs < fuel →
    ∃ (scores' : List Nat) (n' : Nat) (S : List Nat), unionLoop std ii r k fuel q scores n = .ok (scores', n') ∧ scores'.length = scores.length ∧
      S.Perm (pending lists r xs) ∧ S.Pairwise (· ≤ ·) ∧ n' = n + (S.take (k - n)).length ∧
      scores'.take n' = scores.take n ++ S.take (k - n) := by
  intro fuel
  induction fuel with
  | zero => intro q xs scores n _ _ _ _ h; omega
  | succ fuel ih =>
      intro q xs scores n hA hh hn hk hf
      cases hA with
      | nil => exact ⟨scores, n, [], rfl, rfl, List.Perm.refl _, List.Pairwise.nil, by simp, by simp⟩
      | cons hz hA' =>
          rename_i z x zs xs
          obtain ⟨o, c1, c2⟩ := check_spec hz.1 hz.get r
          obtain ⟨d', e1, e2⟩ := hz.1.it.next hz.2
          have hlt := hz.lt
          have htop := top_le hh (.cons hz hA')
          obtain ⟨⟨q', r1, r2, r3⟩, _⟩ := replace_top std (z' := { z with offs := o, docs := d' }) hh d'.hasNext
          have hlive : d'.hasNext = true → Live ii u lists { z with offs := o, docs := d' } (x.1, x.2 + 1) := by
            intro hb
            rw [e2.hasNext, decide_eq_true_iff] at hb
            exact ⟨c2.withDocs e2, hb⟩
          obtain ⟨ys, y1, y2⟩ := all2_if hA' hlive r3
          have hsteps : steps ys < fuel := by
            rw [steps_perm y1]
            have h2 := hz.2
            simp only [steps, List.map_cons, List.sum_cons] at hf ⊢
            split
            · simp only [List.map_cons, List.sum_cons]; omega
            · omega
          have hpend : (pending lists r (x :: xs)).Perm ((if hasIn lists x.1.lo x.1.hi r (key z) then [key z] else []) ++ pending lists r ys) := by
            refine List.Perm.trans ?_ (List.Perm.append_left _ (pending_perm y1).symm)
            unfold pending
            rw [List.flatMap_cons, hz.drop, List.filter_cons]
            have hcases : (if d'.hasNext = true then (x.1, x.2 + 1) :: xs else xs).flatMap
                (fun x => (x.1.docs.drop x.2).filter (hasIn lists x.1.lo x.1.hi r)) =
                (x.1.docs.drop (x.2 + 1)).filter (hasIn lists x.1.lo x.1.hi r) ++
                  xs.flatMap (fun x => (x.1.docs.drop x.2).filter (hasIn lists x.1.lo x.1.hi r)) := by
              split
              · rw [List.flatMap_cons]
              · rename_i hb
                rw [e2.hasNext, decide_eq_true_iff] at hb
                rw [List.drop_eq_nil_of_le (by omega)]; rfl
            rw [hcases]
            split
            · rw [List.cons_append]; exact List.Perm.refl _
            · exact List.Perm.refl _
          have hmin : ∀ y ∈ pending lists r ys, key z ≤ y := by
            intro y hy
            have hy' := hpend.mem_iff.mpr (List.mem_append_right _ hy)
            unfold pending at hy'
            obtain ⟨x', hx', hy'⟩ := List.mem_flatMap.mp hy'
            exact htop x' hx' y (List.mem_filter.mp hy').1
          unfold unionLoop
          simp only [c1, M.ok_bind]
          cases hf' : hasIn lists x.1.lo x.1.hi r (key z) with
          | false =>
              simp only [hf'] at hpend
              simp only [record, Bool.false_eq_true, if_false, M.ok_bind]
              rw [if_neg (by omega), e1, M.ok_bind, r1, M.ok_bind]
              obtain ⟨scores', n', S, s1, s2, s3, s4, s5, s6⟩ := ih q' ys scores n y2 r2 hn hk hsteps
              exact ⟨scores', n', S, s1, s2, s3.trans hpend.symm, s4, s5, s6⟩
          | true =>
              simp only [hf', if_true] at hpend
              have hkey : z.docs.value = key z := rfl
              rw [record_true (by omega) (by omega : z.docs.value < 2 ^ 32)]
              simp only [M.ok_bind]
              have hset : (scores.set n (key z)).take (n + 1) = scores.take n ++ [key z] := take_set_succ (by omega)
              by_cases hk1 : n + 1 = k
              · rw [if_pos hk1]
                obtain ⟨T, t1, t2⟩ : ∃ T : List Nat, T.Perm (pending lists r ys) ∧ T.Pairwise (· ≤ ·) :=
                  ⟨(pending lists r ys).mergeSort (fun a b => decide (a ≤ b)), List.mergeSort_perm _ _, by
                    have := List.pairwise_mergeSort (le := fun a b : Nat => decide (a ≤ b)) (by simp; omega) (by simp; omega) (pending lists r ys)
                    exact this.imp (fun h => by simpa using h)⟩
                refine ⟨_, _, key z :: T, rfl, by simp, ?_, ?_, ?_, ?_⟩
                · exact (t1.cons _).trans hpend.symm
                · rw [List.pairwise_cons]
                  exact ⟨fun y hy => hmin y (t1.mem_iff.mp hy), t2⟩
                · rw [show k - n = 1 by omega]; simp
                · rw [hkey, hset, show k - n = 1 by omega]; simp
              · rw [if_neg hk1, e1, M.ok_bind, r1, M.ok_bind]
                obtain ⟨scores', n', S, s1, s2, s3, s4, s5, s6⟩ := ih q' ys (scores.set n (key z)) (n + 1) y2 r2 (by omega) (by simpa using hk) hsteps
                have hkn : k - n = (k - (n + 1)) + 1 := by omega
                refine ⟨scores', n', key z :: S, s1, by simpa using s2, (s3.cons _).trans hpend.symm, ?_, ?_, ?_⟩
                · rw [List.pairwise_cons]
                  exact ⟨fun y hy => hmin y (s3.mem_iff.mp hy), s4⟩
                · rw [hkn, List.take_succ_cons, List.length_cons, s5]; omega
                · rw [s6, hset, hkn, List.take_succ_cons, List.append_assoc]; rfl

/-! ## With complete terms -/

/-- the queue has the blocks of `V`, as far as the documents from `a` on are concerned -/
structure Covers (ii : BlkIdx) (u : Nat) (lists : List (List Nat)) (V : List VB) (q : List Blk) (a : Nat) : Prop where
  heap : IsHeap key q
  ex : ∃ xs, All2 (Live ii u lists) q xs ∧ (∀ x ∈ xs, x.1 ∈ V) ∧ ∀ v ∈ V, ∀ d ∈ v.docs, a ≤ d → ∃ x ∈ xs, x.1 = v ∧ d ∈ x.1.docs.drop x.2

theorem Covers.mono {V : List VB} {q : List Blk} {a b : Nat} (h : Covers ii u lists V q a) (hab : a ≤ b) : Covers ii u lists V q b := by
  obtain ⟨h1, xs, h2, h3, h4⟩ := h
  exact ⟨h1, xs, h2, h3, fun v hv d hd hb => h4 v hv d hd (by omega)⟩

/-- What may be found out about `d`: that it is in the range only when it has a term of the range in one of the blocks; that it is not
only when it is in none of the blocks, or when it has no term of the range in a block that contains it. -/
def Chosen (lists : List (List Nat)) (V : List VB) (r : Range) (d : Nat) (f : Bool) : Prop :=
  (f = true → ∃ v ∈ V, hasIn lists v.lo v.hi r d = true) ∧
  (f = false → (∀ v ∈ V, d ∉ v.docs) ∨ ∃ v ∈ V, d ∈ v.docs ∧ hasIn lists v.lo v.hi r d = false)

theorem mem_drop_iff {xs : List Nat} (hs : xs.Pairwise (· < ·)) {p : Nat} (hp : p < xs.length) {d : Nat} :
    d ∈ xs.drop p ↔ d ∈ xs ∧ xs[p] ≤ d := by
  constructor
  · intro hd
    refine ⟨List.mem_of_mem_drop hd, ?_⟩
    rw [List.drop_eq_getElem_cons hp] at hd
    have h2 := hs.drop (i := p)
    rw [List.drop_eq_getElem_cons hp, List.pairwise_cons] at h2
    rcases List.mem_cons.mp hd with rfl | hd
    · exact Nat.le_refl _
    · exact Nat.le_of_lt (h2.1 d hd)
  · rintro ⟨hd, hle⟩
    obtain ⟨i, hi, rfl⟩ := List.getElem_of_mem hd
    rcases Nat.lt_or_ge i p with hc | hc
    · have := List.pairwise_iff_getElem.mp hs i p hi hp hc
      omega
    · rw [List.mem_iff_getElem]
      refine ⟨i - p, by simp; omega, ?_⟩
      rw [List.getElem_drop]; congr 1; omega

theorem heap_same {z z' : Blk} {zs : List Blk} (h : IsHeap key (z :: zs)) (hk : key z' = key z) : IsHeap key (z' :: zs) := by
  have hkeys : ∀ (j : Nat) (h1 : j < (z' :: zs).length) (h2 : j < (z :: zs).length), key (z' :: zs)[j] = key (z :: zs)[j] := by
    intro j h1 h2
    cases j with
    | zero => exact hk
    | succ j => rfl
  intro i hi h0
  have hi' : i < (z :: zs).length := by simpa using hi
  rw [hkeys i hi hi', hkeys ((i - 1) / 2) (by omega) (by omega)]
  exact h i hi' h0

theorem advance_spec (std : StdLib) {V : List VB} {r : Range} {doc : Nat} (hdoc : doc < u) :
    ∀ (fuel : Nat) (q : List Blk), Covers ii u lists V q doc → (q.filter (fun z => decide (key z < doc))).length < fuel →
    ∃ checked found q', advance std ii r doc fuel q = .ok (checked, found, q') ∧ Covers ii u lists V q' doc ∧ Chosen lists V r doc found ∧
      (found = true → checked = true) := by
  intro fuel
  induction fuel with
  | zero => intro q _ h; omega
  | succ fuel ih =>
      intro q hc hfuel
      obtain ⟨hh, xs, hA, hV, hcov⟩ := hc
      cases hA with
      | nil =>
          refine ⟨false, false, [], rfl, ⟨hh, [], .nil, hV, hcov⟩, ⟨fun h => by simp at h, fun _ => Or.inl ?_⟩, fun h => by simp at h⟩
          intro v hv hd
          obtain ⟨x, hx, _⟩ := hcov v hv doc hd (Nat.le_refl _)
          simp at hx
      | cons hz hA' =>
          rename_i z x zs xs
          have htop := top_le hh (.cons hz hA')
          have hkey : z.docs.value = key z := rfl
          unfold advance
          dsimp only
          rw [hkey]
          by_cases h1 : key z > doc
          · rw [if_pos h1]
            refine ⟨false, false, z :: zs, rfl, ⟨hh, x :: xs, .cons hz hA', hV, hcov⟩, ⟨fun h => by simp at h, fun _ => Or.inl ?_⟩, fun h => by simp at h⟩
            intro v hv hd
            obtain ⟨y, hy, rfl, hdy⟩ := hcov v hv doc hd (Nat.le_refl _)
            have := htop y hy doc hdy
            omega
          · rw [if_neg h1]
            by_cases h2 : key z < doc
            · rw [if_pos h2]
              obtain ⟨d', p', g1, g2, g3, g4⟩ := hz.1.it.nextGeq (Nat.le_of_lt hdoc)
              obtain ⟨_, q', r1, r2, r3⟩ := replace_top std (z' := { z with docs := d' }) hh d'.hasNext
              rw [g1, M.ok_bind, r1, M.ok_bind]
              have hlive : d'.hasNext = true → Live ii u lists { z with docs := d' } (x.1, p') := by
                intro hb
                rw [g2.hasNext, decide_eq_true_iff] at hb
                exact ⟨hz.1.withDocs g2, hb⟩
              obtain ⟨ys, y1, y2⟩ := all2_if hA' hlive r3
              apply ih q'
              · refine ⟨r2, ys, y2, ?_, ?_⟩
                · intro y hy
                  have := y1.mem_iff.mp hy
                  split at this
                  · rcases List.mem_cons.mp this with rfl | this
                    · exact hV x (List.mem_cons_self ..)
                    · exact hV y (List.mem_cons_of_mem _ this)
                  · exact hV y (List.mem_cons_of_mem _ this)
                · intro v hv d hd hle
                  obtain ⟨y, hy, rfl, hdy⟩ := hcov v hv d hd hle
                  rcases List.mem_cons.mp hy with rfl | hy
                  · have hd' := g4 d hd hle
                    have hb : d'.hasNext = true := by
                      rw [g2.hasNext, decide_eq_true_iff]
                      rcases Nat.lt_or_ge p' y.1.docs.length with hc | hc
                      · exact hc
                      · have := g2.value
                        rw [List.getElem?_eq_none hc, Option.getD_none] at this
                        have := g2.bound d hd
                        omega
                    refine ⟨(y.1, p'), y1.mem_iff.mpr (by rw [if_pos hb]; exact List.mem_cons_self ..), rfl, ?_⟩
                    have hl := hlive hb
                    have hget := hl.get
                    obtain ⟨a1, a2⟩ := List.getElem?_eq_some_iff.mp hget
                    rw [mem_drop_iff g2.sorted a1, a2]
                    exact ⟨hd, hd'⟩
                  · refine ⟨y, y1.mem_iff.mpr ?_, rfl, hdy⟩
                    split
                    · exact List.mem_cons_of_mem _ hy
                    · exact hy
              · have hl : (q'.filter (fun z => decide (key z < doc))).length = (zs.filter (fun z => decide (key z < doc))).length := by
                  rw [(r3.filter _).length_eq]
                  cases d'.hasNext with
                  | false => rfl
                  | true =>
                      have : ¬ key { z with docs := d' } < doc := by
                        show ¬ d'.value < doc
                        omega
                      simp [this]
                rw [hl]
                simp [h2] at hfuel
                omega
            · rw [if_neg h2]
              have hd : key z = doc := by omega
              obtain ⟨o, c1, c2⟩ := check_spec hz.1 hz.get r
              rw [c1]
              simp only [M.ok_bind]
              rw [hd]
              refine ⟨true, hasIn lists x.1.lo x.1.hi r doc, _, rfl, ⟨?_, x :: xs, .cons ⟨c2, hz.2⟩ hA', hV, hcov⟩, ⟨?_, ?_⟩, fun _ => rfl⟩
              · exact heap_same hh rfl
              · intro hf
                exact ⟨x.1, hV x (List.mem_cons_self ..), hf⟩
              · intro hf
                right
                refine ⟨x.1, hV x (List.mem_cons_self ..), ?_, hf⟩
                rw [← hd]
                exact List.mem_of_getElem? hz.get

theorem Filled.congr {P Q : Nat → Bool} {k : Nat} {R scores : List Nat} {n : Nat} {scores' : List Nat} {n' : Nat} (h : Filled P k R scores n scores' n')
    (hpq : ∀ d ∈ R, P d = Q d) : Filled Q k R scores n scores' n' := by
  have : R.filter P = R.filter Q := List.filter_congr hpq
  exact ⟨by rw [← this]; exact h.count, h.length, by rw [← this]; exact h.taken⟩

theorem exists_chosen (V : List VB) (hV : ∀ v ∈ V, IsDocs lists v.lo v.hi v.docs) (r : Range) : ∃ S : Nat → Bool, ∀ d, Chosen lists V r d (S d) := by
  refine ⟨fun d => V.any (fun v => hasIn lists v.lo v.hi r d), fun d => ⟨?_, ?_⟩⟩
  · intro h
    simpa [List.any_eq_true] using h
  · intro h
    rw [List.any_eq_false] at h
    by_cases hm : ∃ v ∈ V, d ∈ v.docs
    · obtain ⟨v, hv, hd⟩ := hm
      exact Or.inr ⟨v, hv, hd, by simpa using h v hv⟩
    · exact Or.inl (fun v hv hd => hm ⟨v, hv, hd⟩)

/-- The loop with complete terms: of the documents of the intersection, those for which the check of one of the blocks succeeds. -/
theorem conjLoop_spec (std : StdLib) (hu : u < 2 ^ 32) {V : List VB} (hVd : ∀ v ∈ V, IsDocs lists v.lo v.hi v.docs) (r : Range) (k : Nat) :
    ∀ (R : List Nat) (fuel : Nat) (it : BInter) (bs : List BD) (q : List Blk) (scores : List Nat) (n : Nat), it.Enum ii u lists bs R →
    (∀ d ∈ R, Covers ii u lists V q d) → R.length < fuel → n < k → k ≤ scores.length →
    ∃ (scores' : List Nat) (n' : Nat) (S : Nat → Bool), conjLoop std ii r k fuel it q scores n = .ok (scores', n') ∧ (∀ d ∈ R, Chosen lists V r d (S d)) ∧
      Filled S k R scores n scores' n' := by
  intro R
  induction R with
  | nil =>
      intro fuel it bs q scores n he hq hfuel hn hk
      obtain ⟨fuel, rfl⟩ : ∃ f, fuel = f + 1 := ⟨fuel - 1, by simp at hfuel; omega⟩
      refine ⟨scores, n, fun _ => false, ?_, by simp, Filled.nil⟩
      unfold conjLoop
      rw [he.step.1 rfl]; rfl
  | cons d R ih =>
      intro fuel it bs q scores n he hq hfuel hn hk
      obtain ⟨fuel, rfl⟩ : ∃ f, fuel = f + 1 := ⟨fuel - 1, by omega⟩
      simp only [List.length_cons] at hfuel
      have hs := he.sorted
      rw [List.pairwise_cons] at hs
      have hdu := he.bound d (List.mem_cons_self ..)
      obtain ⟨e1, e2, it', e3, e4⟩ := he.step.2 d R rfl
      have hqd := hq d (List.mem_cons_self ..)
      unfold conjLoop
      rw [e1, Bool.true_and]
      by_cases hqe : q = []
      · subst hqe
        refine ⟨scores, n, fun _ => false, by simp, ?_, Filled.of_none (by simp)⟩
        intro y hy
        refine ⟨fun h => by simp at h, fun _ => Or.inl ?_⟩
        intro v hv hd
        obtain ⟨_, xs, hA, _, hcov⟩ := hq y hy
        cases hA
        obtain ⟨x, hx, _⟩ := hcov v hv y hd (Nat.le_refl _)
        simp at hx
      · have hqe' : (!q.isEmpty) = true := by cases q with
          | nil => exact absurd rfl hqe
          | cons => rfl
        rw [hqe', if_pos rfl, e2]
        obtain ⟨checked, found, q', a1, a2, a3, a4⟩ := advance_spec std (r := r) hdu (q.length + 1) q hqd (Nat.lt_succ_of_le (List.length_filter_le _ _))
        rw [a1, M.ok_bind]
        dsimp only
        have hq' : ∀ y ∈ R, Covers ii u lists V q' y := fun y hy => a2.mono (Nat.le_of_lt (hs.1 y hy))
        have hdR : ∀ y ∈ R, y ≠ d := fun y hy => by have := hs.1 y hy; omega
        have hchosen : ∀ S : Nat → Bool, (∀ y ∈ R, Chosen lists V r y (S y)) →
            ∀ y ∈ d :: R, Chosen lists V r y (if y = d then found else S y) := by
          intro S hS y hy
          by_cases hyd : y = d
          · rw [if_pos hyd, hyd]; exact a3
          · rw [if_neg hyd]
            rcases List.mem_cons.mp hy with h | h
            · exact absurd h hyd
            · exact hS y h
        have hsame : ∀ S : Nat → Bool, ∀ y ∈ R, S y = if y = d then found else S y := fun S y hy => by rw [if_neg (hdR y hy)]
        cases found with
        | false =>
            simp only [record, Bool.false_eq_true, if_false, M.ok_bind]
            rw [if_neg (by omega), e3, M.ok_bind]
            obtain ⟨s', n', S, h1, h2, h3⟩ := ih fuel it' bs q' scores n e4 hq' (by omega) hn hk
            refine ⟨s', n', fun y => if y = d then false else S y, h1, hchosen S h2, ?_⟩
            exact (Filled.congr h3 (hsame S)).skip (by simp)
        | true =>
            rw [record_true (by omega) (by omega), M.ok_bind]
            dsimp only
            by_cases hk1 : n + 1 = k
            · rw [if_pos ⟨a4 rfl, hk1⟩]
              obtain ⟨S, hS⟩ := exists_chosen V hVd r
              exact ⟨_, _, fun y => if y = d then true else S y, rfl, hchosen S (fun y _ => hS y), Filled.last (by simp) hk1 (by omega)⟩
            · rw [if_neg (fun h => hk1 h.2), e3, M.ok_bind]
              obtain ⟨s', n', S, h1, h2, h3⟩ := ih fuel it' bs q' (scores.set n d) (n + 1) e4 hq' (by omega) (by omega) (by simpa using hk)
              refine ⟨s', n', fun y => if y = d then true else S y, h1, hchosen S h2, ?_⟩
              exact Filled.more (by simp) hn (by omega) (Filled.congr h3 (hsame S))

end Index4
end AC
