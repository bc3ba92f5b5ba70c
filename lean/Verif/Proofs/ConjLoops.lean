import Verif.Proofs.DocIter
import Verif.Proofs.ForwardIndex
/-!
# The loops of the conjunctive queries
-/
namespace AC

theorem take_set_succ {l : List Nat} {n v : Nat} (h : n < l.length) : (l.set n v).take (n + 1) = l.take n ++ [v] := by
  rw [List.take_succ_eq_append_getElem (by simpa using h), List.getElem_set_self, List.take_set_of_le (Nat.le_refl n)]

/-- at most `k` of the documents with property `P`, after `n` others: how the buffer of scores changes -/
structure Filled (P : Nat → Bool) (k : Nat) (R : List Nat) (scores : List Nat) (n : Nat) (scores' : List Nat) (n' : Nat) : Prop where
  count : n' = n + ((R.filter P).take (k - n)).length
  length : scores'.length = scores.length
  taken : scores'.take n' = scores.take n ++ (R.filter P).take (k - n)

theorem Filled.nil {P : Nat → Bool} {k : Nat} {scores : List Nat} {n : Nat} : Filled P k [] scores n scores n :=
  ⟨by simp, rfl, by simp⟩

theorem Filled.of_none {P : Nat → Bool} {k : Nat} {R : List Nat} {scores : List Nat} {n : Nat} (h : ∀ d ∈ R, P d = false) :
    Filled P k R scores n scores n := by
  have : R.filter P = [] := by rw [List.filter_eq_nil_iff]; intro d hd; rw [h d hd]; simp
  exact ⟨by simp [this], rfl, by simp [this]⟩

theorem Filled.skip {P : Nat → Bool} {k : Nat} {d : Nat} {R : List Nat} {scores scores' : List Nat} {n n' : Nat} (hd : P d = false)
    (h : Filled P k R scores n scores' n') : Filled P k (d :: R) scores n scores' n' := by
  have : (d :: R).filter P = R.filter P := by simp [hd]
  exact ⟨by rw [this]; exact h.count, h.length, by rw [this]; exact h.taken⟩

theorem Filled.last {P : Nat → Bool} {k : Nat} {d : Nat} {R : List Nat} {scores : List Nat} {n : Nat} (hd : P d = true)
    (hk : n + 1 = k) (hn : n < scores.length) : Filled P k (d :: R) scores n (scores.set n d) (n + 1) := by
  have : (d :: R).filter P = d :: R.filter P := by simp [hd]
  have hk' : k - n = 1 := by omega
  exact ⟨by rw [this, hk']; simp, by simp, by rw [this, hk', take_set_succ hn]; simp⟩

theorem Filled.more {P : Nat → Bool} {k : Nat} {d : Nat} {R : List Nat} {scores scores' : List Nat} {n n' : Nat} (hd : P d = true)
    (hk : n < k) (hn : n < scores.length) (h : Filled P k R (scores.set n d) (n + 1) scores' n') :
    Filled P k (d :: R) scores n scores' n' := by
  have : (d :: R).filter P = d :: R.filter P := by simp [hd]
  have hk' : k - n = (k - (n + 1)) + 1 := by omega
  refine ⟨?_, by rw [h.length]; simp, ?_⟩
  · rw [this, hk', List.take_succ_cons, List.length_cons, h.count]; omega
  · rw [this, hk', List.take_succ_cons, h.taken, take_set_succ hn]; simp

/-! ## Type 1 -/

theorem Index1.conjLoop_spec {x : Index1} {nt : Nat} {fwd : List (List Nat)} (hf : x.forward.Rep nt fwd) (r : Range) (k : Nat)
    {σ : Type} {I : DocIter σ} : ∀ (R : List Nat) (fuel : Nat) (it : σ) (scores : List Nat) (n : Nat), I.Enum it R →
    (∀ d ∈ R, d < fwd.length) → R.length < fuel → n < k → k ≤ scores.length →
    ∃ scores' n', x.conjLoop I r k fuel it scores n = .ok (scores', n') ∧
      Filled (fun d => (fwd.getD d []).any (fun t => r.contains t)) k R scores n scores' n' := by
  intro R
  induction R with
  | nil =>
      intro fuel it scores n he hR hfuel hn hk
      obtain ⟨fuel, rfl⟩ : ∃ f, fuel = f + 1 := ⟨fuel - 1, by simp at hfuel; omega⟩
      have he : I.hasNext it = false := he
      exact ⟨scores, n, by rw [Index1.conjLoop, he]; rfl, Filled.nil⟩
  | cons d R ih =>
      intro fuel it scores n he hR hfuel hn hk
      obtain ⟨fuel, rfl⟩ : ∃ f, fuel = f + 1 := ⟨fuel - 1, by omega⟩
      simp only [List.length_cons] at hfuel
      obtain ⟨e1, e2, it', e3, e4⟩ := he
      have hd := hR d (by simp)
      have hint := FwdIdx.intersects_spec hf r d hd
      have hget : fwd.getD d [] = fwd[d] := by
        rw [List.getD_eq_getElem?_getD, List.getElem?_eq_getElem hd]; rfl
      rw [← hget] at hint
      rw [Index1.conjLoop, e1, if_pos rfl, e2, hint, M.ok_bind]
      cases hp : (fwd.getD d []).any (fun t => r.contains t) with
      | false =>
          rw [if_neg (by simp), e3, M.ok_bind]
          obtain ⟨s', n', h1, h2⟩ := ih fuel it' scores n e4 (fun d hd => hR d (by simp [hd])) (by omega) hn hk
          exact ⟨s', n', h1, h2.skip hp⟩
      | true =>
          rw [if_pos rfl, wr_ok (by omega), M.ok_bind]
          by_cases hk1 : n + 1 = k
          · rw [if_pos hk1]
            exact ⟨_, _, rfl, Filled.last hp hk1 (by omega)⟩
          · rw [if_neg hk1, e3, M.ok_bind]
            obtain ⟨s', n', h1, h2⟩ := ih fuel it' (scores.set n d) (n + 1) e4 (fun d hd => hR d (by simp [hd])) (by omega)
              (by omega) (by simpa using hk)
            exact ⟨s', n', h1, h2.more hp hn (by omega)⟩

/-! ## Type 3 -/

namespace Index3

/-- the queue contains the documents with property `S`, from `a` on -/
structure Covers (ii : InvIdx) (u : Nat) (S : Nat → Bool) (q : List CEI) (a : Nat) : Prop where
  good : HeapTopK.Good ii u q
  mem : ∀ d, a ≤ d → (S d = true ↔ ∃ it ∈ q, d ∈ it.rest ii)

theorem Covers.mono {ii : InvIdx} {u : Nat} {S : Nat → Bool} {q : List CEI} {a b : Nat} (h : Covers ii u S q a) (hab : a ≤ b) :
    Covers ii u S q b := ⟨h.good, fun d hd => h.mem d (by omega)⟩

theorem mem_rest {ii : InvIdx} {u : Nat} {xs : List Nat} {it : CEI} {p : Nat} (h : ii.ItAt u xs it p) (d : Nat) :
    d ∈ it.rest ii ↔ d ∈ xs ∧ it.value ≤ d := by
  rw [h.rest]
  have hs := h.sorted
  rw [List.pairwise_iff_getElem] at hs
  constructor
  · intro hd
    refine ⟨List.mem_of_mem_drop hd, ?_⟩
    obtain ⟨j, hj, rfl⟩ := List.getElem_of_mem hd
    simp only [List.length_drop] at hj
    rw [List.getElem_drop, h.value, List.getElem?_eq_getElem (by omega), Option.getD_some]
    rcases Nat.eq_zero_or_pos j with rfl | hj0
    · exact Nat.le_refl _
    · exact Nat.le_of_lt (hs _ _ (by omega) (by omega) (by omega))
  · rintro ⟨hd, hv⟩
    obtain ⟨j, hj, rfl⟩ := List.getElem_of_mem hd
    rcases Nat.lt_or_ge j p with hc | hc
    · exfalso
      rw [h.value] at hv
      by_cases hp : p < xs.length
      · rw [List.getElem?_eq_getElem hp, Option.getD_some] at hv
        have := hs j p hj hp hc; omega
      · rw [List.getElem?_eq_none (by omega), Option.getD_none] at hv
        have := h.bound _ hd; omega
    · rw [List.mem_iff_getElem]
      refine ⟨j - p, by simp; omega, ?_⟩
      rw [List.getElem_drop]; congr 1; omega

theorem live_nextGeq {ii : InvIdx} {u : Nat} {it : CEI} (h : ii.Live u it) {y : Nat} (hy : y < u) (hv : it.value ≤ y) :
    ∃ it', it.nextGeq ii.data y = .ok it' ∧ y ≤ it'.value ∧ (∀ d, y ≤ d → (d ∈ it'.rest ii ↔ d ∈ it.rest ii)) ∧
      (it'.hasNext = true → ii.Live u it') ∧ (it'.hasNext = false → it'.rest ii = [] ∧ it'.value = u) := by
  obtain ⟨xs, p, h1, h2⟩ := h
  obtain ⟨it', p', e1, e2, e3, e4⟩ := h1.nextGeq (Nat.le_of_lt hy)
  refine ⟨it', e1, e3, ?_, ?_, ?_⟩
  · intro d hd
    rw [mem_rest e2, mem_rest h1]
    exact ⟨fun ⟨a, b⟩ => ⟨a, by omega⟩, fun ⟨a, b⟩ => ⟨a, e4 d a hd⟩⟩
  · intro hn
    rw [e2.hasNext] at hn
    exact ⟨xs, p', e2, by simpa using hn⟩
  · intro hn
    rw [e2.hasNext] at hn
    have hp : xs.length ≤ p' := by simpa using hn
    rw [InvIdx.ItAt.rest (ii := ii) e2, e2.value, List.getElem?_eq_none hp]
    exact ⟨List.drop_of_length_le hp, rfl⟩

/-- `restore` puts the queue in order -/
theorem restore_spec (std : StdLib) {z z' : CEI} {zs : List CEI} (h : IsHeap CEI.value (z :: zs)) (b : Bool) :
    ∃ q', restore std b (z' :: zs) = .ok q' ∧ IsHeap CEI.value q' ∧ q'.Perm (if b then z' :: zs else zs) := by
  cases b with
  | true =>
      obtain ⟨q', e1, e2, e3⟩ := Heap.heapify_spec (IsHeap.below (y := z') h)
      exact ⟨q', e1, e3, e2⟩
  | false =>
      obtain ⟨q', e1, e2, e3⟩ := Heap.pop_spec std (IsHeap.below (y := z') h)
      exact ⟨q', e1, e3, e2⟩

theorem advance_spec (std : StdLib) {x : Index3} {u : Nat} {S : Nat → Bool} {doc : Nat} (hdoc : doc < u) :
    ∀ (fuel : Nat) (q : List CEI), Covers x.inverted u S q doc → (q.filter (fun z => decide (z.value < doc))).length < fuel →
    ∃ q', advance std x doc fuel q = .ok (S doc, q') ∧ Covers x.inverted u S q' doc := by
  intro fuel
  induction fuel with
  | zero => intro q _ h; omega
  | succ fuel ih =>
      intro q hc hfuel
      cases q with
      | nil =>
          refine ⟨[], ?_, hc⟩
          have : S doc = false := by
            cases hs : S doc with
            | false => rfl
            | true => obtain ⟨it, h, _⟩ := (hc.mem doc (Nat.le_refl _)).mp hs; simp at h
          rw [this]; rfl
      | cons z zs =>
          have hz := hc.good.live z (List.mem_cons_self ..)
          rw [advance]
          by_cases h1 : z.value > doc
          · rw [if_pos h1]
            refine ⟨z :: zs, ?_, hc⟩
            have : S doc = false := by
              cases hs : S doc with
              | false => rfl
              | true =>
                  obtain ⟨it, h, hr⟩ := (hc.mem doc (Nat.le_refl _)).mp hs
                  have htop := IsHeap.top_le hc.good.heap it h
                  obtain ⟨tl, t1, t2, t3⟩ := (hc.good.live it h).rest_eq
                  rw [t1] at hr
                  rcases List.mem_cons.mp hr with hr | hr
                  · omega
                  · have := t2 _ hr; omega
            rw [this]
          · rw [if_neg h1]
            by_cases h2 : z.value < doc
            · rw [if_pos h2]
              obtain ⟨z', g1, g2, g3, g4, g5⟩ := live_nextGeq hz hdoc (Nat.le_of_lt h2)
              obtain ⟨q', r1, r2, r3⟩ := restore_spec std (z' := z') hc.good.heap z'.hasNext
              rw [g1, M.ok_bind, r1, M.ok_bind]
              have hsub : ∀ it, it ∈ q' ↔ (z'.hasNext = true ∧ it = z') ∨ it ∈ zs := by
                intro it
                rw [r3.mem_iff]
                cases z'.hasNext <;> simp
              have hc' : Covers x.inverted u S q' doc := by
                refine ⟨⟨r2, ?_⟩, ?_⟩
                · intro it hit
                  rcases (hsub it).mp hit with ⟨a, rfl⟩ | a
                  · exact g4 a
                  · exact hc.good.live it (List.mem_cons_of_mem _ a)
                · intro d hd
                  rw [hc.mem d hd]
                  constructor
                  · rintro ⟨it, hit, hr⟩
                    rcases List.mem_cons.mp hit with rfl | hit
                    · have hr' := (g3 d hd).mpr hr
                      cases hh : z'.hasNext with
                      | true => exact ⟨z', (hsub z').mpr (Or.inl ⟨hh, rfl⟩), hr'⟩
                      | false => rw [(g5 hh).1] at hr'; simp at hr'
                    · exact ⟨it, (hsub it).mpr (Or.inr hit), hr⟩
                  · rintro ⟨it, hit, hr⟩
                    rcases (hsub it).mp hit with ⟨a, rfl⟩ | a
                    · exact ⟨z, List.mem_cons_self .., (g3 d hd).mp hr⟩
                    · exact ⟨it, List.mem_cons_of_mem _ a, hr⟩
              by_cases h3 : z'.value = doc
              · rw [if_pos h3]
                have : S doc = true := by
                  rw [hc'.mem doc (Nat.le_refl _)]
                  cases hh : z'.hasNext with
                  | true =>
                      obtain ⟨tl, t1, _⟩ := (g4 hh).rest_eq
                      exact ⟨z', (hsub z').mpr (Or.inl ⟨hh, rfl⟩), by rw [t1, h3]; simp⟩
                  | false => have := (g5 hh).2; omega
                rw [this]
                exact ⟨q', rfl, hc'⟩
              · rw [if_neg h3]
                apply ih q' hc'
                have hl : (q'.filter (fun z => decide (z.value < doc))).length =
                    (zs.filter (fun z => decide (z.value < doc))).length := by
                  rw [(r3.filter _).length_eq]
                  cases z'.hasNext with
                  | false => rfl
                  | true =>
                      have : ¬ z'.value < doc := by omega
                      simp [this]
                rw [hl]
                simp [h2] at hfuel
                omega
            · rw [if_neg h2]
              have : z.value = doc := by omega
              have : S doc = true := by
                rw [hc.mem doc (Nat.le_refl _)]
                obtain ⟨tl, t1, _⟩ := hz.rest_eq
                exact ⟨z, List.mem_cons_self .., by rw [t1, this]; simp⟩
              rw [this]
              exact ⟨z :: zs, rfl, hc⟩

theorem conjLoop_spec (std : StdLib) {x : Index3} {u : Nat} {S : Nat → Bool} (k : Nat) {σ : Type} {I : DocIter σ} :
    ∀ (R : List Nat) (fuel : Nat) (it : σ) (q : List CEI) (scores : List Nat) (n : Nat), I.Enum it R →
    R.Pairwise (· < ·) → (∀ d ∈ R, d < u) → (∀ d ∈ R, Covers x.inverted u S q d) → R.length < fuel → n < k → k ≤ scores.length →
    ∃ scores' n', conjLoop std x I k fuel it q scores n = .ok (scores', n') ∧ Filled S k R scores n scores' n' := by
  intro R
  induction R with
  | nil =>
      intro fuel it q scores n he hs hR hq hfuel hn hk
      obtain ⟨fuel, rfl⟩ : ∃ f, fuel = f + 1 := ⟨fuel - 1, by simp at hfuel; omega⟩
      have he : I.hasNext it = false := he
      exact ⟨scores, n, by rw [conjLoop, he]; rfl, Filled.nil⟩
  | cons d R ih =>
      intro fuel it q scores n he hs hR hq hfuel hn hk
      obtain ⟨fuel, rfl⟩ : ∃ f, fuel = f + 1 := ⟨fuel - 1, by omega⟩
      simp only [List.length_cons] at hfuel
      obtain ⟨e1, e2, it', e3, e4⟩ := he
      rw [List.pairwise_cons] at hs
      have hd := hR d (by simp)
      have hqd := hq d (by simp)
      rw [conjLoop, e1, Bool.true_and]
      by_cases hqe : q = []
      · subst hqe
        refine ⟨scores, n, rfl, Filled.of_none ?_⟩
        intro y hy
        cases hS : S y with
        | false => rfl
        | true => obtain ⟨it, h, _⟩ := ((hq y hy).mem y (Nat.le_refl _)).mp hS; simp at h
      · have hqe' : (!q.isEmpty) = true := by cases q with
          | nil => exact absurd rfl hqe
          | cons => rfl
        rw [hqe', if_pos rfl, e2]
        obtain ⟨q', a1, a2⟩ := advance_spec std (x := x) hd (q.length + 1) q hqd
          (Nat.lt_succ_of_le (List.length_filter_le _ _))
        rw [a1, M.ok_bind]
        dsimp only
        have hq' : ∀ y ∈ R, Covers x.inverted u S q' y := fun y hy => a2.mono (Nat.le_of_lt (hs.1 y hy))
        cases hp : S d with
        | false =>
            rw [if_neg (by simp), e3, M.ok_bind]
            obtain ⟨s', n', h1, h2⟩ := ih fuel it' q' scores n e4 hs.2 (fun d hd => hR d (by simp [hd])) hq' (by omega) hn hk
            exact ⟨s', n', h1, h2.skip hp⟩
        | true =>
            rw [if_pos rfl, wr_ok (by omega), M.ok_bind]
            by_cases hk1 : n + 1 = k
            · rw [if_pos hk1]
              exact ⟨_, _, rfl, Filled.last hp hk1 (by omega)⟩
            · rw [if_neg hk1, e3, M.ok_bind]
              obtain ⟨s', n', h1, h2⟩ := ih fuel it' q' (scores.set n d) (n + 1) e4 hs.2 (fun d hd => hR d (by simp [hd])) hq'
                (by omega) (by omega) (by simpa using hk)
              exact ⟨s', n', h1, h2.more hp hn (by omega)⟩

/-- the documents of the lists of the terms `[a, b]`, counted from 1 -/
def inLists (lists : List (List Nat)) (a b : Nat) (d : Nat) : Bool :=
  ((lists.drop (a - 1)).take (b + 1 - a)).any (fun l => l.contains d)

theorem conjScan_spec (std : StdLib) {x : Index3} {u : Nat} {lists : List (List Nat)} (h : x.inverted.Rep u lists) {r : Range}
    (ha : 1 ≤ r.b) (hab : r.b ≤ r.e) (hb : r.e ≤ lists.length) {k : Nat} {σ : Type} {I : DocIter σ} {it : σ} {R : List Nat}
    {scores : List Nat} (he : I.Enum it R) (hs : R.Pairwise (· < ·)) (hR : ∀ d ∈ R, d < u) (hk : 1 ≤ k) (hk' : k ≤ scores.length) :
    ∃ scores' n', conjScan std x I it r k scores = .ok (scores', n') ∧
      Filled (inLists lists r.b r.e) k R scores 0 scores' n' := by
  obtain ⟨q, q1, q2, q3⟩ := HeapTopK.start_spec std h ha (by omega) hb
  unfold conjScan
  rw [q1, M.ok_bind]
  apply conjLoop_spec std k R _ it _ scores 0 he hs hR ?_ ?_ hk hk'
  · intro d hd
    refine ⟨q2, ?_⟩
    intro y _
    have := q3.mem_iff (a := y)
    rw [List.mem_flatMap, List.mem_flatten] at this
    rw [this, inLists, List.any_eq_true]
    simp
  · rw [h.docs]
    have hn : R.Nodup := hs.imp (fun h => Nat.ne_of_lt h)
    have := nodup_subset_length hn (B := List.range u) (fun d hd => List.mem_range.mpr (hR d hd))
    simp at this; omega

end Index3

end AC
