import Verif.Proofs.DebugStoreSeq
import Verif.Props.PostingLists
import Verif.Props.Sequences
import Verif.Props.CompactVector
/-!
# C88: the storage classes in a build with assertions
-/
namespace AC.Props

/-- performing a call, with assertions -/
def Call.runD (v : BV) (it : CEI) : Call → M CEI
  | .next => it.nextD v
  | .access i => it.accessD v i
  | .nextGeq x => it.nextGeqD v x
  | .nextGeqByScan x => it.nextGeqByScanD v x

/-- performing calls one after the other, with assertions -/
def runCallsD (v : BV) : List Call → CEI → M CEI
  | [], it => .ok it
  | c :: cs, it => do
      let it ← c.runD v it
      runCallsD v cs it

theorem callD_spec {v : BV} {base u : Nat} {xs : List Nat} (hr : CEF.Rep v.bits base u xs) (hb : ∀ x ∈ xs, x < u)
    (c : Call) {it : CEI} {p : Nat} (h : CEF.At v base u xs it p) (ha : c.Allowed xs u p) :
    ∃ it', c.runD v it = .ok it' ∧ CEF.At v base u xs it' (c.moves xs p) := by
  have hn := (h.ctx hr).ok.n
  have hp := h.pos
  cases c with
  | next =>
      have ha : p < xs.length := ha
      show ∃ it', it.nextD v = .ok it' ∧ _
      rw [CEI.nextD_eq v it (by omega)]
      exact call_spec hr hb .next h ha
  | access i =>
      have ha : i ≤ xs.length := ha
      show ∃ it', it.accessD v i = .ok it' ∧ _
      rw [CEI.accessD_eq v it i (by omega)]
      exact call_spec hr hb (.access i) h ha
  | nextGeq x =>
      show ∃ it', it.nextGeqD v x = .ok it' ∧ _
      rw [CEI.nextGeqD_eq v it x]
      exact call_spec hr hb (.nextGeq x) h ha
  | nextGeqByScan x =>
      obtain ⟨it1, e1, e2⟩ := CEF.nextGeqByScanD_spec hr x h
      show ∃ it', it.nextGeqByScanD v x = .ok it' ∧ _
      rw [e2]
      exact call_spec hr hb (.nextGeqByScan x) e1 trivial

theorem runCallsD_spec {v : BV} {base u : Nat} {xs : List Nat} (hr : CEF.Rep v.bits base u xs) (hb : ∀ x ∈ xs, x < u) :
    ∀ (cs : List Call) (p q : Nat) (it : CEI), CEF.At v base u xs it p → History xs u cs p q →
      ∃ it', runCallsD v cs it = .ok it' ∧ CEF.At v base u xs it' q := by
  intro cs
  induction cs with
  | nil => intro p q it h hh; exact ⟨it, rfl, by rw [← show p = q from hh]; exact h⟩
  | cons c cs ih =>
      intro p q it h hh
      obtain ⟨it1, e1, e2⟩ := callD_spec hr hb c h hh.1
      obtain ⟨it', f1, f2⟩ := ih _ _ it1 e2 hh.2
      refine ⟨it', ?_, f2⟩
      unfold runCallsD
      rw [e1]; exact f1

/-- **C88**, posting lists: in a build with assertions, appending a list makes the same bit vector as in one without, and
whatever the history of allowed calls on an iterator over it, no assertion fails: the iterator is where the calls lead, with
the value there; `prev_value` and `intersects` answer as in `C20_prev_intersects`. -/
theorem C88_list (b : BVB) (hb : b.WF) (u : Nat) (xs : List Nat) (h : PostingList u xs) :
    ∃ b', CEF.buildD b u xs = .ok b' ∧ CEF.build b u xs = .ok b' ∧
      ∀ more : BVB, more.WF → b'.size ≤ more.size → (∀ i, i < b'.size → bitAt more.bits i = bitAt b'.bits i) →
      ∀ after : W, ∃ it, CEI.mkD (BV.build more after) b.size u xs.length = .ok it ∧
        ∀ cs q, History xs u cs 0 q →
          ∃ it', runCallsD (BV.build more after) cs it = .ok it' ∧ it'.pos = q ∧ q ≤ xs.length ∧
            it'.value = xs[q]?.getD u ∧
            it'.prevValueD (BV.build more after) = .ok (if q = 0 then 0 else xs.getD (q - 1) 0) ∧
            ∀ r : Range, ∃ ans it'', it'.intersectsD (BV.build more after) r = .ok (ans, it'') ∧
              (ans = true ↔ ∃ x ∈ xs, r.b ≤ x ∧ x ≤ r.e) := by
  obtain ⟨b', b1, b2, b3, b4, b5, b6⟩ := CEF.build_spec b u xs hb h.valid
  refine ⟨b', by rw [CEF.buildD_eq b h.valid]; exact b1, b1, ?_⟩
  intro more m1 m2 m3 after
  have hr : CEF.Rep (BV.build more after).bits b.size u xs := by
    apply b6.frame
    · have := m1.len
      unfold wordsFor at this
      simp only [BV.build]; omega
    · intro i _ hi
      exact m3 i (by omega)
  obtain ⟨it, i1, i2⟩ := CEF.mk'_spec hr
  refine ⟨it, by rw [CEI.mkD_eq _ _ _ _ (List.length_pos_iff.mpr h.ne)]; exact i1, ?_⟩
  intro cs q hq
  obtain ⟨it', f1, f2⟩ := runCallsD_spec hr h.bound cs 0 q it i2 hq
  refine ⟨it', f1, f2.pos, f2.le, At.final f2, ?_, ?_⟩
  · rw [CEF.prevValueD_spec hr (by simp only [BV.build]; omega) f2]
    by_cases h0 : q = 0
    · unfold CEI.prevValue
      rw [f2.pos, if_pos h0, if_pos h0]
    · rw [if_neg h0]
      exact CEF.prevValue_spec hr f2 (by omega)
  · intro r
    obtain ⟨ans, it'', g1, g2⟩ := CEF.intersects_spec hr r f2
    refine ⟨ans, it'', by rw [CEF.intersectsD_eq hr r f2]; exact g1, g2.trans ?_⟩
    constructor
    · rintro ⟨j, hj, hj2⟩
      rw [List.getD_eq_getElem?_getD, List.getElem?_eq_getElem hj] at hj2
      exact ⟨_, List.getElem_mem hj, hj2⟩
    · rintro ⟨x, hx, hx2⟩
      obtain ⟨j, hj, rfl⟩ := List.getElem_of_mem hx
      refine ⟨j, hj, ?_⟩
      rw [List.getD_eq_getElem?_getD, List.getElem?_eq_getElem hj]
      exact hx2

/-- the hypotheses are met by a list with gaps after other bits, and a history through linear and sampled paths -/
example : PostingList 5000 [1, 2, 700, 701, 4000] ∧ (BVB.mk' 100 true).WF ∧
    History [1, 2, 700, 701, 4000] 5000 [.nextGeq 3, .next, .nextGeqByScan 702, .access 0, .nextGeq 4001] 0 5 := by
  refine ⟨⟨by decide, by decide, by decide, by decide⟩, (BVB.mk'_spec 100 true).1, ?_⟩
  simp [History, Call.Allowed, Call.moves]

/-- outside of the domain, the assertion that guards it: an empty list over an empty universe is stored by a build without
assertions, and stops one with assertions; an element larger than the universe too (as first element) -/
theorem C88_list_guard (b : BVB) : (∃ b', CEF.build b 0 [] = .ok b' ∧ b'.size = b.size + 2) ∧
    CEF.buildD b 0 [] = .error .aborted ∧
    ∀ u x xs, u < x → CEF.buildD b u (x :: xs) = .error .aborted := by
  refine ⟨⟨b.zeroExtend 2, ?_, rfl⟩, rfl, ?_⟩
  · unfold CEF.build
    rw [if_neg (by simp)]
    have hl : (CEF.offsets b.size 0 ([] : List Nat).length).last = b.size + 2 := rfl
    simp only
    rw [hl, Nat.add_sub_cancel_left]
    have hE : (CEF.offsets b.size 0 ([] : List Nat).length).hlen = 2 := rfl
    have hN : (CEF.offsets b.size 0 ([] : List Nat).length).n = 0 := rfl
    unfold CEF.buildLoop CEF.setPtr0s
    rw [hE, hN]
    unfold CEF.setPtr0sLoop
    rw [if_neg (by decide)]
  · intro u x xs hx
    unfold CEF.buildD
    rw [if_neg (by simp), CEF.offsetsD_eq _ _ _ (by simp), M.ok_bind]
    unfold CEF.buildLoopD
    rw [if_neg (by simp)]
    unfold check
    rw [if_neg (by show ¬ x ≤ u; omega)]; rfl

/-- **C88**, sequences: building, random access, pairs, and enumeration from every position, with assertions, do what they do
without (C17, C18). Missing from the claim: `end()` (`C88_false_end`). -/
theorem C88_sequence_partial (xs : List W) (hne : xs ≠ []) (hs : Sorted xs) :
    ∃ e, EF.buildD xs = .ok e ∧ EF.build xs = .ok e ∧
      (∀ i (hi : i < xs.length), e.accessD i = .ok xs[i].toNat) ∧
      (∀ i (hi : i + 1 < xs.length), e.pairD i = .ok ⟨xs[i].toNat, xs[i + 1].toNat⟩) ∧
      ∀ pos n, pos + n ≤ xs.length → pos < xs.length →
        ∃ it, e.atD pos = .ok it ∧ e.scanD n it = .ok (((xs.drop pos).take n).map BitVec.toNat) := by
  obtain ⟨e, e1, e2, e3⟩ := EF.buildD_spec xs hne hs
  have hacc : ∀ i (hi : i < xs.length), e.accessD i = .ok xs[i].toNat :=
    fun i hi => by rw [EF.accessD_eq e3 hi]; exact EF.access_spec e3.rep i hi
  refine ⟨e, e1, e2, hacc, ?_, ?_⟩
  · intro i hi
    unfold EF.pairD
    rw [hacc i (by omega), hacc (i + 1) hi]; rfl
  · intro pos n hn hp
    obtain ⟨it, i1, i2⟩ := EF.at_spec e3.rep pos hp
    exact ⟨it, by rw [EF.atD_eq e3 hp]; exact i1, EF.scanD_spec e3 n pos it hn (fun _ => i2)⟩

/-- the hypotheses are met, with repetitions, gaps and large values -/
example : Sorted [0, 0, 3, 3, 70, 1000000, 0xffffffffffffffff] := by decide

/-- **C88**, sequences made of runs: building and the two searches, with assertions, do what they do without (C19). -/
theorem C88_runs (ps : List Nat) (vs : List W) (hp : Pointers ps vs.length) (hle : ∀ p ∈ ps, p ≤ vs.length) (hne : vs ≠ [])
    (hn : vs.length < 2 ^ 32) (hv : ∀ v ∈ vs, v.toNat < 2 ^ 32) (hr : RunsOK ps vs) :
    ∃ e, EF.buildRunsD vs ps = .ok e ∧ EF.buildRuns vs ps = .ok e ∧
      ∀ k (hk : k + 1 < ps.length), ps[k] < ps[k + 1] →
        (∀ id, id < 2 ^ 32 →
          (∀ i (hi : i < (runOf ps vs k).length), (runOf ps vs k)[i] = id →
            e.findInD ⟨ps[k], ps[k + 1]⟩ id = .ok (ps[k] + i)) ∧
          (id ∉ runOf ps vs k → e.findInD ⟨ps[k], ps[k + 1]⟩ id = .ok NOT_FOUND)) ∧
        (∀ lex : Range, lex.b ≤ lex.e → lex.e < 2 ^ 32 →
          ∃ q, e.findRangeD ⟨ps[k], ps[k + 1]⟩ lex = .ok q ∧ ps[k] ≤ q.b ∧ q.b ≤ q.e ∧ q.e ≤ ps[k + 1] ∧
            ∀ i (hi : i < (runOf ps vs k).length),
              (q.b ≤ ps[k] + i ∧ ps[k] + i < q.e) ↔ (lex.b ≤ (runOf ps vs k)[i] ∧ (runOf ps vs k)[i] ≤ lex.e)) ∧
        e.findRangeD ⟨ps[k], ps[k + 1]⟩ Range.invalid = .ok ⟨ps[k + 1], ps[k + 1]⟩ := by
  have hB : (vs.length + 1) * (2 ^ 32 - 1) < 2 ^ 64 := by
    have : (vs.length + 1) * (2 ^ 32 - 1) ≤ 2 ^ 32 * (2 ^ 32 - 1) := Nat.mul_le_mul_right _ (by omega)
    omega
  obtain ⟨e, xs, e1, e2, e3, e4, e5, e6⟩ := EF.buildRunsD_spec hp hne (2 ^ 32 - 1) (fun v h => by have := hv v h; omega) hB
    (runsMono_of_ok hp hle hr)
  refine ⟨e, e1, e2, ?_⟩
  intro k hk hlt
  have hrun := runAt_of_build e4 e6 k hk hlt (hle _ (List.getElem_mem _)) (hr k hk)
  have hrep := EF.seqD_rep e3
  have hNF : (xs.map BitVec.toNat).length ≤ NOT_FOUND := by
    rw [List.length_map, e4]; unfold NOT_FOUND; omega
  have hle' := hle _ (List.getElem_mem hk)
  have hup : Seq.upperOf (xs.map BitVec.toNat) ⟨ps[k], ps[k + 1]⟩ + 2 ^ 32 ≤ 2 ^ 64 := by
    unfold Seq.upperOf
    simp only
    split
    · omega
    · rw [List.getD_eq_getElem?_getD, List.getElem?_map, List.getElem?_eq_getElem (by omega)]
      have h1 := e5 (ps[k] - 1) (by omega)
      have h2 : (ps[k] - 1 + 1) * (2 ^ 32 - 1) ≤ (2 ^ 32 - 1) * (2 ^ 32 - 1) := Nat.mul_le_mul_right _ (by omega)
      simp only [Option.map_some, Option.getD_some]
      omega
  have hval : (⟨ps[k], ps[k + 1]⟩ : Range).validAssert := by
    unfold Range.validAssert NOT_FOUND
    simp only; omega
  have hin : (⟨ps[k], ps[k + 1]⟩ : Range).e ≤ e.size := by
    rw [e3.rep.size, e4]; exact hle'
  have f1 : ∀ id, e.findInD ⟨ps[k], ps[k + 1]⟩ id = e.seqD.findIn ⟨ps[k], ps[k + 1]⟩ id := by
    intro id
    unfold EF.findInD
    rw [check_bind hval, check_bind hin]
  have f2 : ∀ lex, e.findRangeD ⟨ps[k], ps[k + 1]⟩ lex = e.seqD.findRange ⟨ps[k], ps[k + 1]⟩ lex := by
    intro lex
    unfold EF.findRangeD
    rw [check_bind hval, check_bind hin]
  refine ⟨?_, ?_, ?_⟩
  · intro id hid
    simp only [f1]
    exact Seq.findIn_spec hrep hrun hNF id (by omega)
  · intro lex hl hle
    rw [f2]
    exact Seq.findRange_spec hrep hrun hNF lex hl (by omega)
  · rw [f2]
    refine Seq.findRange_invalid hrep hrun hNF (fun id hid => ?_) (by omega)
    obtain ⟨v, hm, rfl⟩ := List.mem_map.mp hid
    exact hv v (List.mem_of_mem_drop (List.mem_of_mem_take hm))

/-- the hypotheses are met by runs with an empty one between them -/
example : Pointers [0, 3, 3, 5] [7, 9, 20, 1, 4].length ∧ RunsOK [0, 3, 3, 5] [7, 9, 20, 1, 4] := by
  refine ⟨⟨by decide, rfl, by decide, ?_⟩, ?_⟩
  · intro i hi; exact ⟨5, by decide, by simpa using hi⟩
  · intro k hk
    have : k = 0 ∨ k = 1 ∨ k = 2 := by simp at hk; omega
    rcases this with h | h | h <;> subst h <;> decide

/-- **C88**, fixed-width vectors: building, `set`, `operator[]` and `access`, with assertions, do what they do without (C16) -/
theorem C88_vector (vs : List W) (w : Nat) (after : W) (h1 : 1 ≤ w) (h64 : w ≤ 64) :
    (∃ c, CV.buildD vs w after = .ok c ∧ CV.build vs w after = .ok c ∧
      (∀ i (hi : i < vs.length), ∃ x, c.getD' i = .ok x ∧ x.toNat = vs[i].toNat % 2 ^ w) ∧
      (w ≤ 57 → ∀ i (hi : i < vs.length), ∃ x, c.accessD i = .ok x ∧ x.toNat = vs[i].toNat % 2 ^ w)) ∧
    ∀ os : List (Nat × W), (∀ o ∈ os, o.1 < vs.length ∧ o.2.toNat < 2 ^ w) →
      ∃ b0 b1 b2, CVB.mk' vs.length w = .ok b0 ∧ b0.fillD vs = .ok b1 ∧ b1.setsD os = .ok b2 ∧
        ∀ i (hi : i < (assign vs os).length), ∃ x, (b2.done after).getD' i = .ok x ∧
          x.toNat = (assign vs os)[i].toNat % 2 ^ w := by
  refine ⟨?_, ?_⟩
  · obtain ⟨c, c1, c2, _⟩ := CV.build_spec vs w after h1 h64
    refine ⟨c, by rw [CV.buildD_eq]; exact c1, c1, ?_, ?_⟩
    · intro i hi
      obtain ⟨x, x1, x2⟩ := CV.get_spec c2 i hi
      refine ⟨x, ?_, x2⟩
      unfold CV.getD'
      rw [check_bind (by rw [c2.size]; exact hi)]; exact x1
    · intro h57 i hi
      obtain ⟨x, x1, x2⟩ := CV.access_spec c2 h57 i hi
      refine ⟨x, ?_, x2⟩
      unfold CV.accessD
      rw [check_bind (by rw [c2.size]; exact hi)]; exact x1
  · intro os ho
    obtain ⟨b0, e0, _⟩ := CVB.mk'_rep vs.length w after h1 h64
    obtain ⟨b1, e1, e2, e3⟩ := CVB.fill_rep vs w after h1 h64
    rw [e0] at e1
    have e1 : b0.fill vs = .ok b1 := e1
    have hw0 : b0.width ≠ 0 := by
      unfold CVB.mk' at e0
      rw [if_neg (by omega)] at e0
      cases e0
      simp only; omega
    subst e2
    have hw1 : b1.width ≠ 0 := by omega
    obtain ⟨b2, f1, f2, f3⟩ := CVB.sets_spec after os b1 vs h1 h64 e3 (fun o h => ho o h)
    refine ⟨b0, b1, b2, e0, by rw [CVB.fillD_eq vs b0 hw0]; exact e1,
      by rw [CVB.setsD_eq os b1 hw1 (fun o h => by have := (ho o h).1; have := e3.size; simp only [CVB.done] at this; omega)]; exact f1, ?_⟩
    intro i hi
    obtain ⟨x, x1, x2⟩ := CV.get_spec f3 i hi
    refine ⟨x, ?_, x2⟩
    unfold CV.getD'
    rw [check_bind (by rw [f3.size]; exact hi)]; exact x1

/-- the hypotheses are met by assignments that straddle words and that overwrite each other -/
example : (∀ o ∈ [(6, 1000), (0, 3), (6, 777)], (o : Nat × W).1 < [5, 1023, 0, 77, 512, 1, 2, 3].length ∧ o.2.toNat < 2 ^ 10) := by
  decide

/-- **C88** is false for the iterator past the last element of a sequence, for every sequence: `end()` stops a build with
assertions, and reads outside of the bitmap of the high parts in a build without -/
theorem C88_false_end (xs : List W) (hne : xs ≠ []) (hs : Sorted xs) :
    ∃ e, EF.buildD xs = .ok e ∧ e.endItD = .error .aborted ∧ e.endIt = .error .oob := by
  obtain ⟨e, e1, _, e3⟩ := EF.buildD_spec xs hne hs
  exact ⟨e, e1, EF.endItD_aborts e3, EF.endIt_oob e3⟩

/-- the hypotheses are met -/
example : ([3, 5, 9] : List W) ≠ [] ∧ Sorted [3, 5, 9] := by decide

end AC.Props
