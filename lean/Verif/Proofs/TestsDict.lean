import Verif.Proofs.TestsCommon
import Verif.Proofs.LossyDict
import Verif.Proofs.DictBench
import Verif.Proofs.IntBucketSize
import Verif.Proofs.LostCompletions
import Verif.Props.BucketSize
/-!
# The tests of the dictionaries
-/
namespace AC.Tests
open Spec FC

/-- `extract` of the dictionary `d` decodes the terms of `K` -/
def Extracts (d : FC) (K : List Str) : Prop :=
  ∀ i (hi : i < K.length) (dec : Str), dec.length = 2 * MAX_CHARS →
    ∃ dec', FcDict.extract d (i + 1) dec 0 = .ok (dec', K[i].length) ∧ dec'.length = 2 * MAX_CHARS ∧ dec'.take K[i].length = K[i]

theorem Extracts.of_rep {d : FC} {K : List Str} (R : Rep Elem.byte MAX_CHARS d K) (n : Nat) : Extracts { d with size := n } K := by
  intro i hi dec hd
  obtain ⟨dec', e1, e2, _, e4⟩ := R.extract i hi dec 0 (by rw [hd]; decide)
  refine ⟨dec', ?_, by omega, by simpa using e4⟩
  simp only [FcDict.extract, if_neg (Nat.succ_ne_zero i), Nat.add_sub_cancel, FC.extractAt_size]
  exact e1

theorem rankOf_prefix {K L : List Str} (h : K <+: L) {t : Str} (ht : t ∈ K) : rankOf K t = rankOf L t := by
  obtain ⟨r, rfl⟩ := h
  simp [rankOf, List.idxOf_append, ht]

theorem termsOk_spec {L K : List Str} (v : ValidTerms L) (hK : K <+: L) {d : FC} (hl : Locates d K FcDict.bufSize) (he : Extracts d K) :
    ∀ (ts : List Str), (∀ t ∈ ts, t ∈ L) → ∀ buf dec : Str, buf.length = FcDict.bufSize → dec.length = 2 * MAX_CHARS →
      ∃ buf', termsOk d L ts buf dec = .ok (decide (∀ t ∈ ts, t ∈ K), buf') ∧ buf'.length = FcDict.bufSize
  | [], _, buf, _, hb, _ => ⟨buf, by simp [termsOk], hb⟩
  | t :: ts, hts, buf, dec, hb, hd => by
      have htL := hts t (List.mem_cons_self ..)
      obtain ⟨buf1, e1, l1⟩ := hl t (v.text t htL) buf hb
      have hloc : locate L t = .ok (rankOf L t) := by
        have := locate_spec v.sorted (List.idxOf_lt_length_of_mem htL)
        rw [List.getElem_idxOf] at this
        exact this
      unfold termsOk
      rw [hloc, M.ok_bind, e1, M.ok_bind]
      dsimp only
      by_cases hm : t ∈ K
      · rw [if_pos hm, rankOf_prefix hK hm, if_neg (by simp)]
        obtain ⟨dec1, f1, f2, f3⟩ := he (K.idxOf t) (List.idxOf_lt_length_of_mem hm) dec hd
        rw [List.getElem_idxOf] at f1 f3
        have : K.idxOf t + 1 = rankOf L t := rankOf_prefix hK hm
        rw [this] at f1
        have hlen : t.length % 256 = t.length := Nat.mod_eq_of_lt (by have := v.len t htL; omega)
        rw [f1, M.ok_bind]
        dsimp only
        rw [hlen, if_neg (by simp), if_neg (by simp [f3])]
        obtain ⟨buf2, g1, g2⟩ := termsOk_spec v hK hl he ts (fun t h => hts t (List.mem_cons_of_mem _ h)) buf1 dec1 (by omega) f2
        refine ⟨buf2, ?_, g2⟩
        rw [g1]
        simp [hm]
      · rw [if_neg hm, if_pos (rankOf_ne v htL).symm]
        exact ⟨buf1, by simp [hm], by omega⟩

theorem mem_prefixes {t p : Str} : p ∈ prefixes t ↔ p ≠ [] ∧ p <+: t := by
  unfold prefixes
  simp only [List.mem_map, List.mem_range]
  constructor
  · rintro ⟨i, hi, rfl⟩
    refine ⟨?_, List.take_prefix _ _⟩
    intro h
    have := congrArg List.length h
    rw [List.length_take, List.length_nil] at this
    omega
  · rintro ⟨h1, h2⟩
    have h3 := h2.length_le
    have h4 : 0 < p.length := List.length_pos_iff.mpr h1
    refine ⟨p.length - 1, by omega, ?_⟩
    rw [show p.length - 1 + 1 = p.length by omega]
    exact (List.prefix_iff_eq_take.mp h2).symm

theorem prefixesOk_spec {L : List Str} (v : ValidTerms L) {d : FC} (R : Rep Elem.byte MAX_CHARS d L) :
    ∀ (ps : List Str), (∀ p ∈ ps, p ≠ [] ∧ ∃ t ∈ L, p <+: t) → ∀ buf : Str, buf.length = FcDict.bufSize →
      prefixesOk d L ps buf = .ok (decide (∀ p ∈ ps, ¬ (p <+: L[0]'R.pos ∧ p ≠ L[0]'R.pos)))
  | [], _, _, _ => by simp [prefixesOk]
  | p :: ps, hps, buf, hb => by
      obtain ⟨hp0, t, ht, hpt⟩ := hps p (List.mem_cons_self ..)
      have hp : IsText p := fun x hx => v.text t ht x (hpt.subset hx)
      obtain ⟨i, hi, rfl⟩ := List.getElem_of_mem ht
      obtain ⟨r, e1, e2, e3, e4⟩ := locatePrefix_spec v.sorted v.text hp
      obtain ⟨g, buf1, f1, f2, f3⟩ := FcDict.locatePrefix_exact v R hp buf (by rw [hb]; decide)
      have hir := (e4 i hi).mpr hpt
      have hpos := R.pos
      have hcnt := v.count
      unfold prefixesOk
      rw [e1, M.ok_bind, f1, M.ok_bind]
      dsimp only
      rw [if_neg (show r.e ≠ 0 by omega)]
      by_cases h0 : p <+: L[0] ∧ p ≠ L[0]
      · have hb0 : r.b = 0 := by have := (e4 0 hpos).mpr h0.1; omega
        rw [if_neg]
        · simp [h0]
        · rintro ⟨g1, g2⟩
          rw [hb0] at g1
          rcases f3 with ⟨rfl, _⟩ | ⟨_, _, f3⟩
          · revert g1; decide
          · have := (f3 0 hpos).mp ⟨by omega, by omega⟩
            exact this.2 ⟨rfl, hp0, h0.2⟩
      · have hmatch : ∀ j (hj : j < L.length), p <+: L[j] → ¬ (j = 0 ∧ p ≠ [] ∧ p ≠ L[j]) := by
          rintro j hj hpj ⟨rfl, _, h⟩
          exact h0 ⟨hpj, h⟩
        rcases f3 with ⟨_, f3⟩ | ⟨f3, f4, f5⟩
        · exact absurd (f3 i hi hpt) (hmatch i hi hpt)
        · have hg : ∀ j (hj : j < L.length), (g.b ≤ j ∧ j ≤ g.e) ↔ (r.b ≤ j ∧ j < r.e) := by
            intro j hj
            rw [f5 j hj, e4 j hj]
            exact ⟨fun h => h.1, fun h => ⟨h, hmatch j hj h⟩⟩
          have a1 := (hg g.b (by omega)).mp ⟨by omega, f3⟩
          have a2 := (hg g.e (by omega)).mp ⟨f3, by omega⟩
          have a3 := (hg r.b (by omega)).mpr ⟨by omega, by omega⟩
          have a4 := (hg (r.e - 1) (by omega)).mpr ⟨by omega, by omega⟩
          rw [if_pos ⟨by omega, by omega⟩, prefixesOk_spec v R ps (fun p h => hps p (List.mem_cons_of_mem _ h)) buf1 (by omega)]
          simp only [List.mem_cons, forall_eq_or_imp, h0, not_false_eq_true, true_and]

/-- the test of the dictionary of the terms passes exactly when no term is lost and the first term has no proper prefix to look up -/
theorem terms_spec {L : List Str} (v : ValidTerms L) (hne : L ≠ []) :
    terms L = .ok (decide (L.length % 17 ≠ 0 ∧ (L.head hne).length ≤ 1)) := by
  have hpos : 0 < L.length := List.length_pos_iff.mpr hne
  have hhead : L.head hne = L[0] := (List.getElem_zero hpos).symm
  by_cases hn : L.length % 17 = 0
  · obtain ⟨d, hb, hlossy⟩ := Lossy.build v hn hne
    have hloc := hlossy.locates v
    obtain ⟨d', rfl, R⟩ := hlossy.rep
    have h17 := hlossy.pos
    obtain ⟨buf1, e1, l1⟩ := termsOk_spec v (List.take_prefix _ _) hloc (Extracts.of_rep R L.length) L (fun _ h => h)
      (List.replicate FcDict.bufSize 0) (List.replicate (2 * MAX_CHARS) 0) (by simp) (by simp)
    have hlost : ¬ ∀ t ∈ L, t ∈ L.take (L.length - 16) := by
      intro h
      obtain ⟨j, hj, e⟩ := List.getElem_of_mem (h L[L.length - 1] (List.getElem_mem _))
      rw [List.getElem_take] at e
      rw [List.length_take] at hj
      have := sorted_lt v.sorted (i := j) (j := L.length - 1) (by omega) (by omega)
      rw [e] at this
      exact lt_irrefl' _ this
    unfold terms
    rw [hb, M.ok_bind, e1, M.ok_bind]
    simp only [decide_eq_false hlost]
    simp [hn]
  · obtain ⟨d, hb, R⟩ := FcDict.build_rep v (Nat.le_refl _) v.len hn
    have hsz : ({ d with size := d.size } : FC) = d := rfl
    have hex := Extracts.of_rep R d.size
    rw [hsz] at hex
    obtain ⟨buf1, e1, l1⟩ := termsOk_spec v (List.prefix_refl L) (Locates.of_rep v R (by decide)) hex L (fun _ h => h)
      (List.replicate FcDict.bufSize 0) (List.replicate (2 * MAX_CHARS) 0) (by simp) (by simp)
    unfold terms
    rw [hb, M.ok_bind, e1, M.ok_bind]
    simp only [decide_eq_true (show (∀ t ∈ L, t ∈ L) from fun _ h => h)]
    rw [if_pos trivial, prefixesOk_spec v R _ ?_ buf1 l1]
    · congr 1
      rw [decide_eq_decide, hhead]
      constructor
      · intro h
        refine ⟨hn, Nat.le_of_not_lt fun h2 => ?_⟩
        refine h (L[0].take 1) (List.mem_flatMap.mpr ⟨L[0], List.getElem_mem _, mem_prefixes.mpr ⟨?_, List.take_prefix _ _⟩⟩)
          ⟨List.take_prefix _ _, ?_⟩
        · intro h; have := congrArg List.length h; rw [List.length_take, List.length_nil] at this; omega
        · intro h; have := congrArg List.length h; rw [List.length_take] at this; omega
      · rintro ⟨_, h⟩ p hp ⟨h1, h2⟩
        obtain ⟨t, _, ht⟩ := List.mem_flatMap.mp hp
        have h3 := (mem_prefixes.mp ht).1
        have h4 : 0 < p.length := List.length_pos_iff.mpr h3
        exact h2 (h1.eq_of_length_le (by omega))
    · intro p hp
      obtain ⟨t, ht, hpt⟩ := List.mem_flatMap.mp hp
      exact ⟨(mem_prefixes.mp hpt).1, t, ht, (mem_prefixes.mp hpt).2⟩

theorem _root_.AC.IntDict.locateB_size {B : Nat} {d : FC} {n : Nat} (h : FC.tailB B n = FC.tailB B d.size) (c buf : Ids) :
    IntDict.locateB B { d with size := n } c buf = IntDict.locateB B d c buf := by
  simp only [IntDict.locateB, IntDict.locateInB, FC.scanB_size h, FC.locateBucket_size]

section
variable {C K : List Ids} {d : FC} (v : ValidIds C) (hK : K <+: C) (R : RepB 16 Elem.u32 64 d K) (ht : tailB 16 C.length = tailB 16 d.size)

include v hK R ht in
theorem idsOk_step (id : Nat) (hid : id < K.length) (cs : List Ids) (buf dec : Ids) (hb : buf.length = IntDict.bufSize)
    (hd : dec.length = 2 * MAX_TERMS) :
    ∃ buf' dec', idsOk { d with size := C.length } (K[id] :: cs) id buf dec = idsOk { d with size := C.length } cs (id + 1) buf' dec' ∧
      buf'.length = IntDict.bufSize ∧ dec'.length = 2 * MAX_TERMS := by
  have vK : ValidIds K := by
    obtain ⟨r, rfl⟩ := hK
    exact ⟨(List.pairwise_append.mp v.sorted).1, fun s hs => v.elems s (List.mem_append_left _ hs),
      fun s hs => v.len s (List.mem_append_left _ hs), by have := v.count; rw [List.length_append] at this; omega⟩
  obtain ⟨dec', e1, e2, _, e3⟩ := R.extract id hid dec 0 (by rw [hd]; decide)
  obtain ⟨buf', f1, f2⟩ := IntDict.locateB_mem vK R hid rfl buf (by rw [hb]; decide)
  have hlen : K[id].length % 256 = K[id].length := Nat.mod_eq_of_lt (by have := vK.len _ (List.getElem_mem hid); omega)
  refine ⟨buf', dec', ?_, by omega, by omega⟩
  conv => lhs; unfold idsOk
  rw [IntDict.extract, FC.extractAt_size, e1, M.ok_bind]
  dsimp only
  rw [hlen, if_neg (by simp), if_neg (by simpa using e3), show dec'.take K[id].length = K[id] by simpa using e3,
    ← show IntDict.locateB 16 { d with size := C.length } = IntDict.locate { d with size := C.length } from rfl,
    IntDict.locateB_size ht, f1, M.ok_bind]
  dsimp only
  have := vK.count
  rw [if_neg (show id ≠ INVALID_TERM by show id ≠ 2 ^ 32 - 1; omega), if_neg (by simp)]

include v hK R ht in
theorem idsOk_spec (hp : PastB 16 Elem.u32 64 d K.length) : ∀ (cs : List Ids) (id : Nat), C.drop id = cs →
    ∀ buf dec : Ids, buf.length = IntDict.bufSize → dec.length = 2 * MAX_TERMS →
      idsOk { d with size := C.length } cs id buf dec = if C.length ≤ max id K.length then .ok true else .error .oob
  | [], id, h, _, _, _, _ => by
      have : C.length ≤ id := by
        have := congrArg List.length h
        rw [List.length_drop, List.length_nil] at this
        omega
      simp [idsOk]; omega
  | c :: cs, id, h, buf, dec, hb, hd => by
      have hlt : id < C.length := by
        have := congrArg List.length h
        rw [List.length_drop, List.length_cons] at this
        omega
      rw [List.drop_eq_getElem_cons hlt] at h
      injection h with h1 h2
      by_cases hid : id < K.length
      · have hc : c = K[id] := by
          rw [← h1]
          obtain ⟨r, rfl⟩ := hK
          rw [List.getElem_append_left hid]
        subst hc
        obtain ⟨buf', dec', e, l1, l2⟩ := idsOk_step v hK R ht id hid cs buf dec hb hd
        rw [e, idsOk_spec hp cs (id + 1) h2 buf' dec' l1 l2]
        have e1 : max (id + 1) K.length = K.length := by omega
        have e2 : max id K.length = K.length := by omega
        rw [e1, e2]
      · unfold idsOk
        rw [IntDict.extract, FC.extractAt_size, hp id (by omega) dec 0 (by rw [hd]; decide), M.error_bind, if_neg (by omega)]

end

/-- the test of the dictionary of the completions passes if no completion is lost, and otherwise reads out of bounds -/
theorem completions_spec {univ : Nat} {rs : List (Nat × Ids)} (v : ValidIds (rs.map (·.2))) (hu : ∀ r ∈ rs, r.1 < univ)
    (hd : (rs.map (·.1)).Nodup) (hne : rs ≠ []) :
    completions univ rs = if rs.length % 17 = 0 then .error .oob else .ok true := by
  obtain ⟨d, m, hb, R, hp⟩ := IntDict.buildB_kept (B := 16) (by omega) v hu hd hne
  rw [Props.C73_default_completions.1] at hb
  unfold completions
  rw [hb, M.ok_bind]
  dsimp only
  have hpos : 0 < rs.length := List.length_pos_iff.mpr hne
  have hlen : (keptOf 16 rs).length = if rs.length % 17 = 0 then rs.length - 16 else rs.length := by
    unfold keptOf
    split
    · simp
    · rfl
  have ht : FC.tailB 16 rs.length = FC.tailB 16 d.size := by
    rw [R.size, List.length_map, hlen]
    simp only [tailB]
    (repeat' split) <;> omega
  have := idsOk_spec (C := rs.map (·.2)) (K := (keptOf 16 rs).map (·.2)) v
    ((keptOf_prefix 16 rs).map _) R (by simpa using ht) (by simpa using hp) (rs.map (·.2)) 0 rfl
    (List.replicate IntDict.bufSize 0) (List.replicate (2 * MAX_TERMS) 0) (by simp) (by simp)
  rw [List.length_map] at this
  refine this.trans ?_
  rw [List.length_map, hlen]
  by_cases h : rs.length % 17 = 0
  · rw [if_pos h, if_pos h, if_neg (by omega)]
  · rw [if_neg h, if_neg h, if_pos (by omega)]

end AC.Tests
