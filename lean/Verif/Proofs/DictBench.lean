import Verif.Proofs.BucketPast
import Verif.Proofs.LostCompletions
import Verif.Proofs.Tools
import Verif.Model.DictBench
import Verif.Spec.DictBench
/-!
# The benchmarks of the dictionaries
-/
namespace AC
open Spec

theorem FcDict.locatePrefixB_size {B : Nat} {d : FC} {n : Nat} (h : FC.tailB B n = FC.tailB B d.size) {p : Str} (hp : p ≠ []) (buf : Str) :
    FcDict.locatePrefixB B { d with size := n } p buf = FcDict.locatePrefixB B d p buf := by
  have hl : ∀ f k lo hi, FcDict.bucketsLoop { d with size := n } p f k lo hi = FcDict.bucketsLoop d p f k lo hi := by
    intro f k
    induction k with
    | zero => intros; rfl
    | succ k ih =>
        intro lo hi
        simp only [FcDict.bucketsLoop, ih]
        rfl
  have hb : FcDict.locateBuckets { d with size := n } p = FcDict.locateBuckets d p := by
    simp only [FcDict.locateBuckets, hl]
    rfl
  have hp' : p.length ≠ 0 := by simpa using hp
  simp only [FcDict.locatePrefixB, if_neg hp', hb, FcDict.beginOffsetB, FcDict.leftLocateB, FcDict.rightLocateB, FC.scanB_size h,
    FC.bucketSizeB_size h]
  rfl

theorem keptOf_facts {α : Type} {B : Nat} {L : List α} (hB : 0 < B) (hne : L ≠ []) :
    (keptOf B L).length % (B + 1) ≠ 0 ∧ FC.tailB B L.length = FC.tailB B (keptOf B L).length := by
  have hpos : 0 < L.length := List.length_pos_iff.mpr hne
  unfold keptOf
  split
  · obtain ⟨q, hq⟩ : ∃ q, L.length = (B + 1) * (q + 1) := by
      obtain ⟨q, hq⟩ := Nat.dvd_of_mod_eq_zero ‹_›
      rcases q with _ | q
      · rw [hq] at hpos; simp at hpos
      · exact ⟨q, hq⟩
    have hq' : L.length - B = (B + 1) * q + 1 := by rw [hq, Nat.mul_succ]; omega
    have hlen : (L.take (L.length - B)).length = (B + 1) * q + 1 := by simp [← hq']
    rw [hlen, hq, FC.tailB_mul, FC.tailB_mul_one hB]
    refine ⟨?_, rfl⟩
    rw [Nat.mul_add_mod, Nat.mod_eq_of_lt (by omega)]; omega
  · exact ⟨by assumption, rfl⟩

theorem keptOf_sublist {α : Type} (B : Nat) (L : List α) : (keptOf B L).Sublist L := by
  unfold keptOf; split
  · exact List.take_sublist _ _
  · exact List.Sublist.refl _

theorem keptOf_prefix {α : Type} (B : Nat) (L : List α) : keptOf B L <+: L := by
  unfold keptOf; split
  · exact List.take_prefix _ _
  · exact List.prefix_refl _

theorem keptOf_length_le {α : Type} (B : Nat) (L : List α) : (keptOf B L).length ≤ L.length := (keptOf_sublist B L).length_le

theorem keptOf_map {α β : Type} (B : Nat) (L : List α) (f : α → β) : keptOf B (L.map f) = (keptOf B L).map f := by
  unfold keptOf
  rw [List.length_map]
  split
  · rw [List.map_take]
  · rfl

theorem keptOf_terms {B : Nat} {L : List Str} (v : ValidTerms L) : ValidTerms (keptOf B L) :=
  ⟨v.sorted.sublist (keptOf_sublist B L), fun s hs => v.text s ((keptOf_sublist B L).subset hs),
    fun s hs => v.len s ((keptOf_sublist B L).subset hs), Nat.lt_of_le_of_lt (keptOf_length_le B L) v.count, by
      unfold keptOf; split
      · exact Nat.lt_of_le_of_lt (sum_take_le ..) v.room
      · exact v.room⟩

theorem keptOf_ids {B : Nat} {L : List Ids} (v : ValidIds L) : ValidIds (keptOf B L) :=
  ⟨v.sorted.sublist (keptOf_sublist B L), fun s hs => v.elems s ((keptOf_sublist B L).subset hs),
    fun s hs => v.len s ((keptOf_sublist B L).subset hs), Nat.lt_of_le_of_lt (keptOf_length_le B L) v.count⟩

theorem FC.buildB_kept {B : Nat} (hB : 0 < B) {E : Elem} {lcpOf : List Nat → List Nat → Nat} {L : List (List Nat)} (hne : L ≠ [])
    {d : FC} (h : FC.buildB B E lcpOf (keptOf B L) = .ok d) (hs : d.size = (keptOf B L).length) :
    FC.buildB B E lcpOf L = .ok { d with size := L.length } := by
  unfold keptOf at h hs
  split at h
  · rw [FC.buildB_mod hB ‹_› hne, h]; rfl
  · rename_i hm
    rw [if_neg hm] at hs
    rw [h, ← hs]

/-- the dictionary of any nonempty list of terms is that of the terms that are kept, up to the stored size -/
theorem FcDict.buildB_kept {B : Nat} (hB : 0 < B) {L : List Str} (v : ValidTerms L) (hne : L ≠ []) :
    ∃ d, FcDict.buildB B L = .ok { d with size := L.length } ∧ FC.RepB B Elem.byte MAX_CHARS d (keptOf B L) ∧
      FC.PastB B Elem.byte MAX_CHARS d (keptOf B L).length ∧ FC.tailB B L.length = FC.tailB B d.size := by
  have v' := keptOf_terms (B := B) v
  obtain ⟨h1, h2⟩ := keptOf_facts hB hne
  obtain ⟨d, hd, R⟩ := FcDict.buildB_rep (B := B) v' (Nat.le_refl _) v'.len h1
  refine ⟨d, FC.buildB_kept hB hne hd R.size, R, ?_, by rw [R.size, h2]⟩
  exact FC.buildB_past FC.good_byte (Nat.le_refl _) h1 (FcDict.weight_lt v')
    (fun s hs => ⟨v'.len s hs, fun c hc => (v'.text s hs c hc).2⟩) (fun _ a b _ _ => FC.lcp_ok b a) hd

theorem keptOf_length {α : Type} {B : Nat} {L : List α} (hB : 0 < B) (hne : L ≠ []) :
    (L.length + B) / (B + 1) ≠ 0 ∧ (keptOf B L).length = (B + 1) * ((L.length + B) / (B + 1) - 1) + 1 + FC.tailB B L.length := by
  have hpos : 0 < L.length := List.length_pos_iff.mpr hne
  unfold keptOf
  split
  · obtain ⟨q, hq⟩ : ∃ q, L.length = (B + 1) * (q + 1) := by
      obtain ⟨q, hq⟩ := Nat.dvd_of_mod_eq_zero ‹_›
      rcases q with _ | q
      · rw [hq] at hpos; simp at hpos
      · exact ⟨q, hq⟩
    have hq' : L.length - B = (B + 1) * q + 1 := by rw [hq, Nat.mul_succ]; omega
    have hlen : (L.take (L.length - B)).length = (B + 1) * q + 1 := by simp [← hq']
    have hnb : (L.length + B) / (B + 1) = q + 1 := by
      rw [hq, Nat.mul_add_div (by omega), Nat.div_eq_of_lt (by omega)]
    rw [hlen, hnb, hq, FC.tailB_mul, Nat.add_sub_cancel]
    exact ⟨by omega, rfl⟩
  · rename_i hn
    have e := Nat.div_add_mod L.length (B + 1)
    rw [FC.nb_split hn, FC.tailB_eq hn, Nat.add_sub_cancel]
    refine ⟨Nat.succ_ne_zero _, ?_⟩
    generalize (B + 1) * (L.length / (B + 1)) = x at *
    generalize L.length % (B + 1) = y at *
    omega

/-- the dictionary of any nonempty list of completions is that of the completions that are kept, up to the stored size -/
theorem IntDict.buildB_kept {B univ : Nat} (hB : 0 < B) {rs : List (Nat × Ids)} (v : ValidIds (rs.map (·.2)))
    (hu : ∀ r ∈ rs, r.1 < univ) (hd : (rs.map (·.1)).Nodup) (hne : rs ≠ []) :
    ∃ d m, IntDict.buildB B univ rs = .ok ({ d with size := rs.length }, m) ∧ FC.RepB B Elem.u32 64 d ((keptOf B rs).map (·.2)) ∧
      FC.PastB B Elem.u32 64 d (keptOf B rs).length := by
  have v' := keptOf_ids (B := B) v
  have hne' : rs.map (·.2) ≠ [] := by simpa using hne
  obtain ⟨h1, h2⟩ := keptOf_facts hB hne'
  obtain ⟨d, hd', R⟩ := IntDict.buildB_fc_rep (B := B) v' h1
  have hb := FC.buildB_kept hB hne' hd' R.size
  obtain ⟨h3, h4⟩ := keptOf_length hB hne
  obtain ⟨m, e1, _⟩ := IntDict.lexAll_spec (keptOf B rs) 0 (List.replicate univ INVALID_TERM)
    (fun r hr => by simpa using hu r ((keptOf_sublist B rs).subset hr)) (hd.sublist ((keptOf_sublist B rs).map _))
  have htake : rs.take (keptOf B rs).length = keptOf B rs := (List.prefix_iff_eq_take.mp (keptOf_prefix B rs)).symm
  refine ⟨d, m, ?_, ?_, ?_⟩
  · unfold IntDict.buildB
    dsimp only
    rw [IntDict.lexLoopB_eq _ _ _ _ _ (fun _ => by rw [← h4]; exact keptOf_length_le B rs), if_neg h3, ← h4, htake, e1, M.ok_bind, hb,
      M.ok_bind]
    simp
  · rw [← keptOf_map]; exact R
  · have := FC.buildB_past FC.good_u32 (Nat.le_refl _) h1 (IntDict.weight_lt v')
      (fun s hs => ⟨Nat.le_of_lt (v'.len s hs), fun c hc => by have := v'.elems s hs c hc; omega⟩) (IntDict.consecOk v') hd'
    rw [keptOf_map, List.length_map] at this
    exact this

namespace DictBench

theorem times_ok {σ α : Type} {f : σ → M (α × σ)} {I : σ → Prop} {Q : α → Prop} (hf : ∀ s, I s → ∃ x s', f s = .ok (x, s') ∧ Q x ∧ I s') :
    ∀ (n : Nat) (s : σ), I s → ∃ xs s', times f n s = .ok (xs, s') ∧ xs.length = n ∧ (∀ x ∈ xs, Q x) ∧ I s'
  | 0, s, h => ⟨[], s, rfl, rfl, by simp, h⟩
  | n + 1, s, h => by
      obtain ⟨x, s1, e1, q1, i1⟩ := hf s h
      obtain ⟨xs, s2, e2, l2, q2, i2⟩ := times_ok hf n s1 i1
      refine ⟨x :: xs, s2, ?_, by simp [l2], ?_, i2⟩
      · simp only [times, e1, M.ok_bind, e2]
      · intro y hy
        rcases List.mem_cons.mp hy with rfl | hy
        · exact q1
        · exact q2 y hy

theorem times_err {σ α : Type} {f : σ → M (α × σ)} {s : σ} {e : Fault} (h : f s = .error e) (n : Nat) : times f (n + 1) s = .error e := by
  simp only [times, h, M.error_bind]

/-- the id that is expected for a string -/
def idOf (K : List Str) (t : Str) : Nat := if t ∈ K then K.idxOf t + 1 else INVALID_TERM

section
variable {B : Nat} {L : List Str} {d : FC} (v : ValidTerms (keptOf B L)) (R : FC.RepB B Elem.byte MAX_CHARS d (keptOf B L))
  (hp : FC.PastB B Elem.byte MAX_CHARS d (keptOf B L).length) (ht : FC.tailB B L.length = FC.tailB B d.size)

include v R ht in
theorem locatePass_ok : ∀ (qs : List Str), (∀ q ∈ qs, IsText q) → ∀ buf, buf.length = FcDict.bufSize →
    ∃ buf', locatePass B { d with size := L.length } qs buf = .ok (qs.map (idOf (keptOf B L)), buf') ∧ buf'.length = FcDict.bufSize
  | [], _, buf, hb => ⟨buf, rfl, hb⟩
  | q :: qs, hq, buf, hb => by
      have htq := hq q (List.mem_cons_self ..)
      obtain ⟨buf1, e1, l1⟩ : ∃ buf', FcDict.locateB B { d with size := L.length } q buf = .ok (idOf (keptOf B L) q, buf') ∧
          buf'.length = buf.length := by
        rw [FcDict.locateB_size ht]
        unfold idOf
        by_cases hm : q ∈ keptOf B L
        · rw [if_pos hm]
          exact FcDict.locateB_mem v R htq (List.idxOf_lt_length_of_mem hm) (List.getElem_idxOf _) buf (by rw [hb]; decide)
        · rw [if_neg hm]
          exact FcDict.locateB_not_mem v R htq hm buf (by rw [hb]; decide)
      obtain ⟨buf2, e2, l2⟩ := locatePass_ok qs (fun q h => hq q (List.mem_cons_of_mem _ h)) buf1 (by omega)
      exact ⟨buf2, by simp only [locatePass, e1, M.ok_bind, e2, List.map_cons], l2⟩

include R in
theorem extractPass_ok : ∀ (qs : List Str), (∀ q ∈ qs, q ∈ keptOf B L) → ∀ dec : Str, dec.length = 2 * MAX_CHARS →
    ∃ dec', extractPass B { d with size := L.length } (qs.map (idOf (keptOf B L))) dec = .ok (qs, dec') ∧ dec'.length = 2 * MAX_CHARS
  | [], _, dec, hb => ⟨dec, rfl, hb⟩
  | q :: qs, hq, dec, hb => by
      have hm := hq q (List.mem_cons_self ..)
      obtain ⟨dec1, e1, l1, _, e2⟩ := R.extract _ (List.idxOf_lt_length_of_mem hm) dec 0 (by rw [hb]; decide)
      obtain ⟨dec2, e3, l2⟩ := extractPass_ok qs (fun q h => hq q (List.mem_cons_of_mem _ h)) dec1 (by omega)
      rw [List.getElem_idxOf] at e1 e2
      refine ⟨dec2, ?_, l2⟩
      simp only [List.map_cons, extractPass, FcDict.extractB, idOf, if_pos hm, Nat.add_sub_cancel, FC.extractAt_size,
        if_neg (Nat.succ_ne_zero _)]
      simp only [e1, M.ok_bind]
      rw [e3, M.ok_bind]
      simpa using e2

include v R hp in
theorem extractPass_err : ∀ (qs : List Str), (∃ q ∈ qs, q ∉ keptOf B L) → ∀ dec : Str, dec.length = 2 * MAX_CHARS →
    extractPass B { d with size := L.length } (qs.map (idOf (keptOf B L))) dec = .error .oob
  | [], h, _, _ => by simp at h
  | q :: qs, h, dec, hb => by
      by_cases hm : q ∈ keptOf B L
      · obtain ⟨dec1, e1, l1, _, e2⟩ := R.extract _ (List.idxOf_lt_length_of_mem hm) dec 0 (by rw [hb]; decide)
        have := extractPass_err qs (by
          obtain ⟨x, hx, hn⟩ := h
          rcases List.mem_cons.mp hx with rfl | hx
          · exact absurd hm hn
          · exact ⟨x, hx, hn⟩) dec1 (by omega)
        simp only [List.map_cons, extractPass, FcDict.extractB, idOf, if_pos hm, Nat.add_sub_cancel, FC.extractAt_size,
          if_neg (Nat.succ_ne_zero _)]
        simp only [e1, M.ok_bind]
        rw [this]
        rfl
      · have := hp (INVALID_TERM - 1) (by have := v.count; have : INVALID_TERM = 2 ^ 32 - 1 := rfl; omega) dec 0 (by rw [hb]; decide)
        simp only [List.map_cons, extractPass, FcDict.extractB, idOf, if_neg hm, FC.extractAt_size,
          if_neg (show INVALID_TERM ≠ 0 by decide), this, M.error_bind]

theorem prefixOf_eq (c : Nat) {q : Str} (hq : q ≠ []) (hc : c ≤ 4) : prefixOf c q = firstPart c q ∧ firstPart c q ≠ [] := by
  have hl : 0 < q.length := List.length_pos_iff.mpr hq
  have hle : q.length * c / 4 ≤ q.length := by
    have : q.length * c ≤ q.length * 4 := Nat.mul_le_mul_left _ hc
    omega
  have hn : (if q.length * c / 4 = 0 then 1 else q.length * c / 4) = max 1 (q.length * c / 4) := by split <;> omega
  unfold prefixOf firstPart
  dsimp only
  rw [hn, List.take_append_of_le_length (by omega)]
  refine ⟨rfl, ?_⟩
  intro h
  have := congrArg List.length h
  rw [List.length_take, List.length_nil] at this
  omega

include v R ht in
theorem prefixPass_ok {c : Nat} (hc : c ≤ 4) : ∀ (qs : List Str), (∀ q ∈ qs, IsText q ∧ q ≠ []) → ∀ buf, buf.length = FcDict.bufSize →
    ∃ rs buf', prefixPass B { d with size := L.length } c qs buf = .ok (rs, buf') ∧
      (rs.length = qs.length ∧ ∀ (j : Nat) (q : Str), qs[j]? = some q → ∃ r, rs[j]? = some r ∧ IntervalOf (keptOf B L) (firstPart c q) r) ∧
      buf'.length = FcDict.bufSize
  | [], _, buf, hb => ⟨[], buf, rfl, ⟨rfl, by simp⟩, hb⟩
  | q :: qs, hq, buf, hb => by
      obtain ⟨htq, hnq⟩ := hq q (List.mem_cons_self ..)
      obtain ⟨hp1, hp2⟩ := prefixOf_eq c hnq hc
      have hpt : IsText (firstPart c q) := fun x hx => htq x (List.mem_of_mem_take hx)
      obtain ⟨r, buf1, e1, l1, s1⟩ := FcDict.locatePrefixB_exact v R hpt buf (by rw [hb]; decide)
      obtain ⟨rs, buf2, e2, ⟨l2, s2⟩, b2⟩ := prefixPass_ok hc qs (fun q h => hq q (List.mem_cons_of_mem _ h)) buf1 (by omega)
      refine ⟨r :: rs, buf2, ?_, ⟨by simp [l2], ?_⟩, b2⟩
      · simp only [prefixPass, hp1, FcDict.locatePrefixB_size ht hp2, e1, M.ok_bind, e2]
      · intro j q' hj
        rcases j with _ | j
        · simp only [List.getElem?_cons_zero, Option.some.injEq] at hj
          subst hj
          refine ⟨r, rfl, ?_⟩
          rcases s1 with ⟨rfl, s1⟩ | ⟨a, b, s1⟩
          · exact Or.inl ⟨rfl, fun i hi hpi => by have := s1 i hi hpi; exact ⟨this.1, this.2.2⟩⟩
          · exact Or.inr ⟨a, b, fun i hi => by rw [s1 i hi]; simp [hp2]⟩
        · simpa using s2 j q' (by simpa using hj)

include v R ht in
theorem prefixPasses_ok (qs : List Str) (hq : ∀ q ∈ qs, IsText q ∧ q ≠ []) : ∀ (cs : List Nat), (∀ c ∈ cs, c ≤ 4) → ∀ buf, buf.length = FcDict.bufSize →
    ∃ rss buf', prefixPasses B { d with size := L.length } qs cs buf = .ok (rss, buf') ∧ rss.length = cs.length ∧
      ∀ (i c : Nat), cs[i]? = some c → ∃ runs, rss[i]? = some runs ∧ runs.length = Bench.runs ∧ ∀ rs ∈ runs, rs.length = qs.length ∧
        ∀ (j : Nat) (q : Str), qs[j]? = some q → ∃ r, rs[j]? = some r ∧ IntervalOf (keptOf B L) (firstPart c q) r
  | [], _, buf, hb => ⟨[], buf, rfl, rfl, by simp⟩
  | c :: cs, hc, buf, hb => by
      obtain ⟨xs, buf1, e1, l1, q1, b1⟩ := times_ok (I := fun b : Str => b.length = FcDict.bufSize)
        (fun b hb => prefixPass_ok v R ht (hc c (List.mem_cons_self ..)) qs hq b hb) Bench.runs buf hb
      obtain ⟨rss, buf2, e2, l2, s2⟩ := prefixPasses_ok qs hq cs (fun c h => hc c (List.mem_cons_of_mem _ h)) buf1 b1
      refine ⟨xs :: rss, buf2, by simp only [prefixPasses, e1, M.ok_bind, e2], by simp [l2], ?_⟩
      intro i c' hi
      rcases i with _ | i
      · simp only [List.getElem?_cons_zero, Option.some.injEq] at hi
        subst hi
        exact ⟨xs, rfl, l1, q1⟩
      · simpa using s2 i c' (by simpa using hi)

end

theorem readQueries_eq {text : Str} {ls : List Str} (h : Lines text ls) : ∀ n, readQueries n (.ofText text) = ls.take n := by
  induction h with
  | none => intro n; cases n <;> rfl
  | @last l h1 h2 =>
      intro n
      cases n with
      | zero => rfl
      | succ n =>
          unfold readQueries
          rw [getLine_last h1 h2]
          cases n <;> rfl
  | @next l s ls h1 _ ih =>
      intro n
      cases n with
      | zero => rfl
      | succ n =>
          unfold readQueries
          rw [getLine_next h1]
          dsimp only
          rw [List.take_succ_cons, ih n]

section
variable {B : Nat} {rs : List (Nat × Ids)} {d : FC} (R : FC.RepB B Elem.u32 64 d ((keptOf B rs).map (·.2)))
  (hp : FC.PastB B Elem.u32 64 d (keptOf B rs).length)

include R in
theorem extractIdsPass_ok : ∀ (ids : List Nat), (∀ i ∈ ids, i < (keptOf B rs).length) → ∀ dec : Ids, dec.length = 2 * MAX_CHARS →
    ∃ xs dec', extractIdsPass B { d with size := rs.length } ids dec = .ok (xs, dec') ∧
      xs.map some = ids.map (fun i => rs[i]?.map (·.2)) ∧ dec'.length = 2 * MAX_CHARS
  | [], _, dec, hb => ⟨[], dec, rfl, rfl, hb⟩
  | i :: ids, hi, dec, hb => by
      have hm := hi i (List.mem_cons_self ..)
      obtain ⟨dec1, e1, l1, _, e2⟩ := R.extract i (by simpa using hm) dec 0 (by rw [hb]; decide)
      obtain ⟨xs, dec2, e3, s3, l2⟩ := extractIdsPass_ok ids (fun q h => hi q (List.mem_cons_of_mem _ h)) dec1 (by omega)
      refine ⟨_, dec2, by simp only [extractIdsPass, IntDict.extractB, FC.extractAt_size, e1, M.ok_bind, e3]; rfl, ?_, l2⟩
      have h1 : rs[i]? = some (keptOf B rs)[i] := by
        rw [← List.getElem?_eq_getElem hm]
        exact (FC.prefix_getElem? (keptOf_prefix B rs) (List.getElem?_eq_getElem hm)).trans (List.getElem?_eq_getElem hm).symm
      simp only [List.drop_zero] at e2
      rw [List.map_cons, List.map_cons, s3, h1, e2]
      simp

include R hp in
theorem extractIdsPass_err : ∀ (ids : List Nat), (∃ i ∈ ids, (keptOf B rs).length ≤ i) → ∀ dec : Ids, dec.length = 2 * MAX_CHARS →
    extractIdsPass B { d with size := rs.length } ids dec = .error .oob
  | [], h, _, _ => by simp at h
  | i :: ids, h, dec, hb => by
      by_cases hm : i < (keptOf B rs).length
      · obtain ⟨dec1, e1, l1, _, e2⟩ := R.extract i (by simpa using hm) dec 0 (by rw [hb]; decide)
        have := extractIdsPass_err ids (by
          obtain ⟨x, hx, hn⟩ := h
          rcases List.mem_cons.mp hx with rfl | hx
          · omega
          · exact ⟨x, hx, hn⟩) dec1 (by omega)
        simp only [extractIdsPass, IntDict.extractB, FC.extractAt_size, e1, M.ok_bind, this, M.error_bind]
      · simp only [extractIdsPass, IntDict.extractB, FC.extractAt_size, hp i (by omega) dec 0 (by rw [hb]; decide), M.error_bind]

end

end DictBench
end AC
