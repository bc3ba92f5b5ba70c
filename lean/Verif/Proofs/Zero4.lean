import Verif.Proofs.Beyond4
/-!
# Conjunctive queries with type 4 and `k = 0`

The limit is compared after a result has been stored or not. With `k = 0` the search stops when the first document that is looked at is not a result;
otherwise it is never stopped by the limit.
-/
namespace AC
open Spec

namespace Index4

/-- a limit that has been passed is as good as one that is not reached -/
theorem unionLoop_free {std : StdLib} {ii : BlkIdx} {r : Range} {k K : Nat} : ∀ (fuel : Nat) (q : List Blk) (buf : List Nat) (n : Nat),
    k < n → n + fuel < K → unionLoop std ii r k fuel q buf n = unionLoop std ii r K fuel q buf n := by
  intro fuel
  induction fuel with
  | zero => intro q buf n _ _; rfl
  | succ fuel ih =>
      intro q buf n hk hK
      unfold unionLoop
      cases q with
      | nil => rfl
      | cons z zs =>
          dsimp only
          congr 1; funext ⟨found, z⟩
          dsimp only
          cases found with
          | false =>
              simp only [record, Bool.false_eq_true, if_false, M.ok_bind]
              rw [if_neg (by omega), if_neg (by omega)]
              congr 1; funext d; congr 1; funext q
              exact ih q buf n hk (by omega)
          | true =>
              simp only [record, if_true]
              cases wr buf n (id32 z.docs.value) with
              | error f => rfl
              | ok buf' =>
                  simp only [M.ok_bind]
                  rw [if_neg (by omega), if_neg (by omega)]
                  congr 1; funext d; congr 1; funext q
                  exact ih q buf' (n + 1) (by omega) (by omega)

theorem unionLoop_zero {std : StdLib} {ii : BlkIdx} {r : Range} {K : Nat} (fuel : Nat) (q : List Blk) (buf : List Nat) (hK : fuel < K) :
    unionLoop std ii r 0 fuel q buf 0 = unionLoop std ii r K fuel q buf 0 ∨
      unionLoop std ii r 0 fuel q buf 0 = .ok (buf, 0) ∧ ∃ z zs z', q = z :: zs ∧ check ii r z = .ok (false, z') := by
  cases fuel with
  | zero => exact Or.inl rfl
  | succ fuel =>
      unfold unionLoop
      cases q with
      | nil => exact Or.inl rfl
      | cons z zs =>
          dsimp only
          cases hc : check ii r z with
          | error f => exact Or.inl rfl
          | ok p =>
              obtain ⟨found, z'⟩ := p
              simp only [M.ok_bind]
              cases found with
              | false => exact Or.inr ⟨rfl, z, zs, z', rfl, hc⟩
              | true =>
                  left
                  simp only [record, if_true]
                  cases wr buf 0 (id32 z'.docs.value) with
                  | error f => rfl
                  | ok buf' =>
                      simp only [M.ok_bind]
                      rw [if_neg (by omega), if_neg (by omega)]
                      congr 1; funext d; congr 1; funext q
                      exact unionLoop_free fuel q buf' 1 (by omega) (by omega)

theorem conjLoop_free {std : StdLib} {ii : BlkIdx} {r : Range} {k K : Nat} : ∀ (fuel : Nat) (it : BInter) (q : List Blk) (buf : List Nat) (n : Nat),
    k < n → n + fuel < K → conjLoop std ii r k fuel it q buf n = conjLoop std ii r K fuel it q buf n := by
  intro fuel
  induction fuel with
  | zero => intro it q buf n _ _; rfl
  | succ fuel ih =>
      intro it q buf n hk hK
      unfold conjLoop
      by_cases hc : (it.hasNext ii && !q.isEmpty) = true
      · rw [if_pos hc, if_pos hc]
        congr 1; funext ⟨checked, found, q⟩
        dsimp only
        cases found with
        | false =>
            simp only [record, Bool.false_eq_true, if_false, M.ok_bind]
            rw [if_neg (by omega), if_neg (by omega)]
            congr 1; funext it
            exact ih it q buf n hk (by omega)
        | true =>
            simp only [record, if_true]
            cases wr buf n (id32 it.candidate) with
            | error f => rfl
            | ok buf' =>
                simp only [M.ok_bind]
                rw [if_neg (by omega), if_neg (by omega)]
                congr 1; funext it
                exact ih it q buf' (n + 1) (by omega) (by omega)
      · rw [if_neg hc, if_neg hc]

theorem conjLoop_zero {std : StdLib} {ii : BlkIdx} {r : Range} {K : Nat} : ∀ (fuel : Nat) (it : BInter) (q : List Blk) (buf : List Nat), fuel < K →
    conjLoop std ii r 0 fuel it q buf 0 = conjLoop std ii r K fuel it q buf 0 ∨ conjLoop std ii r 0 fuel it q buf 0 = .ok (buf, 0) := by
  intro fuel
  induction fuel with
  | zero => intro it q buf _; exact Or.inl rfl
  | succ fuel ih =>
      intro it q buf hK
      unfold conjLoop
      by_cases hc : (it.hasNext ii && !q.isEmpty) = true
      · rw [if_pos hc, if_pos hc]
        cases advance std ii r it.candidate (q.length + 1) q with
        | error f => exact Or.inl rfl
        | ok p =>
            obtain ⟨checked, found, q⟩ := p
            simp only [M.ok_bind]
            cases found with
            | false =>
                simp only [record, Bool.false_eq_true, if_false, M.ok_bind]
                by_cases hch : checked = true
                · right; rw [if_pos ⟨hch, trivial⟩]
                · rw [if_neg (fun h => hch h.1), if_neg (fun h => hch h.1)]
                  cases it.inc ii with
                  | error f => exact Or.inl rfl
                  | ok it => exact ih it q buf (by omega)
            | true =>
                left
                simp only [record, if_true]
                cases wr buf 0 (id32 it.candidate) with
                | error f => rfl
                | ok buf' =>
                    simp only [M.ok_bind]
                    rw [if_neg (by omega), if_neg (by omega)]
                    congr 1; funext it
                    exact conjLoop_free fuel it q buf' 1 (by omega) (by omega)
      · rw [if_neg hc, if_neg hc]; exact Or.inl rfl

/-- with `k = 0`: nothing, or as much as with any large `k` -/
theorem conjScores_zero (std : StdLib) (ii : BlkIdx) (pfx : Ids) (r : Range) : ∃ B, ∀ K, B < K → ∀ scores,
    conjScores std ii pfx r 0 scores = conjScores std ii pfx r K scores ∨ conjScores std ii pfx r 0 scores = .ok (scores, 0) ∧
      (pfx = [] → ∃ z zs z', blocks std ii r = .ok (z :: zs) ∧ check ii r z = .ok (false, z')) := by
  unfold conjScores
  cases hb : blocks std ii r with
  | error f => exact ⟨0, fun K _ scores => Or.inl rfl⟩
  | ok q =>
      refine ⟨q.length * (ii.numDocs + 1) + 1 + (ii.numDocs + 1), fun K hK scores => ?_⟩
      rw [M.ok_bind, M.ok_bind]
      by_cases hp : pfx.length = 0
      · rw [if_pos hp, if_pos hp]
        rcases unionLoop_zero (std := std) (ii := ii) (r := r) (K := K) (q.length * (ii.numDocs + 1) + 1) q scores (by omega) with h | ⟨h, z, zs, z', rfl, hc⟩
        · exact Or.inl h
        · exact Or.inr ⟨h, fun _ => ⟨z, zs, z', rfl, hc⟩⟩
      · rw [if_neg hp, if_neg hp]
        have hne : pfx ≠ [] := by rintro rfl; exact hp rfl
        cases BInter.mk' std ii (deduplicate std pfx) with
        | error f => exact Or.inl rfl
        | ok it =>
            rcases conjLoop_zero (std := std) (ii := ii) (r := r) (K := K) (ii.numDocs + 1) it q scores (by omega) with h | h
            · exact Or.inl h
            · exact Or.inr ⟨h, fun hn => absurd hn hne⟩

end Index4

section
variable {C : Coll} {F : Files} (h : Ready C F)
include h

theorem Index4.first_found (std : StdLib) {m : Nat} {x : Index4} {docss : List (List Nat)} (hx : x.Rep m F docss) {b e : Nat} (hr : LastRange C F [] b e)
    {z z' : Blk} {zs : List Blk} (hb : blocks std x.inverted ⟨b + 1, e + 1⟩ = .ok (z :: zs)) : check x.inverted ⟨b + 1, e + 1⟩ z ≠ .ok (false, z') := by
  intro hc
  have hle := hr.le
  have hlt := hr.lt
  obtain ⟨q, xs, V, q1, q2, q3, q4, q5, q6⟩ := blocks_spec hx.inverted std ⟨b + 1, e + 1⟩ (by simp) (by simpa using hle)
    (by rw [h.files.numLists]; simp only; omega)
  rw [hb] at q1
  cases q1
  cases q2 with
  | cons hz hA =>
      rename_i y ys
      obtain ⟨o, c1, c2⟩ := check_spec hz.1 hz.get ⟨b + 1, e + 1⟩
      rw [hc] at c1
      have hf : hasIn F.inverted y.1.lo y.1.hi ⟨b + 1, e + 1⟩ (key z) = false := by
        injection c1 with c1
        injection c1 with c1 _
        exact c1.symm
      obtain ⟨v, hv, rfl⟩ := List.mem_map.mp (q4.mem_iff.mp (List.mem_cons_self ..))
      obtain ⟨t, t1, t2, t3⟩ := ((q6 v hv).1.mem _).mp (List.mem_of_getElem? hz.get)
      have hall : ∀ i (hi : i < F.terms.length), b ≤ i ∧ i ≤ e := fun i hi => (hr.iff i hi).mpr ⟨List.nil_prefix, fun _ => Or.inl rfl⟩
      have h0 := hall 0 (by omega)
      have h1 := hall (F.terms.length - 1) (by omega)
      obtain ⟨t4, l, t5, _⟩ := id t3
      have t6 := (List.getElem?_eq_some_iff.mp t5).1
      rw [h.files.numLists] at t6
      have : hasIn F.inverted v.lo v.hi ⟨b + 1, e + 1⟩ (key z) = true := hasIn_iff.mpr ⟨t, t1, t2, by simp only; omega, by simp only; omega, t3⟩
      rw [this] at hf
      cases hf

/-- what conjunctive search with type 4 returns for `k = 0` -/
theorem Index4.conj_zero (std : StdLib) {m : Nat} {x : Index4} {docss : List (List Nat)} (hx : x.Rep m F docss) (hids : ∀ r ∈ C, r.1 < 2 ^ 32 - 2)
    {q : Str} (hq : IsText q) :
    ∃ S, Result4 C (blocksOf F.terms x.inverted.blocks) (completeTerms q) (lastTerm q) S ∧
      ∀ s : Scratch, s.WF → (Shows F.terms [] (x.conjTopk std q 0 s) ∧ ((∀ t ∈ completeTerms q, ¬ IsTerm C t) → lastTerm q ≠ [])) ∨
        ((S.length ≤ MAX_K → Shows F.terms S (x.conjTopk std q 0 s)) ∧ (MAX_K < S.length → x.conjTopk std q 0 s = .error .oob)) := by
  obtain ⟨S, s1, s2⟩ := Index4.conj_beyond h std hx hids hq
  refine ⟨S, s1, fun s hs => ?_⟩
  have hall : ∀ K, S.length < K → x.conjTopk std q 0 s = x.conjTopk std q K s →
      (S.length ≤ MAX_K → Shows F.terms S (x.conjTopk std q 0 s)) ∧ (MAX_K < S.length → x.conjTopk std q 0 s = .error .oob) := by
    intro K hK he
    rw [he]
    have := s2 K (by omega) s hs
    rwa [Nat.min_eq_right (by omega), List.take_of_length_le (by omega)] at this
  have ha := analyse_spec h hx.dict hq false hs.dbuf
  cases ho : analyse x.dict q false s with
  | error f => rw [ho] at ha; cases ha
  | ok p =>
      obtain ⟨s', a⟩ := p
      rw [ho] at ha
      cases ha with
      | unknown buf hb hm hu => simp at hm
      | nothing buf hb hu =>
          right
          refine hall (S.length + 1) (by omega) ?_
          unfold Index4.conjTopk
          rw [ho]; rfl
      | some buf hb r hr hk2 =>
          obtain ⟨B, hB⟩ := conjScores_zero std x.inverted (((completeTerms q).filter (fun t => decide (t ∈ F.terms))).map (rankOf F.terms)) ⟨r.b + 1, r.e + 1⟩
          rcases hB (B + S.length + 1) (by omega) s.pool.init.scores with he | ⟨he, hz⟩
          · right
            refine hall (B + S.length + 1) (by omega) ?_
            unfold Index4.conjTopk
            rw [ho, M.ok_bind, M.ok_bind]
            dsimp only
            rw [he]
          · left
            constructor
            · unfold Index4.conjTopk
              rw [ho, M.ok_bind]
              dsimp only
              rw [he, M.ok_bind]
              have := Base.extract_shows h hx.base hx.dict hx.built (n := 0) (wf_init hs hb) (Pool.Holds.init s.pool) (Nat.zero_le _) (by simp)
              simpa using this
            · intro hn hl
              have hp : knownPfx F (completeTerms q) = [] := h.known_none.mpr hn
              obtain ⟨z, zs, z', g1, g2⟩ := hz hp
              rw [hl] at hr
              exact Index4.first_found h std hx hr g1 g2

end
end AC
