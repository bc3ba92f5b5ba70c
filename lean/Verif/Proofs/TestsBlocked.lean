import Verif.Proofs.TestsInverted
import Verif.Props.BlockedIndex
import Verif.Proofs.Twin4
import Verif.Proofs.BlockSize
/-!
# The test of the blocked inverted index
-/
namespace AC.Tests
open Spec

theorem genQuery_eq (std : StdLib) {draw : Nat → List Nat} {q : Ids} (hs : q.Pairwise (· < ·)) {i : Nat}
    (h1 : ∀ j < i, ∀ x ∈ draw j, ∀ y ∈ draw j, x = y) (h2 : ∃ x ∈ draw i, ∃ y ∈ draw i, x ≠ y) (h3 : ∀ x, x ∈ q ↔ x ∈ draw i) :
    ∀ (fuel s : Nat), s ≤ i → i < s + fuel → genQuery std draw fuel s = .ok q
  | 0, s, a, b => by omega
  | fuel + 1, s, a, b => by
      obtain ⟨p1, p2⟩ := draw_spec std (draw s)
      unfold genQuery
      dsimp only
      by_cases hsi : s = i
      · subst hsi
        have he : unique (std.sort id (draw s)) = q := inc_ext p1 hs (fun x => by rw [p2, h3])
        rw [he, if_pos]
        rw [two_le_iff hs]
        obtain ⟨x, hx, y, hy, hxy⟩ := h2
        exact ⟨x, (h3 x).mpr hx, y, (h3 y).mpr hy, hxy⟩
      · rw [if_neg, genQuery_eq std hs h1 h2 h3 fuel (s + 1) (by omega) (by omega)]
        rw [two_le_iff p1]
        rintro ⟨x, hx, y, hy, hxy⟩
        exact hxy (h1 s (by omega) x ((p2 x).mp hx) y ((p2 y).mp hy))

theorem genQueries_eq (std : StdLib) {numTerms fuel : Nat} {draws : List (Nat → List Nat)} {qs : List Ids} (hq : All2 QueryOf draws qs)
    (h : ∀ draw ∈ draws, Drawn numTerms fuel draw) : genQueries std fuel draws = .ok qs := by
  induction hq with
  | nil => rfl
  | @cons draw q draws qs hq _ ih =>
      obtain ⟨hs, i, h1, h2, h3⟩ := hq
      obtain ⟨_, j, hj, x, hx, y, hy, hxy⟩ := h draw (List.mem_cons_self ..)
      have hij : i ≤ j := Nat.le_of_not_lt fun hlt => hxy (h1 j hlt x hx y hy)
      unfold genQueries
      rw [genQuery_eq std hs h1 h2 h3 fuel 0 (by omega) (by omega), M.ok_bind, ih fun d hd => h d (List.mem_cons_of_mem _ hd), M.ok_bind]

/-! ## The comparison -/

theorem sameOk_spec {ii : InvIdx} {bi : BlkIdx} {u : Nat} {lists ls : List (List Nat)} {xs : List BD} : ∀ (A B : List Nat) (fuel : Nat) (s : Inter) (b : BInter),
    Inter.Enum ii u s ls A → BInter.Enum bi u lists b xs B → A.length < fuel → sameOk ii bi fuel s b = .ok (decide (A = B))
  | _, _, 0, _, _, _, _, h => by omega
  | [], B, fuel + 1, s, b, hs, hb, _ => by
      unfold sameOk
      rw [hs.step.1 rfl, if_neg (by simp)]
      cases B with
      | nil => rw [hb.step.1 rfl]; simp
      | cons d B => rw [(hb.step.2 d B rfl).1]; simp
  | d :: A, B, fuel + 1, s, b, hs, hb, hf => by
      obtain ⟨a1, a2, s', a3, a4⟩ := hs.step.2 d A rfl
      have hdu : d < u := by
        have : s.candidate < ii.numDocs := by simpa [Inter.hasNext] using a1
        rw [hs.docs] at this; omega
      unfold sameOk
      rw [a1, if_pos rfl, a2]
      cases B with
      | nil =>
          have := hb.step.1 rfl
          have hc : u ≤ b.candidate := by
            rw [BInter.hasNext, hb.docs] at this
            simpa using this
          rw [if_pos (by omega)]
          simp
      | cons e B =>
          obtain ⟨_, b2, b', b3, b4⟩ := hb.step.2 e B rfl
          rw [b2]
          by_cases hde : e = d
          · subst hde
            rw [if_neg (by simp), a3, M.ok_bind, b3, M.ok_bind, sameOk_spec A B fuel s' b' a4 b4 (by simp at hf; omega)]
            simp
          · rw [if_pos hde]
            have : d ≠ e := fun h => hde h.symm
            simp [this]

section
variable {std : StdLib} {ii : InvIdx} {bi : BlkIdx} {u m : Nat} {lists docss : List (List Nat)} (R : ii.Rep u lists) (Rb : bi.Rep u m lists docss)
  (hL : BlkLists u lists) (hu : u + 1 < 2 ^ 32)

include R Rb hL hu in
theorem sameQueriesOk_spec : ∀ (qs : List Ids), (∀ q ∈ qs, 2 ≤ q.length ∧ q.Pairwise (· < ·) ∧ ∀ id ∈ q, 1 ≤ id ∧ id ≤ lists.length) →
    ∃ r, sameQueriesOk std ii bi qs = .ok r ∧ (r = true ↔ ∀ q ∈ qs, ∀ d, ¬ LostIn lists bi.blocks q d)
  | [], _ => ⟨true, rfl, by simp⟩
  | q :: qs, h => by
      obtain ⟨h1, h2, h3⟩ := h q (List.mem_cons_self ..)
      have hne : q ≠ [] := by intro hn; subst hn; simp at h1
      have hsA : (Props.inAllLists u lists q).Pairwise (· < ·) := List.Pairwise.filter _ List.pairwise_lt_range
      have hsB : (Props.enumerated u lists bi.blocks q).Pairwise (· < ·) := List.Pairwise.filter _ hsA
      have hmA := Props.mem_inAllLists hL hne (fun t ht => (h3 t ht).1)
      obtain ⟨s, ls, a1, a2⟩ := Inter.mk'_spec std R q hne h3 (Props.inAllLists u lists q) hsA (by
        intro d
        rw [hmA]
        exact ⟨fun h id hid => (mem_getD_iff (h3 id hid).1).mpr (h id hid), fun h id hid => (mem_getD_iff (h3 id hid).1).mp (h id hid)⟩)
      obtain ⟨b, xs, b1, b2⟩ := BInter.mk'_spec Rb hu std q hne h2 h3 (Props.enumerated u lists bi.blocks q) hsB (by
        intro d
        rw [← Props.firstOfOne_iff Rb, Props.mem_enumerated, hmA])
      have hlen : (Props.inAllLists u lists q).length < ii.numDocs + 1 := by
        have := inc_length hsA (u := u) (fun x hx => by
          obtain ⟨t, ht⟩ := List.exists_mem_of_ne_nil _ hne
          exact posted_bound hL ((hmA x).mp hx t ht))
        rw [R.docs]; omega
      have hiff : Props.inAllLists u lists q = Props.enumerated u lists bi.blocks q ↔ ∀ d, ¬ LostIn lists bi.blocks q d := by
        constructor
        · rintro he d ⟨d1, d2⟩
          have := (hmA d).mpr d1
          rw [he, Props.mem_enumerated] at this
          exact this.2 d2
        · intro hn
          refine inc_ext hsA hsB fun d => ?_
          rw [Props.mem_enumerated]
          exact ⟨fun hd => ⟨hd, fun hf => hn d ⟨(hmA d).mp hd, hf⟩⟩, fun hd => hd.1⟩
      unfold sameQueriesOk
      rw [a1, M.ok_bind, b1, M.ok_bind, sameOk_spec _ _ _ s b a2 b2 hlen, M.ok_bind]
      by_cases he : Props.inAllLists u lists q = Props.enumerated u lists bi.blocks q
      · obtain ⟨r, r1, r2⟩ := sameQueriesOk_spec qs fun q hq => h q (List.mem_cons_of_mem _ hq)
        refine ⟨r, by rw [if_pos (by simpa using he)]; exact r1, ?_⟩
        rw [r2]
        simp only [List.mem_cons, forall_eq_or_imp]
        exact ⟨fun hh => ⟨hiff.mp he, hh⟩, fun hh => hh.2⟩
      · refine ⟨false, by rw [if_neg (by simpa using he)], ?_⟩
        simp only [Bool.false_eq_true, List.mem_cons, forall_eq_or_imp, false_iff]
        exact fun hh => he (hiff.mpr hh.1)

end

theorem sizesOk_spec {std : StdLib} {ii : InvIdx} {u : Nat} {lists : List (List Nat)} (R : ii.Rep u lists) (hL : BlkLists u lists) (hu : u + 1 < 2 ^ 32)
    (mem : Nat → W) {qs : List Ids} (hq : ∀ q ∈ qs, 2 ≤ q.length ∧ q.Pairwise (· < ·) ∧ ∀ id ∈ q, 1 ≤ id ∧ id ≤ lists.length) : ∀ (cs : List Nat),
    (∀ c ∈ cs, 0 < c ∧ c ≤ 2 ^ 149) → ∃ r, sizesOk std u lists ii qs mem cs = .ok r ∧
      (r = true ↔ ∀ c ∈ cs, ∀ m bounds, blockSize u c = .ok m → IsCut lists m bounds → ∀ q ∈ qs, ∀ d, ¬ LostIn lists bounds q d)
  | [], _ => ⟨true, rfl, by simp⟩
  | c :: cs, hc => by
      obtain ⟨m, hm⟩ := blockSize_ok (u := u) (hc c (List.mem_cons_self ..)).1 (hc c (List.mem_cons_self ..)).2
      obtain ⟨b, e1, _, e3⟩ := BlkBuilder.build_spec hL std m
      obtain ⟨bi, docss, f1, Rb⟩ := e3 mem
      obtain ⟨r, r1, r2⟩ := sameQueriesOk_spec (std := std) R Rb hL hu qs hq
      have hcut : (∀ q ∈ qs, ∀ d, ¬ LostIn lists bi.blocks q d) ↔
          ∀ m bounds, blockSize u c = .ok m → IsCut lists m bounds → ∀ q ∈ qs, ∀ d, ¬ LostIn lists bounds q d := by
        constructor
        · intro h m' bounds hm' hb
          rw [hm] at hm'
          cases hm'
          rw [postingsIn_cut_unique hb Rb.cut]
          exact h
        · intro h
          exact h m bi.blocks hm Rb.cut
      rw [hcut] at r2
      obtain ⟨r', s1, s2⟩ := sizesOk_spec (std := std) R hL hu mem hq cs fun c h => hc c (List.mem_cons_of_mem _ h)
      unfold sizesOk
      rw [hm, M.ok_bind, e1, M.ok_bind, f1, M.ok_bind, if_neg (by rw [Rb.docs, Rb.terms]; simp), r1, M.ok_bind]
      simp only [List.mem_cons, forall_eq_or_imp]
      cases r with
      | true => exact ⟨r', s1, by rw [s2]; exact ⟨fun hh => ⟨r2.mp rfl, hh⟩, fun hh => hh.2⟩⟩
      | false => exact ⟨false, rfl, by
          simp only [Bool.false_eq_true, false_iff]
          exact fun hh => Bool.noConfusion (r2.mpr hh.1)⟩

theorem blocked_spec (std : StdLib) {fuel u : Nat} {lists : List (List Nat)} (hL : BlkLists u lists) (hu : u + 1 < 2 ^ 32) (after : W) (mem : Nat → W)
    {draws : List (Nat → List Nat)} (hd : ∀ draw ∈ draws, Drawn lists.length fuel draw) {qs : List Ids} (hq : All2 QueryOf draws qs) :
    ∃ r, blocked std fuel u lists after mem draws = .ok r ∧
      (r = true ↔ ∀ c ∈ cs, ∀ m bounds, blockSize u c = .ok m → IsCut lists m bounds → ∀ q ∈ qs, ∀ d, ¬ LostIn lists bounds q d) := by
  obtain ⟨b, e1, _, e3⟩ := InvBuilder.build_spec hL.toInvLists
  obtain ⟨ii, f1, R⟩ := e3 after
  have hqs : ∀ q ∈ qs, 2 ≤ q.length ∧ q.Pairwise (· < ·) ∧ ∀ id ∈ q, 1 ≤ id ∧ id ≤ lists.length := by
    clear e1 e3 f1
    induction hq with
    | nil => simp
    | @cons draw q draws qs hq _ ih =>
        intro q' hq'
        rcases List.mem_cons.mp hq' with rfl | hq'
        · obtain ⟨hs, i, _, ⟨x, hx, y, hy, hxy⟩, h3⟩ := hq
          refine ⟨(two_le_iff hs).mpr ⟨x, (h3 x).mpr hx, y, (h3 y).mpr hy, hxy⟩, hs, ?_⟩
          intro id hid
          exact (hd draw (List.mem_cons_self ..)).1 i id ((h3 id).mp hid)
        · exact ih (fun d h => hd d (List.mem_cons_of_mem _ h)) q' hq'
  obtain ⟨r, r1, r2⟩ := sizesOk_spec (std := std) R hL hu mem hqs cs (by decide)
  refine ⟨r, ?_, r2⟩
  unfold blocked
  rw [e1, M.ok_bind, f1, M.ok_bind, if_neg (by rw [R.docs, R.terms]; simp), genQueries_eq std hq hd, M.ok_bind, r1]

end AC.Tests
