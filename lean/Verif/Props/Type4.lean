import Verif.Proofs.Type4
import Verif.Props.Answers
import Verif.Props.Build
import Verif.Props.Conjunctive
/-!
# C06: conjunctive search with type 4; and prefix search with type 4 (C02)
-/
namespace AC.Props
open AC Spec

/-! ## The blocks -/

theorem blocks_eq {p : List Str → Nat} (hmono : ∀ a b : List Str, a <+: b → p a ≤ p b) {m : Nat} : ∀ {A B : List (List Str)}, A.flatten = B.flatten →
    (∀ b ∈ A, b ≠ []) → (∀ b ∈ B, b ≠ []) → (∀ b ∈ A.dropLast, m ≤ p b) → (∀ b ∈ B.dropLast, m ≤ p b) →
    (∀ b ∈ A, b.dropLast = [] ∨ p b.dropLast < m) → (∀ b ∈ B, b.dropLast = [] ∨ p b.dropLast < m) → A = B := by
  have key : ∀ {a b : List Str} {A B : List (List Str)}, a ++ A.flatten = b ++ B.flatten → a ≠ [] → (∀ x ∈ (a :: A).dropLast, m ≤ p x) →
      (b.dropLast = [] ∨ p b.dropLast < m) → a <+: b → a = b := by
    intro a b A B he ha hf hl hpre
    obtain ⟨c, rfl⟩ := hpre
    by_cases hc : c = []
    · rw [hc, List.append_nil]
    · exfalso
      rw [List.append_assoc, List.append_cancel_left_eq] at he
      have hA : A ≠ [] := by
        rintro rfl
        simp only [List.flatten_nil] at he
        exact hc (List.append_eq_nil_iff.mp he.symm).1
      have h1 := hf a (by rw [List.dropLast_cons_of_ne_nil hA]; exact List.mem_cons_self ..)
      rw [List.dropLast_append_of_ne_nil hc] at hl
      rcases hl with hl | hl
      · exact ha (List.append_eq_nil_iff.mp hl).1
      · have := hmono a (a ++ c.dropLast) ⟨_, rfl⟩
        omega
  intro A
  induction A with
  | nil =>
      intro B he _ hB _ _ _ _
      cases B with
      | nil => rfl
      | cons b B =>
          simp only [List.flatten_nil, List.flatten_cons] at he
          exact absurd (List.append_eq_nil_iff.mp he.symm).1 (hB b (List.mem_cons_self ..))
  | cons a A ih =>
      intro B he hA hB fA fB lA lB
      cases B with
      | nil =>
          simp only [List.flatten_nil, List.flatten_cons] at he
          exact absurd (List.append_eq_nil_iff.mp he).1 (hA a (List.mem_cons_self ..))
      | cons b B =>
          simp only [List.flatten_cons] at he
          have hab : a = b := by
            rcases List.prefix_or_prefix_of_prefix (l₁ := a) (l₂ := b) (l₃ := a ++ A.flatten) ⟨_, rfl⟩ ⟨_, he.symm⟩ with hp | hp
            · exact key he (hA a (List.mem_cons_self ..)) fA (lB b (List.mem_cons_self ..)) hp
            · exact (key he.symm (hB b (List.mem_cons_self ..)) fB (lA a (List.mem_cons_self ..)) hp).symm
          subst hab
          rw [List.append_cancel_left_eq] at he
          have hd : ∀ {X : List (List Str)} {x : List Str}, x ∈ X.dropLast → x ∈ (a :: X).dropLast := by
            intro X x hx
            cases X with
            | nil => simp at hx
            | cons y Y => rw [List.dropLast_cons_of_ne_nil (by simp)]; exact List.mem_cons_of_mem _ hx
          rw [ih he (fun x hx => hA x (List.mem_cons_of_mem _ hx)) (fun x hx => hB x (List.mem_cons_of_mem _ hx)) (fun x hx => fA x (hd hx))
            (fun x hx => fB x (hd hx)) (fun x hx => lA x (List.mem_cons_of_mem _ hx)) (fun x hx => lB x (List.mem_cons_of_mem _ hx))]

theorem sorted_ext {A B : List Str} (hA : A.Pairwise (· < ·)) (hB : B.Pairwise (· < ·)) (h : ∀ t, t ∈ A ↔ t ∈ B) : A = B := by
  refine List.Perm.eq_of_pairwise (le := (· < ·)) ?_ hA hB ?_
  · intro a b _ _ h1 h2
    exact absurd h2 (List.lt_asymm h1)
  · rw [List.perm_ext_iff_of_nodup (nodup_of_strict hA) (nodup_of_strict hB)]
    exact h

/-- the collection and the block size determine the blocks -/
theorem C06_blocks_unique {C : Coll} {m : Nat} {A B : List (List Str)} (hA : IsBlocks C m A) (hB : IsBlocks C m B) : A = B := by
  refine blocks_eq (p := postings C) ?_ (sorted_ext hA.sorted hB.sorted (fun t => by rw [hA.terms, hB.terms])) hA.nonempty hB.nonempty hA.full hB.full hA.least hB.least
  rintro a b ⟨c, rfl⟩
  unfold postings
  rw [List.map_append, List.sum_append]
  omega

/-! ## What is returned -/

/-- What conjunctive search with type 4 returns, for every collection, every block size, every query and every `k` up to 15; see `Result4`.
It does not depend on the state left by earlier queries, nor on the order of the complete terms, and `k` only says how many of the results are wanted. -/
theorem C06_exact (std : StdLib) {C : Coll} (hC : ValidColl C) (hw : Suits4 C) (m : Nat) (mem : Nat → W) :
    ∃ x B, Index4.build std m (Pre.run C) mem = .ok x ∧ IsBlocks C m B ∧ ∀ q, IsText q → ∃ S, Result4 C B (completeTerms q) (lastTerm q) S ∧
      ∀ q', IsText q' → lastTerm q' = lastTerm q → (∀ t, t ∈ completeTerms q' ↔ t ∈ completeTerms q) → ∀ k, 1 ≤ k → k ≤ MAX_K →
        ∀ s : Scratch, s.WF → Shows (Pre.run C).terms (S.take k) (x.conjTopk std q' k s) := by
  have h := hC.ready
  obtain ⟨x, docss, h1, h2⟩ := Index4.exists h hw.toSuits3 std m mem
  exact ⟨x, _, h1, h.blocks h2.inverted.cut, fun q hq => Index4.conj_spec h std h2 hw.ids hq⟩

theorem _root_.AC.Shows.results {terms : List Str} {E : Coll} {o : M Scratch} (h : Shows terms E o) {s : Scratch} {res : List (Nat × Str)} (ho : o = .ok s)
    (hr : s.pool.results = .ok res) : res = E.map shown := by
  rw [ho] at h
  rcases h with ⟨e1, _⟩ | ⟨s2, e1, _, e2, _⟩
  · cases e1
  · cases e1
    rw [hr] at e2
    cases e2
    rfl

theorem copies_pos {C : Coll} {B : List (List Str)} {last : Str} {c : List Str} (h : 0 < copies C B last c) :
    ∃ b ∈ B, Looked C last b ∧ FoundIn C last b c := by
  classical
  unfold copies at h
  obtain ⟨b, hb⟩ := List.exists_mem_of_length_pos h
  obtain ⟨h1, h2⟩ := List.mem_filter.mp hb
  exact ⟨b, h1, by simpa using h2⟩

theorem _root_.AC.Spec.Result4.found {C : Coll} {B : List (List Str)} {complete : List Str} {last : Str} {S : Coll} (h : Result4 C B complete last S)
    {r : Nat × List Str} (hr : r ∈ S) : (∀ t ∈ complete, IsTerm C t → t ∈ r.2) ∧ ∃ b ∈ B, Looked C last b ∧ FoundIn C last b r.2 := by
  by_cases hk : ∃ t ∈ complete, IsTerm C t
  · obtain ⟨a1, a2, a3⟩ := (h.inter hk).2.1 r hr
    exact ⟨a1, a3⟩
  · have hn : ∀ t ∈ complete, ¬ IsTerm C t := fun t ht hT => hk ⟨t, ht, hT⟩
    refine ⟨fun t ht hT => absurd hT (hn t ht), copies_pos ?_⟩
    rw [← (h.union hn).2 r (h.mem r hr)]
    exact List.count_pos_iff.mpr hr

/-- whatever the query, every result is a matching completion with its text; the document ids do not decrease, and they increase
strictly when one of the complete terms is known -/
theorem C06_sound (std : StdLib) {C : Coll} (hC : ValidColl C) (hw : Suits4 C) (m : Nat) (mem : Nat → W) :
    ∃ x, Index4.build std m (Pre.run C) mem = .ok x ∧ ∀ q k s s' res, IsText q → 1 ≤ k → k ≤ MAX_K → Scratch.WF s →
      x.conjTopk std q k s = .ok s' → s'.pool.results = .ok res → res.length ≤ k ∧ res.Pairwise (fun a b => a.1 ≤ b.1) ∧
        ((∃ t ∈ completeTerms q, IsTerm C t) → res.Pairwise (fun a b => a.1 < b.1)) ∧
        ∀ e ∈ res, ∃ c, (e.1, c) ∈ C ∧ e.2 = joined c ∧ ConjMatch C (completeTerms q) (lastTerm q) c := by
  obtain ⟨x, B, h1, _, h2⟩ := C06_exact std hC hw m mem
  refine ⟨x, h1, ?_⟩
  intro q k s s' res hq hk hk' hs ho hr
  obtain ⟨S, hS, hsh⟩ := h2 q hq
  have hsh := hsh q hq rfl (fun _ => Iff.rfl) k hk hk' s hs
  have hres := hsh.results ho hr
  subst hres
  have hlt : (∃ t ∈ completeTerms q, IsTerm C t) → ((S.take k).map shown).Pairwise (fun a b => a.1 < b.1) := by
    intro hkn
    rw [List.pairwise_map]
    exact ((hS.inter hkn).1).sublist (List.take_sublist _ _)
  refine ⟨by simp; omega, ?_, hlt, ?_⟩
  · by_cases hkn : ∃ t ∈ completeTerms q, IsTerm C t
    · exact (hlt hkn).imp Nat.le_of_lt
    · rw [List.pairwise_map]
      exact ((hS.union (fun t ht hT => hkn ⟨t, ht, hT⟩)).1).sublist (List.take_sublist _ _)
  · intro e he
    obtain ⟨r, hr', rfl⟩ := List.mem_map.mp he
    have hrS := List.mem_of_mem_take hr'
    obtain ⟨a1, b, _, _, y, hy, _, hre⟩ := hS.found hrS
    exact ⟨r.2, hS.mem r hrS, rfl, a1, y, hy, hre.1⟩

/-! ## When the answer is right -/

theorem exists_first {P : Str → Prop} : ∀ {L : List Str}, L.Pairwise (· < ·) → (∃ x ∈ L, P x) → ∃ x ∈ L, P x ∧ ∀ y ∈ L, P y → ¬ y < x
  | [], _, h => by obtain ⟨x, hx, _⟩ := h; simp at hx
  | a :: L, hs, h => by
      obtain ⟨h1, h2⟩ := List.pairwise_cons.mp hs
      by_cases ha : P a
      · refine ⟨a, List.mem_cons_self .., ha, ?_⟩
        intro y hy _ hlt
        rcases List.mem_cons.mp hy with rfl | hy
        · exact List.lt_irrefl _ hlt
        · exact List.lt_asymm hlt (h1 y hy)
      · obtain ⟨x, hx, hp⟩ := h
        have hxL : x ∈ L := by
          rcases List.mem_cons.mp hx with rfl | hx
          · exact absurd hp ha
          · exact hx
        obtain ⟨z, hz, hpz, hmin⟩ := exists_first h2 ⟨x, hxL, hp⟩
        refine ⟨z, List.mem_cons_of_mem _ hz, hpz, ?_⟩
        intro y hy hpy
        rcases List.mem_cons.mp hy with rfl | hy
        · exact absurd hpy ha
        · exact hmin y hy hpy

theorem best_take {C : Coll} {P : List Str → Prop} {S : Coll} (hs : S.Pairwise (fun a b => a.1 < b.1)) (hS : ∀ r, r ∈ S ↔ r ∈ C ∧ P r.2) (k : Nat) :
    Spec.Best C P k (S.take k) := by
  refine ⟨fun r hr => (hS r).mp (List.mem_of_mem_take hr), hs.sublist (List.take_sublist _ _), by rw [List.length_take]; omega, ?_⟩
  intro r hr hp hn
  have hrS := (hS r).mpr ⟨hr, hp⟩
  rw [← List.take_append_drop k S] at hrS hs
  rcases List.mem_append.mp hrS with h | h
  · exact absurd h hn
  · refine ⟨?_, fun e he => (List.pairwise_append.mp hs).2.2 e he r h⟩
    have := List.length_pos_iff.mpr (List.ne_nil_of_mem h)
    rw [List.length_drop] at this
    rw [List.length_take]; omega

/-- the only block that is looked at, when all the terms that are found are in one block -/
theorem looked_one {C : Coll} {m : Nat} {B : List (List Str)} (hB : IsBlocks C m B) {last : Str} {b : List Str} (hb : b ∈ B)
    (hone : ∀ x, IsTerm C x → Reaches C last x → x ∈ b) (hsome : ∃ x, IsTerm C x ∧ Reaches C last x) : Looked C last b := by
  obtain ⟨x, hx, hre⟩ := hsome
  obtain ⟨y, hy, hp, hmin⟩ := exists_first (P := fun x => IsTerm C x ∧ Reaches C last x) hB.sorted ⟨x, (hB.terms x).mpr hx, hx, hre⟩
  exact ⟨y, hone y hp.1 hp.2, hp.1, hp.2, Or.inl ⟨hp.1, hp.2, fun z hz hrz => hmin z ((hB.terms z).mpr hz) ⟨hz, hrz⟩⟩⟩

theorem flatten_disjoint {B : List (List Str)} (hs : B.flatten.Pairwise (· < ·)) : B.Pairwise (fun a b => ∀ x ∈ a, x ∉ b) := by
  rw [List.pairwise_flatten] at hs
  refine hs.2.imp ?_
  intro a b h x hxa hxb
  exact List.lt_irrefl _ (h x hxa x hxb)

theorem copies_one {C : Coll} {m : Nat} {B : List (List Str)} (hB : IsBlocks C m B) {last : Str} {b : List Str} (hb : b ∈ B)
    (hone : ∀ x, IsTerm C x → Reaches C last x → x ∈ b) {r : Nat × List Str} (hr : r ∈ C) :
    ((∃ x ∈ r.2, Reaches C last x) → copies C B last r.2 = 1) ∧ ((¬ ∃ x ∈ r.2, Reaches C last x) → copies C B last r.2 = 0) := by
  classical
  constructor
  · rintro ⟨x, hx, hre⟩
    have hT : IsTerm C x := ⟨r, hr, hx⟩
    have hbL := looked_one hB hb hone ⟨x, hT, hre⟩
    have hiff : ∀ a ∈ B, (Looked C last a ∧ FoundIn C last a r.2) ↔ a = b := by
      intro a ha
      constructor
      · rintro ⟨_, y, hy, hya, hry⟩
        have hyb := hone y ⟨r, hr, hy⟩ hry
        by_cases hab : a = b
        · exact hab
        · exfalso
          have hp := flatten_disjoint hB.sorted
          obtain ⟨i, hi, rfl⟩ := List.mem_iff_getElem.mp ha
          obtain ⟨j, hj, rfl⟩ := List.mem_iff_getElem.mp hb
          rcases Nat.lt_trichotomy i j with hij | hij | hij
          · exact List.pairwise_iff_getElem.mp hp i j hi hj hij y hya hyb
          · subst hij; exact hab rfl
          · exact List.pairwise_iff_getElem.mp hp j i hj hi hij y hyb hya
      · rintro rfl
        exact ⟨hbL, x, hx, hone x hT hre, hre⟩
    unfold copies
    rw [← List.countP_eq_length_filter]
    have hc : B.countP (fun a => decide (Looked C last a ∧ FoundIn C last a r.2)) = B.count b := by
      rw [List.count_eq_countP]
      apply List.countP_congr
      intro a ha
      simp only [decide_eq_true_eq, beq_iff_eq]
      exact hiff a ha
    have hnd : B.Nodup := by
      rw [List.nodup_iff_pairwise_ne, List.pairwise_iff_getElem]
      intro i j hi hj hij he
      obtain ⟨y, hy⟩ := List.exists_mem_of_ne_nil _ (hB.nonempty _ (List.getElem_mem hi))
      exact List.pairwise_iff_getElem.mp (flatten_disjoint hB.sorted) i j hi hj hij y hy (he ▸ hy)
    rw [hc, List.Nodup.count hnd, if_pos hb]
  · intro hno
    unfold copies
    rw [List.filter_eq_nil_iff.mpr, List.length_nil]
    intro a _
    simp only [decide_eq_true_eq]
    rintro ⟨_, y, hy, _, hre⟩
    exact hno ⟨y, hy, hre⟩

/-- The first `k` are the best `k` of those that match, if the terms that complete the last one lie in one block and nothing that matches is skipped. -/
theorem _root_.AC.Spec.Result4.best {C : Coll} (hC : ValidColl C) {m : Nat} {B : List (List Str)} (hB : IsBlocks C m B) {q : Str} {S : Coll}
    (hS : Result4 C B (completeTerms q) (lastTerm q) S) (hl : LastOk C (lastTerm q)) (hone : ∃ b ∈ B, ∀ x, IsTerm C x → lastTerm q <+: x → x ∈ b)
    (hskip : (∀ t ∈ completeTerms q, ¬ IsTerm C t) ∨ ∀ r ∈ C, ConjMatch C (completeTerms q) (lastTerm q) r.2 → ¬ Skipped C B (completeTerms q) r) (k : Nat) :
    Spec.Best C (ConjMatch C (completeTerms q) (lastTerm q)) k (S.take k) := by
  obtain ⟨b, hb, hone⟩ := hone
  have hone' : ∀ x, IsTerm C x → Reaches C (lastTerm q) x → x ∈ b := fun x hx hre => hone x hx hre.1
  have hre : ∀ x, IsTerm C x → lastTerm q <+: x → Reaches C (lastTerm q) x := fun x hx hp => ⟨hp, fun hf => hl x hf hp⟩
  by_cases hkn : ∃ t ∈ completeTerms q, IsTerm C t
  · obtain ⟨a1, a2, a3⟩ := hS.inter hkn
    refine best_take a1 ?_ k
    intro r
    constructor
    · intro hr
      obtain ⟨b1, _, b', _, _, y, hy, _, hry⟩ := a2 r hr
      exact ⟨hS.mem r hr, b1, y, hy, hry.1⟩
    · rintro ⟨hr, hm⟩
      have hns := (hskip.resolve_left (fun hn => by obtain ⟨t, ht, hT⟩ := hkn; exact hn t ht hT)) r hr hm
      obtain ⟨b1, y, hy, hpy⟩ := hm
      have hTy : IsTerm C y := ⟨r, hr, hy⟩
      have hfb : FoundIn C (lastTerm q) b r.2 := ⟨y, hy, hone y hTy hpy, hre y hTy hpy⟩
      refine a3 r hr b1 hns ⟨b, hb, looked_one hB hb hone' ⟨y, hTy, hre y hTy hpy⟩, hfb⟩ ?_
      rintro b' hb' ⟨z, hz, hTz, hrz, _⟩ _
      have hzb := hone' z hTz hrz
      have : b' = b := by
        have hp := flatten_disjoint hB.sorted
        obtain ⟨i, hi, rfl⟩ := List.mem_iff_getElem.mp hb'
        obtain ⟨j, hj, rfl⟩ := List.mem_iff_getElem.mp hb
        rcases Nat.lt_trichotomy i j with hij | hij | hij
        · exact absurd hzb (List.pairwise_iff_getElem.mp hp i j hi hj hij z hz)
        · subst hij; rfl
        · exact absurd hz (List.pairwise_iff_getElem.mp hp j i hj hi hij z hzb)
      rw [this]
      exact hfb
  · have hn : ∀ t ∈ completeTerms q, ¬ IsTerm C t := fun t ht hT => hkn ⟨t, ht, hT⟩
    obtain ⟨a1, a2⟩ := hS.union hn
    have hmem : ∀ r, r ∈ S ↔ r ∈ C ∧ ConjMatch C (completeTerms q) (lastTerm q) r.2 := by
      intro r
      constructor
      · intro hr
        obtain ⟨b1, _, _, _, y, hy, _, hry⟩ := hS.found hr
        exact ⟨hS.mem r hr, b1, y, hy, hry.1⟩
      · rintro ⟨hr, _, y, hy, hpy⟩
        have := (copies_one hB hb hone' hr).1 ⟨y, hy, hre y ⟨r, hr, hy⟩ hpy⟩
        rw [← a2 r hr] at this
        exact List.count_pos_iff.mp (by omega)
    refine best_take ?_ hmem k
    have hnd : S.Nodup := by
      rw [List.nodup_iff_count]
      intro r
      by_cases hr : r ∈ S
      · rw [a2 r (hS.mem r hr)]
        by_cases hc : ∃ x ∈ r.2, Reaches C (lastTerm q) x
        · rw [(copies_one hB hb hone' (hS.mem r hr)).1 hc]; omega
        · rw [(copies_one hB hb hone' (hS.mem r hr)).2 hc]; omega
      · rw [List.count_eq_zero_of_not_mem hr]; omega
    rw [List.nodup_iff_pairwise_ne] at hnd
    have := List.pairwise_and_iff.mpr ⟨a1, hnd⟩
    refine this.imp_of_mem ?_
    rintro ⟨d, c⟩ ⟨d', c'⟩ hr hr' ⟨hle, hne⟩
    refine Nat.lt_of_le_of_ne hle ?_
    intro he
    dsimp only at he
    subst he
    exact hne (by rw [hC.ready.unique (hS.mem _ hr) (hS.mem _ hr')])

/-- **C06**: conjunctive search with type 4 returns the `k` best matching completions, each once, in increasing order of document ids.
Missing from the claim, besides what is missing for the other types: the queries whose last term is completed by terms of more than one block
(`C06_false_unvisited`, `C06_duplicates`), and those that match the first document of a block that has all the known complete terms
(`C06_false_skipped`). -/
theorem C06_conj4_partial (std : StdLib) {C : Coll} (hC : ValidColl C) (hw : Suits4 C) (m : Nat) (mem : Nat → W) :
    ∃ x B, Index4.build std m (Pre.run C) mem = .ok x ∧ IsBlocks C m B ∧ ∀ q k s, IsText q → 1 ≤ k → k ≤ MAX_K → Scratch.WF s → LastOk C (lastTerm q) →
      (∀ r ∈ C, k * (joined r.2).length + 2 * MAX_CHARS ≤ POOL_SIZE) →
      (∃ b ∈ B, ∀ x, IsTerm C x → lastTerm q <+: x → x ∈ b) →
      ((∀ t ∈ completeTerms q, ¬ IsTerm C t) ∨ ∀ r ∈ C, ConjMatch C (completeTerms q) (lastTerm q) r.2 → ¬ Skipped C B (completeTerms q) r) →
      ∃ s' res, x.conjTopk std q k s = .ok s' ∧ s'.WF ∧ s'.pool.results = .ok res ∧
        Answer C (ConjMatch C (completeTerms q) (lastTerm q)) k res := by
  obtain ⟨x, B, h1, hB, h2⟩ := C06_exact std hC hw m mem
  refine ⟨x, B, h1, hB, ?_⟩
  intro q k s hq hk hk' hs hl hroom hone hskip
  obtain ⟨S, hS, hsh⟩ := h2 q hq
  have hsh := hsh q hq rfl (fun _ => Iff.rfl) k hk hk' s hs
  have hbest := hS.best hC hB hl hone hskip k
  exact (show Outcome _ _ _ _ _ from ⟨_, hbest, hsh⟩).answer (room_of hk hroom)

/-! ## When it is wrong -/

/-- **C06 is false** (duplicates): without known complete terms, a completion is returned once for each of the blocks that are looked at
and in which it is found, whenever fewer than `k` results, or a result after it, are returned -/
theorem C06_duplicates (std : StdLib) {C : Coll} (hC : ValidColl C) (hw : Suits4 C) (m : Nat) (mem : Nat → W) :
    ∃ x B, Index4.build std m (Pre.run C) mem = .ok x ∧ IsBlocks C m B ∧ ∀ q k s s' res r, IsText q → 1 ≤ k → k ≤ MAX_K → Scratch.WF s →
      x.conjTopk std q k s = .ok s' → s'.pool.results = .ok res → (∀ t ∈ completeTerms q, ¬ IsTerm C t) → r ∈ C →
      (res.length < k ∨ ∃ e ∈ res, r.1 < e.1) → res.count (shown r) = copies C B (lastTerm q) r.2 := by
  obtain ⟨x, B, h1, hB, h2⟩ := C06_exact std hC hw m mem
  refine ⟨x, B, h1, hB, ?_⟩
  intro q k s s' res r hq hk hk' hs ho hr hn hrC hcase
  obtain ⟨S, hS, hsh⟩ := h2 q hq
  have hsh := hsh q hq rfl (fun _ => Iff.rfl) k hk hk' s hs
  have hres := hsh.results ho hr
  subst hres
  obtain ⟨a1, a2⟩ := hS.union hn
  have hcount : ((S.take k).map shown).count (shown r) = (S.take k).count r := by
    rw [List.count_eq_countP, List.countP_map, List.count_eq_countP]
    apply List.countP_congr
    intro e he
    simp only [Function.comp, beq_iff_eq]
    constructor
    · intro hh
      have h1 : e.1 = r.1 := congrArg (fun z : Nat × Str => z.1) hh
      have h2 := hS.mem e (List.mem_of_mem_take he)
      have : e.2 = r.2 := hC.ready.unique (d := e.1) h2 (by rw [h1]; exact hrC)
      exact Prod.ext h1 this
    · rintro rfl; rfl
  rw [hcount, ← a2 r hrC]
  have hdrop : (S.drop k).count r = 0 := by
    apply List.count_eq_zero_of_not_mem
    intro hm
    rcases hcase with hlt | ⟨e, he, hlt⟩
    · rw [List.length_map, List.length_take] at hlt
      rw [List.drop_eq_nil_of_le (by omega)] at hm
      simp at hm
    · obtain ⟨e', he', rfl⟩ := List.mem_map.mp he
      rw [← List.take_append_drop k S] at a1
      have := (List.pairwise_append.mp a1).2.2 e' he' r hm
      change r.1 < e'.1 at hlt
      omega
  conv => rhs; rw [← List.take_append_drop k S, List.count_append, hdrop]
  rfl

/-- **C06 is false** (missing results): a completion that is found only in blocks that are not looked at is never returned -/
theorem C06_false_unvisited (std : StdLib) {C : Coll} (hC : ValidColl C) (hw : Suits4 C) (m : Nat) (mem : Nat → W) :
    ∃ x B, Index4.build std m (Pre.run C) mem = .ok x ∧ IsBlocks C m B ∧ ∀ q k s s' res r, IsText q → 1 ≤ k → k ≤ MAX_K → Scratch.WF s →
      x.conjTopk std q k s = .ok s' → s'.pool.results = .ok res → r ∈ C → (∀ b ∈ B, FoundIn C (lastTerm q) b r.2 → ¬ Looked C (lastTerm q) b) →
      r.1 ∉ res.map (·.1) := by
  obtain ⟨x, B, h1, hB, h2⟩ := C06_exact std hC hw m mem
  refine ⟨x, B, h1, hB, ?_⟩
  intro q k s s' res r hq hk hk' hs ho hr hrC hno hmem
  obtain ⟨S, hS, hsh⟩ := h2 q hq
  have hsh := hsh q hq rfl (fun _ => Iff.rfl) k hk hk' s hs
  have hres := hsh.results ho hr
  subst hres
  obtain ⟨e, he, hd⟩ := List.mem_map.mp hmem
  obtain ⟨e', he', rfl⟩ := List.mem_map.mp he
  have heS := List.mem_of_mem_take he'
  obtain ⟨_, b, hb, hl, hf⟩ := hS.found heS
  have : e'.2 = r.2 := hC.ready.unique (d := r.1) (by have := hS.mem e' heS; change e'.1 = r.1 at hd; rw [← hd]; exact this) hrC
  rw [this] at hf
  exact hno b hb hf hl

/-- **C06 is false** (missing results): the first document of a block that has all the known complete terms is never returned -/
theorem C06_false_skipped (std : StdLib) {C : Coll} (hC : ValidColl C) (hw : Suits4 C) (m : Nat) (mem : Nat → W) :
    ∃ x B, Index4.build std m (Pre.run C) mem = .ok x ∧ IsBlocks C m B ∧ ∀ q k s s' res r, IsText q → 1 ≤ k → k ≤ MAX_K → Scratch.WF s →
      x.conjTopk std q k s = .ok s' → s'.pool.results = .ok res → (∃ t ∈ completeTerms q, IsTerm C t) → r ∈ C → Skipped C B (completeTerms q) r →
      r.1 ∉ res.map (·.1) := by
  obtain ⟨x, B, h1, hB, h2⟩ := C06_exact std hC hw m mem
  refine ⟨x, B, h1, hB, ?_⟩
  intro q k s s' res r hq hk hk' hs ho hr hkn hrC hsk hmem
  obtain ⟨S, hS, hsh⟩ := h2 q hq
  have hsh := hsh q hq rfl (fun _ => Iff.rfl) k hk hk' s hs
  have hres := hsh.results ho hr
  subst hres
  obtain ⟨e, he, hd⟩ := List.mem_map.mp hmem
  obtain ⟨e', he', rfl⟩ := List.mem_map.mp he
  have heS := List.mem_of_mem_take he'
  change e'.1 = r.1 at hd
  have h2 : e'.2 = r.2 := hC.ready.unique (d := r.1) (by have := hS.mem e' heS; rw [← hd]; exact this) hrC
  have : e' = r := Prod.ext hd h2
  subst this
  exact ((hS.inter hkn).2.1 e' heS).2.1 hsk

/-! ## Examples -/

theorem sampleColl_terms (t : Str) : IsTerm sampleColl t ↔ t ∈ [[97, 98], [98], [99]] := by
  simp only [IsTerm, sampleColl, List.mem_cons, List.not_mem_nil, or_false, exists_eq_or_imp, exists_eq_left]
  grind

theorem sampleColl_suits4 : Suits4 sampleColl := ⟨sampleColl_suits.to3, by decide⟩

/-- the blocks of the sample, for the block sizes 3 and 100 -/
theorem sampleColl_blocks : IsBlocks sampleColl 3 [[[97, 98]], [[98]], [[99]]] ∧ IsBlocks sampleColl 100 [[[97, 98], [98], [99]]] := by
  constructor
  · exact ⟨by decide, fun t => by rw [sampleColl_terms]; rfl, by decide, by decide, by decide⟩
  · exact ⟨by decide, fun t => by rw [sampleColl_terms]; rfl, by decide, by decide, by decide⟩

theorem sampleColl_reaches (x : Str) : Reaches sampleColl [] x := ⟨List.nil_prefix, fun _ => Or.inl rfl⟩

/-- the conditions of `C06_conj4_partial`, for the query `"zz b"`, which has no known complete term: all that `"b"` reaches is in one block -/
example : LastOk sampleColl (lastTerm [122, 122, 32, 98]) ∧ (∀ r ∈ sampleColl, 5 * (joined r.2).length + 2 * MAX_CHARS ≤ POOL_SIZE) ∧
    (∃ b ∈ [[[97, 98]], [[98]], [[99]]], ∀ x, IsTerm sampleColl x → lastTerm [122, 122, 32, 98] <+: x → x ∈ b) ∧
    (∀ t ∈ completeTerms [122, 122, 32, 98], ¬ IsTerm sampleColl t) := by
  refine ⟨lastOk_of sampleColl_valid (by decide +kernel), by decide, ⟨[[98]], by decide, ?_⟩, ?_⟩
  · intro x hx hp
    rw [sampleColl_terms] at hx
    revert hp
    revert x
    decide
  · intro t ht hT
    rw [sampleColl_terms] at hT
    revert ht
    revert t
    decide

/-- and for the query `"c b"`: the first document of the block of `"c"` is 2, which does not match -/
example : LastOk sampleColl (lastTerm [99, 32, 98]) ∧ (∃ b ∈ [[[97, 98]], [[98]], [[99]]], ∀ x, IsTerm sampleColl x → lastTerm [99, 32, 98] <+: x → x ∈ b) ∧
    (∀ r ∈ sampleColl, ConjMatch sampleColl (completeTerms [99, 32, 98]) (lastTerm [99, 32, 98]) r.2 →
      ¬ Skipped sampleColl [[[97, 98]], [[98]], [[99]]] (completeTerms [99, 32, 98]) r) ∧
    (5, [[99], [98], [98]]) ∈ sampleColl ∧ ConjMatch sampleColl (completeTerms [99, 32, 98]) (lastTerm [99, 32, 98]) [[99], [98], [98]] := by
  have hq : completeTerms [99, 32, 98] = [[99]] ∧ lastTerm [99, 32, 98] = [98] := by decide
  rw [hq.1, hq.2]
  refine ⟨lastOk_of sampleColl_valid (by decide +kernel), ⟨[[98]], by decide, ?_⟩, ?_, by decide, fun t ht _ => by simp only [List.mem_cons, List.not_mem_nil, or_false] at ht; subst ht; decide, [98], by decide, by decide⟩
  · intro x hx hp
    rw [sampleColl_terms] at hx
    revert hp
    revert x
    decide
  · rintro r hr ⟨h1, h2⟩ ⟨b, hb, hall, _, hfirst⟩
    have hT : IsTerm sampleColl [99] := (sampleColl_terms _).mpr (by decide)
    have hb' := hall [99] (by decide) hT
    have hb2 : b = [[99]] := (by decide : ∀ b ∈ [[[97, 98]], [[98]], [[99]]], [99] ∈ b → b = [[99]]) b hb hb'
    subst hb2
    have h3 := hfirst (2, [[97, 98], [99]]) (by decide) ⟨[99], by decide, by decide⟩
    have h4 := h1 [99] (by decide) hT
    exact (by decide : ∀ r ∈ sampleColl, (∃ x ∈ r.2, [98] <+: x) → r.1 ≤ 2 → [99] ∉ r.2) r hr h2 h3 h4

/-- In the sample cut into blocks of size 3, the empty query looks at the blocks of `"ab"` and `"b"`: the completion "ab b" has two copies. -/
example : copies sampleColl [[[97, 98]], [[98]], [[99]]] [] [[97, 98], [98]] = 2 := by
  classical
  have hl : ∀ x y : Str, IsTerm sampleColl x → IsTerm sampleColl y → x < y → Looked sampleColl [] [x] := by
    intro x y hx hy hxy
    exact ⟨x, List.mem_cons_self .., hx, sampleColl_reaches x, Or.inr ⟨y, hy, sampleColl_reaches y, hxy⟩⟩
  have h1 := hl [97, 98] [98] ((sampleColl_terms _).mpr (by decide)) ((sampleColl_terms _).mpr (by decide)) (by decide)
  have h2 := hl [98] [99] ((sampleColl_terms _).mpr (by decide)) ((sampleColl_terms _).mpr (by decide)) (by decide)
  have f1 : FoundIn sampleColl [] [[97, 98]] [[97, 98], [98]] := ⟨[97, 98], by decide, by decide, sampleColl_reaches _⟩
  have f2 : FoundIn sampleColl [] [[98]] [[97, 98], [98]] := ⟨[98], by decide, by decide, sampleColl_reaches _⟩
  have f3 : ¬ FoundIn sampleColl [] [[99]] [[97, 98], [98]] := by
    rintro ⟨x, hx, hx', _⟩
    simp only [List.mem_cons, List.not_mem_nil, or_false] at hx hx'
    subst hx'
    revert hx
    simp
  unfold copies
  rw [List.filter_cons_of_pos (by simp [h1, f1]), List.filter_cons_of_pos (by simp [h2, f2]), List.filter_cons_of_neg (by simp [f3])]
  rfl

/-- The query `"b "` matches the completion "b", of document 0, which is skipped in the sample when it is one block. -/
example : (0, [[98]]) ∈ sampleColl ∧ ConjMatch sampleColl (completeTerms [98, 32]) (lastTerm [98, 32]) [[98]] ∧
    (∃ t ∈ completeTerms [98, 32], IsTerm sampleColl t) ∧ Skipped sampleColl [[[97, 98], [98], [99]]] (completeTerms [98, 32]) (0, [[98]]) := by
  have hq : completeTerms [98, 32] = [[98]] ∧ lastTerm [98, 32] = [] := by decide
  rw [hq.1, hq.2]
  refine ⟨by decide, ⟨fun t ht _ => ht, [98], by decide, by decide⟩, ⟨[98], by decide, (sampleColl_terms _).mpr (by decide)⟩, ?_⟩
  refine ⟨_, List.mem_cons_self .., ?_, ⟨[98], by decide, by decide⟩, fun r _ _ => Nat.zero_le _⟩
  intro t ht _
  exact (by decide : ∀ t ∈ [[98]], t ∈ [[97, 98], [98], [99]]) t ht

/-- two completions of one term each -/
def twoColl : Coll := [(4, [[97]]), (2, [[98]])]

theorem twoColl_terms (t : Str) : IsTerm twoColl t ↔ t ∈ [[97], [98]] := by
  simp only [IsTerm, twoColl, List.mem_cons, List.not_mem_nil, or_false, exists_eq_or_imp, exists_eq_left]

theorem twoColl_valid : ValidColl twoColl :=
  ⟨by decide, by decide, by decide, by decide, by decide, by decide, by decide, by decide, by decide, by decide⟩

theorem twoColl_suits : Suits4 twoColl :=
  { terms := ⟨_, twoColl_valid.ready.numTerms, by decide +kernel⟩
    count := by decide
    doc0 := ⟨(4, [[97]]), by decide, by decide⟩
    ids := by decide }

/-- In this collection, cut into blocks of one term, the empty query matches the completion "b", but the block of `"b"` is not looked at. -/
example : IsBlocks twoColl 1 [[[97]], [[98]]] ∧ (2, [[98]]) ∈ twoColl ∧ ConjMatch twoColl (completeTerms []) (lastTerm []) [[98]] ∧
    ∀ b ∈ [[[97]], [[98]]], FoundIn twoColl (lastTerm []) b [[98]] → ¬ Looked twoColl (lastTerm []) b := by
  have hq : completeTerms [] = [] ∧ lastTerm [] = [] := by decide
  rw [hq.1, hq.2]
  refine ⟨⟨by decide, fun t => by rw [twoColl_terms]; rfl, by decide, by decide, by decide⟩, by decide, ⟨by simp, [98], by decide, by decide⟩, ?_⟩
  rintro b hb ⟨x, hx, hxb, _⟩ ⟨y, hy, hT, _, hcase⟩
  have h1 : ∀ b ∈ [[[97]], [[98]]], ∀ x ∈ [[98]], x ∈ b → b = [[98]] := by decide
  have := h1 b hb x hx hxb
  subst this
  simp only [List.mem_cons, List.not_mem_nil, or_false] at hy
  subst hy
  rcases hcase with hf | ⟨z, hz, _, hlt⟩
  · exact hf.2.2 [97] ((twoColl_terms _).mpr (by decide)) ⟨List.nil_prefix, fun _ => Or.inl rfl⟩ (by decide)
  · rw [twoColl_terms] at hz
    exact (by decide : ∀ z ∈ [[97], [98]], ¬ [98] < z) z hz hlt

/-! ## Prefix search -/

theorem _root_.AC.Index4.toBase_build {std : StdLib} {m : Nat} {F : Files} {mem : Nat → W} {x : Index4} (h : Index4.build std m F mem = .ok x) :
    Base.build F mem = .ok x.toBase := by
  unfold Index4.build at h
  cases hb : BlkBuilder.mk' std m F.univ F.inverted with
  | error e => rw [hb] at h; cases h
  | ok ib =>
      rw [hb, M.ok_bind] at h
      cases hx : Base.build F mem with
      | error e => rw [hx] at h; cases h
      | ok base =>
          rw [hx, M.ok_bind] at h
          cases hi : ib.build (fun i => mem (7 + i)) with
          | error e => rw [hi] at h; cases h
          | ok ii =>
              rw [hi, M.ok_bind] at h
              cases h
              rfl

/-- prefix search with type 4 is that of types 2 and 3: C02 holds for it to the same extent -/
theorem C02_type4 (std : StdLib) {C : Coll} (hC : ValidColl C) (hw : Suits3 C) (m : Nat) (mem : Nat → W) :
    ∃ x, Index4.build std m (Pre.run C) mem = .ok x ∧ ∀ q k s, IsText q → 1 ≤ k → k ≤ MAX_K → Scratch.WF s →
      Outcome C (Pre.run C).terms (PrefixFound2 C (completeTerms q) (lastTerm q)) k (x.prefixTopk std q k s) := by
  obtain ⟨x, docss, h1, _⟩ := Index4.exists hC.ready hw std m mem
  obtain ⟨y, h2, h3⟩ := C02_exact std hC hw mem
  rw [Index4.toBase_build h1] at h2
  cases h2
  exact ⟨x, h1, h3⟩

/-- the two searches of type 4 -/
def _root_.AC.Index4.ask (x : Index4) (std : StdLib) (a : Ask) (s : Scratch) : M Scratch :=
  if a.conj then x.conjTopk std a.text a.k s else x.toBase.prefixTopk std a.text a.k s

theorem _root_.AC.Shows.same {terms : List Str} {E : Coll} {o o' : M Scratch} (h : Shows terms E o) (h' : Shows terms E o') : SameAnswer o o' := by
  rcases h with ⟨e1, e2, _⟩ | ⟨s, e1, _, e2, e3, _⟩
  · rcases h' with ⟨f1, f2, _⟩ | ⟨s', f1, _, f2, f3, _⟩
    · exact Or.inl ⟨e1, f1⟩
    · exact absurd f3 e2
  · rcases h' with ⟨f1, f2, _⟩ | ⟨s', f1, _, f2, f3, _⟩
    · exact absurd e3 f2
    · exact Or.inr ⟨s, s', _, e1, f1, e2, f2⟩

theorem _root_.AC.Shows.wf {terms : List Str} {E : Coll} {o : M Scratch} (h : Shows terms E o) {s : Scratch} (ho : o = .ok s) : s.WF := by
  rw [ho] at h
  rcases h with ⟨e, _⟩ | ⟨s', e, hw, _⟩
  · cases e
  · cases e; exact hw

theorem _root_.AC.Index4.rep_of_build {C : Coll} (hC : ValidColl C) (hw : Suits3 C) {std : StdLib} {m : Nat} {mem : Nat → W} {x : Index4}
    (hb : Index4.build std m (Pre.run C) mem = .ok x) : ∃ docss, x.Rep m (Pre.run C) docss := by
  obtain ⟨y, docss, h1, h2⟩ := Index4.exists hC.ready hw std m mem
  rw [hb] at h1; cases h1; exact ⟨docss, h2⟩

theorem type4_shows {C : Coll} (hC : ValidColl C) (hw : Suits4 C) {std₀ : StdLib} {m : Nat} {mem : Nat → W} {x : Index4}
    (hb : Index4.build std₀ m (Pre.run C) mem = .ok x) (std : StdLib) (a : Ask) (ha : a.Ok) :
    ∃ E, ∀ s : Scratch, s.WF → Shows (Pre.run C).terms E (x.ask std a s) := by
  obtain ⟨docss, hx⟩ := Index4.rep_of_build hC hw.toSuits3 hb
  obtain ⟨cj, q, k⟩ := a
  obtain ⟨h1, h2, h3⟩ := ha
  cases cj with
  | true =>
      obtain ⟨S, _, hS⟩ := Index4.conj_spec hC.ready std hx hw.ids h1
      exact ⟨_, hS q h1 rfl (fun _ => Iff.rfl) k h2 h3⟩
  | false =>
      obtain ⟨E, b, _⟩ := Base.prefix_spec std hC.ready hx.base hx.dict hx.built h1 h2 h3 Scratch.fresh_wf
      refine ⟨E, ?_⟩
      intro s hs
      obtain ⟨E', b', h'⟩ := Base.prefix_spec std hC.ready hx.base hx.dict hx.built h1 h2 h3 hs
      rw [b.unique hC.docs (fun _ _ => Iff.rfl) b']
      exact h'

/-- **C31** for type 4: with the same standard library, the answer does not depend on the searches made before. -/
theorem C31_type4 {C : Coll} (hC : ValidColl C) (hw : Suits4 C) {std₀ : StdLib} {m : Nat} {mem : Nat → W} {x : Index4}
    (hb : Index4.build std₀ m (Pre.run C) mem = .ok x) (std : StdLib) (a : Ask) (ha : a.Ok) {s s' : Scratch} (hs : Visited x.ask s)
    (hs' : Visited x.ask s') : SameAnswer (x.ask std a s) (x.ask std a s') := by
  have hwf : ∀ {s}, Visited x.ask s → s.WF := by
    intro s hs
    induction hs with
    | fresh => exact Scratch.fresh_wf
    | step _ ha ho ih =>
        obtain ⟨E, hE⟩ := type4_shows hC hw hb _ _ ha
        exact (hE _ ih).wf ho
  obtain ⟨E, hE⟩ := type4_shows hC hw hb std a ha
  exact (hE s (hwf hs)).same (hE s' (hwf hs'))

/-- **C07**, prefix search with types 3 and 4. -/
theorem C07_prefix34 {C : Coll} (hC : ValidColl C) (hw : Suits3 C) {std₀ : StdLib} {m : Nat} {mem mem' : Nat → W} {x : Index3} {y : Index4}
    (hx : Index3.build (Pre.run C) mem = .ok x) (hy : Index4.build std₀ m (Pre.run C) mem' = .ok y) (std std' : StdLib) (a : Ask) (ha : a.Ok)
    (hp : a.conj = false) {s s' : Scratch} (hs : s.WF) (hs' : s'.WF) : SameAnswer (x.ask std a s) (y.ask std' a s') := by
  have h := Index3.serves hC (Index3.rep_of_build hC hw hx) std a s ha hs
  obtain ⟨docss, h'⟩ := Index4.rep_of_build hC hw hy
  obtain ⟨cj, q, k⟩ := a
  cases hp
  exact h.same hC.docs (fun _ _ => Iff.rfl) (Base.prefix_spec std' hC.ready h'.base h'.dict h'.built ha.1 ha.2.1 ha.2.2 hs')

/-- **C42** for type 4: it can be built exactly when type 3 can be. -/
theorem C42_type4 {C : Coll} (hC : ValidColl C) (std : StdLib) (m : Nat) (mem : Nat → W) :
    ((∃ x, Index4.build std m (Pre.run C) mem = .ok x) ∧ ∃ r ∈ C.take (kept C.length), r.1 ≠ 0) ∨
      (Index4.build std m (Pre.run C) mem = .error .thrown ∧ ¬ ∃ r ∈ C.take (kept C.length), r.1 ≠ 0) := by
  have h := hC.ready
  obtain ⟨ib, b1, b2, b3⟩ := BlkBuilder.build_spec h.blkLists std m
  obtain ⟨ii, docss, b4, b5⟩ := b3 (fun i => mem (7 + i))
  unfold Index4.build
  rw [b1, M.ok_bind]
  rcases Base.build_iff h mem with ⟨⟨x, x1⟩, x2⟩ | ⟨x1, x2⟩
  · rw [x1, M.ok_bind, b4, M.ok_bind]
    exact Or.inl ⟨⟨_, rfl⟩, x2⟩
  · rw [x1]
    exact Or.inr ⟨rfl, x2⟩

end AC.Props
