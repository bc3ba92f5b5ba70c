import Verif.Proofs.ConjLoops
import Verif.Proofs.Pool
import Verif.Proofs.IntDictionary
import Verif.Proofs.UnsortedList
/-!
# Completions of the results in types 2, 3 and 4, and the loop of the conjunctive queries in type 2
-/
namespace AC

/-- the completions and the sizes that have been loaded -/
def Rows (compl : List Ids) (sizes : List Nat) (cs : List Ids) : Prop :=
  ∀ j (h : j < cs.length), ∃ row, compl[j]? = some row ∧ row.take cs[j].length = cs[j] ∧ sizes[j]? = some cs[j].length

/-- the sizes of `m_topk_completion_set` never change -/
structure Shape (compl : List Ids) (sizes : List Nat) : Prop where
  count : compl.length = MAX_K
  rows : ∀ row ∈ compl, row.length = 2 * MAX_TERMS
  slots : sizes.length = MAX_K

theorem Rows.nil {compl : List Ids} {sizes : List Nat} : Rows compl sizes [] := by
  intro j h; simp at h

theorem Rows.compl_set {compl : List Ids} {sizes : List Nat} {cs : List Ids} (h : Rows compl sizes cs) {i : Nat} {row : Ids}
    (hi : cs.length ≤ i) : Rows (compl.set i row) sizes cs := by
  intro j hj
  obtain ⟨r, h1, h2, h3⟩ := h j hj
  exact ⟨r, by rw [List.getElem?_set_ne (by omega)]; exact h1, h2, h3⟩

theorem Rows.snoc {compl : List Ids} {sizes : List Nat} {cs : List Ids} (h : Rows compl sizes cs) {i : Nat} {row c : Ids}
    (hi : cs.length = i) (hc : compl[i]? = some row) (ht : row.take c.length = c) (hs : i < sizes.length) :
    Rows compl (sizes.set i c.length) (cs ++ [c]) := by
  intro j hj
  rcases Nat.lt_or_ge j cs.length with hlt | hge
  · obtain ⟨r, h1, h2, h3⟩ := h j hlt
    refine ⟨r, h1, ?_, ?_⟩
    · rw [List.getElem_append_left hlt]; exact h2
    · rw [List.getElem_append_left hlt, List.getElem?_set_ne (by omega)]; exact h3
  · have hj' : j = cs.length := by simp at hj; omega
    subst hj'
    refine ⟨row, by rw [hi]; exact hc, ?_, ?_⟩
    · rw [List.getElem_append_right (Nat.le_refl _)]; simpa using ht
    · subst hi; rw [List.getElem?_set_self hs]; simp

theorem Shape.set {compl : List Ids} {sizes : List Nat} (h : Shape compl sizes) {i : Nat} {row : Ids}
    (hr : row.length = 2 * MAX_TERMS) : Shape (compl.set i row) sizes := by
  refine ⟨by simpa using h.count, ?_, h.slots⟩
  intro r hm
  rcases List.mem_or_eq_of_mem_set hm with hm | rfl
  · exact h.rows r hm
  · exact hr

theorem Shape.size {compl : List Ids} {sizes : List Nat} (h : Shape compl sizes) (i n : Nat) : Shape compl (sizes.set i n) :=
  ⟨h.count, h.rows, by simpa using h.slots⟩

/-- what the members common to types 2, 3 and 4 represent -/
structure Base.Rep (x : Base) (mapped : List (Nat × Ids)) : Prop where
  completions : FC.Rep Elem.u32 64 x.completions (mapped.map (·.2))
  docs : x.docs.Rep (mapped.map (·.1))
  lexids : ∀ i (h : i < mapped.length), ∃ w, x.lexids.get (mapped[i]).1 = .ok w ∧ w.toNat = i

theorem Base.load_spec {x : Base} {mapped : List (Nat × Ids)} (h : x.Rep mapped) {d : Nat} {c : Ids} (hc : (d, c) ∈ mapped)
    {compl : List Ids} {sizes : List Nat} (hs : Shape compl sizes) {i : Nat} (hi : i < MAX_K) :
    ∃ row, x.load d i compl = .ok (compl.set i row, c.length) ∧ row.length = 2 * MAX_TERMS ∧ row.take c.length = c := by
  obtain ⟨j, hj, e⟩ := List.getElem_of_mem hc
  obtain ⟨w, w1, w2⟩ := h.lexids j hj
  rw [e] at w1
  have hil : i < compl.length := by rw [hs.count]; exact hi
  have hrow := hs.rows compl[i] (List.getElem_mem hil)
  obtain ⟨row, r1, r2, r3, r4⟩ := h.completions.extract j (by simpa using hj) compl[i] 0
    (by rw [hrow]; decide)
  have hL : (mapped.map (·.2))[j]'(by simpa using hj) = c := by simp [e]
  rw [hL] at r1 r4
  refine ⟨row, ?_, by rw [r2, hrow], by simpa using r4⟩
  unfold Base.load
  rw [w1, M.ok_bind, rd_ok hil, M.ok_bind, w2, IntDict.extract, r1, M.ok_bind]
  dsimp only
  rw [wr_ok hil]; rfl

theorem Index2.anyTerm_spec (r : Range) (row : Ids) : ∀ (n j : Nat), j + n ≤ row.length →
    Index2.anyTerm r row n j = .ok (((row.drop j).take n).any (fun t => r.contains t)) := by
  intro n
  induction n with
  | zero => intro j h; simp [Index2.anyTerm]
  | succ n ih =>
      intro j h
      have hj : j < row.length := by omega
      rw [Index2.anyTerm, rd_ok hj, M.ok_bind, List.drop_eq_getElem_cons hj, List.take_succ_cons, List.any_cons]
      cases hc : r.contains row[j] with
      | true => rfl
      | false => rw [if_neg (by simp), ih (j + 1) (by omega)]; rfl

/-- the completion of document `d` can be loaded, and is `c` -/
def Base.Loads (x : Base) (d : Nat) (c : Ids) : Prop :=
  ∀ (compl : List Ids) (sizes : List Nat), Shape compl sizes → ∀ i, i < MAX_K →
    ∃ row, x.load d i compl = .ok (compl.set i row, c.length) ∧ row.length = 2 * MAX_TERMS ∧ row.take c.length = c

theorem Base.Rep.loads {x : Base} {mapped : List (Nat × Ids)} (h : x.Rep mapped) {d : Nat} {c : Ids} (hc : (d, c) ∈ mapped) : x.Loads d c :=
  fun _ _ hs _ hi => Base.load_spec h hc hs hi

/-- the loop, when the completions of the documents that it examines can be loaded -/
theorem Index2.conjLoop_loads {x : Index2} (cOf : Nat → Ids) (r : Range) (k : Nat)
    (hk15 : k ≤ MAX_K) {σ : Type} {I : DocIter σ} :
    ∀ (R : List Nat) (fuel : Nat) (it : σ) (scores : List Nat) (compl : List Ids) (sizes : List Nat) (n : Nat) (cs : List Ids),
    I.Enum it R → (∀ A d B, R = A ++ d :: B → n + (A.filter (fun d => (cOf d).any (fun t => r.contains t))).length < k → x.toBase.Loads d (cOf d)) →
    R.length < fuel → n < k → scores.length = MAX_K → Shape compl sizes →
    Rows compl sizes cs → cs.length = n →
    ∃ scores' compl' sizes' n', x.conjLoop I r k fuel it scores compl sizes n = .ok (scores', compl', sizes', n') ∧
      Filled (fun d => (cOf d).any (fun t => r.contains t)) k R scores n scores' n' ∧ Shape compl' sizes' ∧
      Rows compl' sizes' (cs ++ ((R.filter (fun d => (cOf d).any (fun t => r.contains t))).take (k - n)).map cOf) := by
  intro R
  induction R with
  | nil =>
      intro fuel it scores compl sizes n cs he hR hfuel hn hk hs hr hcs
      obtain ⟨fuel, rfl⟩ : ∃ f, fuel = f + 1 := ⟨fuel - 1, by simp at hfuel; omega⟩
      have he : I.hasNext it = false := he
      exact ⟨scores, compl, sizes, n, by rw [Index2.conjLoop, he]; rfl, Filled.nil, hs, by simpa using hr⟩
  | cons d R ih =>
      intro fuel it scores compl sizes n cs he hR hfuel hn hk hs hr hcs
      obtain ⟨fuel, rfl⟩ : ∃ f, fuel = f + 1 := ⟨fuel - 1, by omega⟩
      simp only [List.length_cons] at hfuel
      obtain ⟨e1, e2, it', e3, e4⟩ := he
      obtain ⟨row, l1, l2, l3⟩ := hR [] d R rfl (by simpa using hn) compl sizes hs n (by omega)
      have hnl : n < (compl.set n row).length := by rw [List.length_set, hs.count]; omega
      have hlen : (cOf d).length ≤ row.length := by
        have := congrArg List.length l3
        rw [List.length_take] at this; omega
      rw [Index2.conjLoop, e1, if_pos rfl, e2, l1, M.ok_bind]
      dsimp only
      rw [rd_ok hnl, M.ok_bind, List.getElem_set_self, Index2.anyTerm_spec r row _ 0 (by omega), M.ok_bind, List.drop_zero, l3]
      have hs' := hs.set (i := n) l2
      have hr' := hr.compl_set (i := n) (row := row) (by omega)
      cases hp : (cOf d).any (fun t => r.contains t) with
      | false =>
          rw [if_neg (by simp), e3, M.ok_bind]
          obtain ⟨s', c', z', n', h1, h2, h3, h4⟩ := ih fuel it' scores _ sizes n cs e4
            (fun A d' B hA hlt => hR (d :: A) d' B (by rw [hA]; rfl) (by rw [List.filter_cons_of_neg (by simp [hp])]; exact hlt)) (by omega) hn hk hs' hr' hcs
          refine ⟨s', c', z', n', h1, h2.skip hp, h3, ?_⟩
          rw [List.filter_cons_of_neg (by simp [hp])]; exact h4
      | true =>
          rw [if_pos rfl, wr_ok (by omega), M.ok_bind, wr_ok (by rw [hs.slots]; omega), M.ok_bind]
          have hrn := hr'.snoc (row := row) (c := cOf d) hcs
            (by rw [List.getElem?_set_self (by rw [hs.count]; omega)]) l3 (by rw [hs.slots]; omega)
          have hfil : (d :: R).filter (fun d => (cOf d).any (fun t => r.contains t)) =
              d :: R.filter (fun d => (cOf d).any (fun t => r.contains t)) := List.filter_cons_of_pos hp
          by_cases hk1 : n + 1 = k
          · rw [if_pos hk1]
            refine ⟨_, _, _, _, rfl, Filled.last hp hk1 (by omega), hs'.size _ _, ?_⟩
            rw [hfil, show k - n = 1 by omega]
            simpa using hrn
          · rw [if_neg hk1, e3, M.ok_bind]
            obtain ⟨s', c', z', n', h1, h2, h3, h4⟩ := ih fuel it' (scores.set n d) _ _ (n + 1) (cs ++ [cOf d]) e4
              (fun A d' B hA hlt => hR (d :: A) d' B (by rw [hA]; rfl) (by
                rw [List.filter_cons_of_pos (by simpa using hp), List.length_cons]; omega)) (by omega) (by omega) (by simpa using hk) (hs'.size _ _) hrn (by simpa using hcs)
            refine ⟨s', c', z', n', h1, h2.more hp hn (by omega), h3, ?_⟩
            rw [hfil, show k - n = (k - (n + 1)) + 1 by omega, List.take_succ_cons, List.map_cons]
            simpa using h4

theorem Index2.conjLoop_spec {x : Index2} {mapped : List (Nat × Ids)} (h : x.toBase.Rep mapped) (cOf : Nat → Ids) (r : Range) (k : Nat)
    (hk15 : k ≤ MAX_K) {σ : Type} {I : DocIter σ}
    (R : List Nat) (fuel : Nat) (it : σ) (scores : List Nat) (compl : List Ids) (sizes : List Nat) (n : Nat) (cs : List Ids)
    (he : I.Enum it R) (hR : ∀ d ∈ R, (d, cOf d) ∈ mapped) (hf : R.length < fuel) (hn : n < k) (hl : scores.length = MAX_K) (hs : Shape compl sizes)
    (hr : Rows compl sizes cs) (hcs : cs.length = n) :
    ∃ scores' compl' sizes' n', x.conjLoop I r k fuel it scores compl sizes n = .ok (scores', compl', sizes', n') ∧
      Filled (fun d => (cOf d).any (fun t => r.contains t)) k R scores n scores' n' ∧ Shape compl' sizes' ∧
      Rows compl' sizes' (cs ++ ((R.filter (fun d => (cOf d).any (fun t => r.contains t))).take (k - n)).map cOf) :=
  Index2.conjLoop_loads cOf r k hk15 R fuel it scores compl sizes n cs he (fun A d B hA _ => h.loads (hR d (by rw [hA]; simp))) hf hn hl hs hr hcs

/-- the loop, when one of the completions that it examines cannot be loaded -/
theorem Index2.conjLoop_lost {x : Index2} (cOf : Nat → Ids) (r : Range) (k : Nat)
    (hk15 : k ≤ MAX_K) {σ : Type} {I : DocIter σ} {lost : Nat → Prop} (hlost : ∀ d, lost d → ∀ i compl, x.toBase.load d i compl = .error .oob) :
    ∀ (A : List Nat) (d : Nat) (B : List Nat) (fuel : Nat) (it : σ) (scores : List Nat) (compl : List Ids) (sizes : List Nat) (n : Nat),
    I.Enum it (A ++ d :: B) → (∀ e ∈ A, lost e ∨ x.toBase.Loads e (cOf e)) → lost d →
    n + (A.filter (fun d => (cOf d).any (fun t => r.contains t))).length < k → (A ++ d :: B).length < fuel → scores.length = MAX_K → Shape compl sizes →
    x.conjLoop I r k fuel it scores compl sizes n = .error .oob := by
  intro A
  induction A with
  | nil =>
      intro d B fuel it scores compl sizes n he _ hd _ hfuel _ _
      obtain ⟨fuel, rfl⟩ : ∃ f, fuel = f + 1 := ⟨fuel - 1, by simp at hfuel; omega⟩
      obtain ⟨e1, e2, _⟩ := he
      rw [Index2.conjLoop, e1, if_pos rfl, e2, hlost d hd]
      rfl
  | cons a A ih =>
      intro d B fuel it scores compl sizes n he hA hd hlt hfuel hl hs
      obtain ⟨fuel, rfl⟩ : ∃ f, fuel = f + 1 := ⟨fuel - 1, by simp at hfuel; omega⟩
      obtain ⟨e1, e2, it', e3, e4⟩ := he
      simp only [List.cons_append, List.length_cons] at hfuel
      rw [Index2.conjLoop, e1, if_pos rfl, e2]
      rcases hA a (by simp) with ha | ha
      · rw [hlost a ha]; rfl
      · obtain ⟨row, l1, l2, l3⟩ := ha compl sizes hs n (by omega)
        have hnl : n < (compl.set n row).length := by rw [List.length_set, hs.count]; omega
        have hlen : (cOf a).length ≤ row.length := by
          have := congrArg List.length l3
          rw [List.length_take] at this; omega
        rw [l1, M.ok_bind]
        dsimp only
        rw [rd_ok hnl, M.ok_bind, List.getElem_set_self, Index2.anyTerm_spec r row _ 0 (by omega), M.ok_bind, List.drop_zero, l3]
        have hs' := hs.set (i := n) l2
        cases hp : (cOf a).any (fun t => r.contains t) with
        | false =>
            rw [if_neg (by simp), e3, M.ok_bind]
            rw [List.filter_cons_of_neg (by simp [hp])] at hlt
            exact ih d B fuel it' scores _ sizes n e4 (fun e he => hA e (by simp [he])) hd hlt (by omega) hl hs'
        | true =>
            rw [if_pos rfl, wr_ok (by omega), M.ok_bind, wr_ok (by rw [hs.slots]; omega), M.ok_bind]
            rw [List.filter_cons_of_pos (by simpa using hp), List.length_cons] at hlt
            rw [if_neg (by omega), e3, M.ok_bind]
            exact ih d B fuel it' (scores.set n a) _ _ (n + 1) e4 (fun e he => hA e (by simp [he])) hd (by omega) (by omega)
              (by simpa using hl) (hs'.size _ _)

/-- `extract_completions` loads the completions of the documents of the buffer -/
theorem Base.extractCompletions_loads {x : Base} (cOf : Nat → Ids) {scores : List Nat} :
    ∀ (n i : Nat) (compl : List Ids) (sizes : List Nat) (cs : List Ids), i + n ≤ scores.length → i + n ≤ MAX_K →
    (∀ d ∈ (scores.drop i).take n, x.Loads d (cOf d)) → Shape compl sizes → Rows compl sizes cs → cs.length = i →
    ∃ compl' sizes', x.extractCompletions scores n i compl sizes = .ok (compl', sizes') ∧ Shape compl' sizes' ∧
      Rows compl' sizes' (cs ++ ((scores.drop i).take n).map cOf) := by
  intro n
  induction n with
  | zero => intro i compl sizes cs h1 h2 h3 hs hr hcs; exact ⟨compl, sizes, rfl, hs, by simpa using hr⟩
  | succ n ih =>
      intro i compl sizes cs h1 h2 h3 hs hr hcs
      have hi : i < scores.length := by omega
      rw [List.drop_eq_getElem_cons hi, List.take_succ_cons] at h3 ⊢
      obtain ⟨row, l1, l2, l3⟩ := h3 scores[i] (by simp) compl sizes hs i (by omega)
      rw [Base.extractCompletions, rd_ok hi, M.ok_bind, l1, M.ok_bind]
      dsimp only
      rw [wr_ok (by rw [hs.slots]; omega), M.ok_bind]
      obtain ⟨c', z', a1, a2, a3⟩ := ih (i + 1) (compl.set i row) (sizes.set i (cOf scores[i]).length) (cs ++ [cOf scores[i]])
        (by omega) (by omega) (fun d hd => h3 d (by simp [hd])) ((hs.set l2).size _ _)
        ((hr.compl_set (by omega)).snoc hcs (by rw [List.getElem?_set_self (by rw [hs.count]; omega)]) l3
          (by rw [hs.slots]; omega)) (by simpa using hcs)
      exact ⟨c', z', a1, a2, by simpa using a3⟩

theorem Base.extractCompletions_spec {x : Base} {mapped : List (Nat × Ids)} (h : x.Rep mapped) (cOf : Nat → Ids) {scores : List Nat}
    (n i : Nat) (compl : List Ids) (sizes : List Nat) (cs : List Ids) (h1 : i + n ≤ scores.length) (h2 : i + n ≤ MAX_K)
    (h3 : ∀ d ∈ (scores.drop i).take n, (d, cOf d) ∈ mapped) (hs : Shape compl sizes) (hr : Rows compl sizes cs) (hcs : cs.length = i) :
    ∃ compl' sizes', x.extractCompletions scores n i compl sizes = .ok (compl', sizes') ∧ Shape compl' sizes' ∧
      Rows compl' sizes' (cs ++ ((scores.drop i).take n).map cOf) :=
  Base.extractCompletions_loads cOf n i compl sizes cs h1 h2 (fun d hd => h.loads (h3 d hd)) hs hr hcs

/-- one of the completions cannot be loaded -/
theorem Base.extractCompletions_lost {x : Base} (cOf : Nat → Ids) {lost : Nat → Prop} (hlost : ∀ d, lost d → ∀ i compl, x.load d i compl = .error .oob)
    {scores : List Nat} : ∀ (n i : Nat) (compl : List Ids) (sizes : List Nat), i + n ≤ scores.length → i + n ≤ MAX_K →
    (∀ d ∈ (scores.drop i).take n, lost d ∨ x.Loads d (cOf d)) → (∃ d ∈ (scores.drop i).take n, lost d) → Shape compl sizes →
    x.extractCompletions scores n i compl sizes = .error .oob := by
  intro n
  induction n with
  | zero => intro i compl sizes h1 h2 h3 h4 hs; simp at h4
  | succ n ih =>
      intro i compl sizes h1 h2 h3 h4 hs
      have hi : i < scores.length := by omega
      rw [List.drop_eq_getElem_cons hi, List.take_succ_cons] at h3 h4
      rw [Base.extractCompletions, rd_ok hi, M.ok_bind]
      rcases h3 scores[i] (by simp) with hl | hl
      · rw [hlost _ hl]; rfl
      · obtain ⟨row, l1, l2, l3⟩ := hl compl sizes hs i (by omega)
        rw [l1, M.ok_bind]
        dsimp only
        rw [wr_ok (by rw [hs.slots]; omega), M.ok_bind]
        by_cases h5 : ∃ d ∈ (scores.drop (i + 1)).take n, lost d
        · exact ih (i + 1) _ _ (by omega) (by omega) (fun d hd => h3 d (by simp [hd])) h5 ((hs.set l2).size _ _)
        · obtain ⟨d, hd, hdl⟩ := h4
          rcases List.mem_cons.mp hd with rfl | hd
          · rw [hlost _ hdl] at l1; cases l1
          · exact absurd ⟨d, hd, hdl⟩ h5

end AC
