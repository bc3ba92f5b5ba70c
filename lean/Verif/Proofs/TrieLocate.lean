import Verif.Proofs.TrieRep
/-! # Searching the trie -/
namespace AC.Trie
open AC.Props

/-- the children of a node that is not a terminator -/
structure Children (T : List CLevel) (L : List Ids) (i p : Nat) (path : Ids) : Prop where
  ex : ∃ t t' r, T[i]? = some t ∧ T[i + 1]? = some t' ∧ children t p = .ok r ∧ NodeRun t'.nodes.seq (keys (i + 1) L) (i + 1) path r

/-- a trie holding the completions `L` -/
structure Rep (T : List CLevel) (levels : Nat) (L : List Ids) : Prop where
  small : L.length < 2 ^ 32
  pos : ∀ s ∈ L, ∀ x ∈ s, 0 < x
  len : T.length = levels
  root : ∃ t, T[0]? = some t ∧ NodeRun t.nodes.seq (keys 0 L) 0 [] ⟨0, t.nodes.size⟩
  child : ∀ i p (_ : p < (keys i L).length), (∀ x ∈ (keys i L)[p], 0 < x) → Children T L i p (keys i L)[p]
  extent : ∀ i (_ : i < levels), ∃ t A B tl, T[i]? = some t ∧ Done levels L i tl A B ∧
    ∀ q : Range, q.b < q.e → q.e ≤ (keys i L).length →
        ∃ a b, A[q.b]? = some a ∧ B[q.e - 1]? = some b ∧ extent t q = .ok ⟨a, b + 1⟩

/-- the trie is made for completions of at most `levels - 1` terms, some of which has this length -/
structure Shape (levels : Nat) (L : List Ids) : Prop where
  lt : ∀ c ∈ L, c.length < levels
  max : ∃ c ∈ L, c.length + 1 = levels

theorem Shape.keys_ne {levels : Nat} {L : List Ids} (h : Shape levels L) {i : Nat} (hi : i < levels) : keys i L ≠ [] := by
  obtain ⟨c, c1, c2⟩ := h.max
  exact List.ne_nil_of_mem (keys_mem c1 (by omega))

theorem nodes_root {levels : Nat} {L : List Ids} {t : Level} {A B : List Nat} (d : Done levels L 0 t A B) (hL : Compl L)
    (hs : ∀ s ∈ L, ∀ x ∈ s, x < 2 ^ 32) (hn : L.length < 2 ^ 32) (hne : keys 0 L ≠ []) :
    ∃ e, EF.build (words t.nodes) = .ok e ∧ NodeRun e.seq (keys 0 L) 0 [] ⟨0, e.size⟩ := by
  have hsm : ∀ x ∈ t.nodes, x < 2 ^ 32 := by
    intro x hx
    rw [d.nodes] at hx
    obtain ⟨k, hk, rfl⟩ := List.mem_map.mp hx
    exact last_small hs hk
  have hK : ∀ k ∈ keys 0 L, k.length = 0 + 1 := fun k hk => keys_length hk
  have hlt : t.nodes.Pairwise (fun a b => a < b) := by
    rw [d.nodes, List.pairwise_map]
    refine (keys_sorted hL).imp_of_mem ?_
    intro a b ha hb hab
    have e1 := path_eq (hK a ha)
    have e2 := path_eq (hK b hb)
    simp only [List.take_zero] at e1 e2
    rw [e1, e2] at hab
    exact concat_lt hab
  obtain ⟨e, e1, e2, e3, e4⟩ := ef_words (xs := t.nodes) (by rw [d.nodes]; simpa using hne)
    (fun x hx => by have := hsm x hx; omega) (hlt.imp (fun h => by omega))
  have hcard := keys_card 0 L
  have hnl : t.nodes.length = (keys 0 L).length := by rw [d.nodes]; simp
  have hpos := List.length_pos_iff.mpr hne
  have hrun : Seq.RunAt t.nodes ⟨0, e.size⟩ t.nodes := by
    refine ⟨by simp only; omega, by simp only; omega, by simp only; omega, ?_, hlt⟩
    intro i hi
    simp only [Seq.upperOf, if_true, Nat.zero_add]
    rw [List.getElem?_eq_getElem hi]
  refine ⟨e, e1, ?_⟩
  have hup : Seq.upperOf t.nodes ⟨0, e.size⟩ = 0 := by simp [Seq.upperOf]
  refine nodeRun_of hK rfl (by simp only; omega) (by simp only; omega) ?_ t.nodes (by simp only; omega) ?_ ?_ ?_ ?_
  · intro q hq; simp only [List.take_zero, iff_true]; omega
  · intro j hj hj'; simp only [d.nodes, List.getElem_map, Nat.zero_add]
  · intro id hid
    exact Seq.findIn_spec e4 hrun (by unfold NOT_FOUND; omega) id (by rw [hup]; omega)
  · intro lex h1 h2
    exact Seq.findRange_spec e4 hrun (by unfold NOT_FOUND; omega) lex h1 (by rw [hup]; omega)
  · exact Seq.findRange_invalid e4 hrun (by unfold NOT_FOUND; omega) hsm (by rw [hup]; decide)

section
variable {levels : Nat} {L : List Ids} {i : Nat} {t t' : Level} {A B A' B' : List Nat}

theorem run_members (P : DonePtrs L i t) {k : Nat} (hk : k + 1 < t.ptrs.length) (q : Nat) (hq : q < (keys (i + 1) L).length) :
    (t.ptrs[k] ≤ q ∧ q < t.ptrs[k + 1]) ↔ (keys i L)[k]? = some ((keys (i + 1) L)[q].take (i + 1)) ∧
      ∀ k', k' < k → (keys i L)[k']? ≠ some ((keys (i + 1) L)[q].take (i + 1)) := by
  have h1 := (P.par k _ (List.getElem?_eq_getElem (by omega))).2 q hq
  have h2 := (P.par (k + 1) _ (List.getElem?_eq_getElem hk)).2 q hq
  constructor
  · rintro ⟨a, b⟩
    obtain ⟨k', c1, c2⟩ := h2.mp b
    have hno : ∀ k', k' < k → (keys i L)[k']? ≠ some ((keys (i + 1) L)[q].take (i + 1)) := by
      intro k' hk' hc
      have := h1.mpr ⟨k', hk', hc⟩
      omega
    refine ⟨?_, hno⟩
    have : k' = k := by
      rcases Nat.lt_or_ge k' k with h | h
      · exact absurd c2 (hno k' h)
      · omega
    rw [← this]; exact c2
  · rintro ⟨a, b⟩
    refine ⟨?_, h2.mpr ⟨k, by omega, a⟩⟩
    apply Classical.byContradiction
    intro hc
    obtain ⟨k', c1, c2⟩ := h1.mp (by omega)
    exact b k' c1 c2

/-- the runs of a level below the first one increase -/
theorem runs_ok (P : DonePtrs L i t) (d' : Done levels L (i + 1) t' A' B') (hL : Compl L)
    (hs : ∀ s ∈ L, ∀ x ∈ s, x < 2 ^ 32) : RunsOK t.ptrs (words t'.nodes) := by
  have hsm : ∀ x ∈ t'.nodes, x < 2 ^ 64 := by
    intro x hx
    rw [d'.nodes] at hx
    obtain ⟨k, hk, rfl⟩ := List.mem_map.mp hx
    have := last_small hs hk
    omega
  have hnl : t'.nodes.length = (keys (i + 1) L).length := by rw [d'.nodes]; simp
  intro k hk
  have hple := (P.par (k + 1) _ (List.getElem?_eq_getElem hk)).1
  have hmono : t.ptrs[k] ≤ t.ptrs[k + 1] := List.pairwise_iff_getElem.mp P.mono k (k + 1) _ _ (by omega)
  have hwl : (words t'.nodes).length = t'.nodes.length := by simp [words]
  obtain ⟨r1, r2⟩ := run_get t.ptrs (words t'.nodes) k hk hmono (by omega)
  rw [List.pairwise_iff_getElem]
  intro a b ha hb hab
  obtain ⟨ha', ea⟩ := r2 a ha
  obtain ⟨hb', eb⟩ := r2 b hb
  rw [ea, eb, words_get hsm _ (by omega), words_get hsm _ (by omega)]
  simp only [d'.nodes, List.getElem_map]
  have ma := ((run_members P hk (t.ptrs[k] + a) (by omega)).mp (by omega)).1
  have mb := ((run_members P hk (t.ptrs[k] + b) (by omega)).mp (by omega)).1
  have hsort := List.pairwise_iff_getElem.mp (keys_sorted (i := i + 1) hL) (t.ptrs[k] + a) (t.ptrs[k] + b) (by omega) (by omega)
    (by omega)
  have la := path_eq (keys_length (List.getElem_mem (l := keys (i + 1) L) (n := t.ptrs[k] + a) (by omega)))
  have lb := path_eq (keys_length (List.getElem_mem (l := keys (i + 1) L) (n := t.ptrs[k] + b) (by omega)))
  rw [ma] at mb
  rw [la, lb, ← Option.some.inj mb] at hsort
  exact concat_lt hsort

theorem ptrs_pointers (P : DonePtrs L i t) (hne : keys i L ≠ []) : Pointers t.ptrs (keys (i + 1) L).length := by
  have := P.len
  have := List.length_pos_iff.mpr hne
  refine ⟨by omega, P.zero, P.mono, ?_⟩
  intro j hj
  exact ⟨_, P.cover, hj⟩

/-- a level below the first one: its nodes are built, and the children of the nodes of the previous level can be searched -/
theorem nodes_below (P : DonePtrs L i t) (d' : Done levels L (i + 1) t' A' B') (hL : Compl L)
    (hs : ∀ s ∈ L, ∀ x ∈ s, x < 2 ^ 32) (hn : L.length < 2 ^ 32) (hne : keys i L ≠ []) (hne' : keys (i + 1) L ≠ []) :
    ∃ e p, EF.buildRuns (words t'.nodes) t.ptrs = .ok e ∧ EF.build (words t.ptrs) = .ok p ∧
      ∀ k (_ : k < (keys i L).length), (∀ x ∈ (keys i L)[k], 0 < x) →
        ∃ r, p.pair k = .ok r ∧ NodeRun e.seq (keys (i + 1) L) (i + 1) (keys i L)[k] r := by
  have hnl : t'.nodes.length = (keys (i + 1) L).length := by rw [d'.nodes]; simp
  have hwl : (words t'.nodes).length = t'.nodes.length := by simp [words]
  have hcard := keys_card (i + 1) L
  have hsm : ∀ x ∈ t'.nodes, x < 2 ^ 32 := by
    intro x hx
    rw [d'.nodes] at hx
    obtain ⟨k, hk, rfl⟩ := List.mem_map.mp hx
    exact last_small hs hk
  have hsm' : ∀ x ∈ t'.nodes, x < 2 ^ 64 := fun x hx => by have := hsm x hx; omega
  have hple : ∀ p ∈ t.ptrs, p ≤ (keys (i + 1) L).length := by
    intro p hp
    obtain ⟨k, hk, rfl⟩ := List.getElem_of_mem hp
    exact (P.par k _ (List.getElem?_eq_getElem hk)).1
  obtain ⟨e, e1, e2⟩ := C19_find t.ptrs (words t'.nodes) (by rw [hwl, hnl]; exact ptrs_pointers P hne)
    (by rw [hwl, hnl]; exact hple) (by rw [Ne, ← List.length_eq_zero_iff, hwl, hnl, List.length_eq_zero_iff]; exact hne')
    (by omega) (by
      intro v hv
      obtain ⟨k, hk, rfl⟩ := List.getElem_of_mem hv
      rw [words_get hsm' k (by omega)]
      exact hsm _ (List.getElem_mem _)) (runs_ok P d' hL hs)
  have hpl := P.len
  obtain ⟨p, p1, p2, p3, _⟩ := ef_words (xs := t.ptrs) (List.ne_nil_of_length_pos (by omega))
    (fun x hx => by have := hple x hx; omega) P.mono
  refine ⟨e, p, e1, p1, ?_⟩
  intro k hk hpos
  have hk1 : k + 1 < t.ptrs.length := by omega
  refine ⟨⟨t.ptrs[k], t.ptrs[k + 1]⟩, ?_, ?_⟩
  · unfold EF.pair
    rw [p3 k (by omega), p3 (k + 1) hk1]
    rfl
  · have hmem : ∀ q (hq : q < (keys (i + 1) L).length), (t.ptrs[k] ≤ q ∧ q < t.ptrs[k + 1]) ↔
        (keys (i + 1) L)[q].take (i + 1) = (keys i L)[k] := by
      intro q hq
      rw [run_members P hk1 q hq, List.getElem?_eq_getElem hk]
      constructor
      · rintro ⟨a, _⟩; exact (Option.some.inj a).symm
      · intro h
        rw [h]
        refine ⟨rfl, ?_⟩
        intro k' hk' hc
        rw [List.getElem?_eq_getElem (by omega)] at hc
        have := nodup_keys hL _ _ (Option.some.inj hc)
        omega
    -- it has a child
    have hlt : t.ptrs[k] < t.ptrs[k + 1] := by
      obtain ⟨c, c1, c2, c3⟩ := mem_keys (List.getElem_mem hk)
      have hc : i + 1 ≤ c.length := by
        apply Classical.byContradiction
        intro hc
        have : c.length = i := by omega
        have h0 := hpos 0 (by rw [c3]; unfold pre; rw [List.take_of_length_le (by simp; omega)]; simp)
        omega
      obtain ⟨q, hq, eq⟩ := List.getElem_of_mem (keys_mem c1 hc)
      have := (hmem q hq).mpr (by rw [eq, pre_take, c3])
      omega
    have hle := hple _ (List.getElem_mem hk1)
    obtain ⟨f1, f2, f3⟩ := e2 k hk1 hlt
    obtain ⟨r1, r2⟩ := run_get t.ptrs (words t'.nodes) k hk1 (by omega) (by omega)
    refine nodeRun_of (fun k hk => keys_length hk) (keys_length (List.getElem_mem _)) hlt hle hmem (runOf t.ptrs (words t'.nodes) k)
      r1 ?_ f1 f2 f3
    intro j hj hj'
    obtain ⟨g1, g2⟩ := r2 j hj
    rw [g2, words_get hsm' _ (by omega)]
    simp only [d'.nodes, List.getElem_map]

end

theorem build_spec {levels : Nat} {L : List Ids} (hL : Compl L) (hsh : Shape levels L)
    (hs : ∀ s ∈ L, ∀ x ∈ s, x < 2 ^ 32) (hn : L.length < 2 ^ 32) :
    ∃ T, build levels L = .ok T ∧ Rep T levels L := by
  have hneL : L ≠ [] := by obtain ⟨c, c1, _⟩ := hsh.max; exact List.ne_nil_of_mem c1
  obtain ⟨ts, t1, t2, t3⟩ := collect_spec hL hneL hsh.lt
  have hlevels : 0 < levels := by obtain ⟨c, _, c2⟩ := hsh.max; omega
  unfold build
  rw [t1]
  simp only [M.ok_bind]
  -- every level
  let Q : Nat → CLevel → Prop := fun i c =>
    (∀ (tl : Level), ts[i]? = some tl →
      (∃ A B, Done levels L i tl A B ∧ ∀ q : Range, q.b < q.e → q.e ≤ (keys i L).length →
        ∃ a b, A[q.b]? = some a ∧ B[q.e - 1]? = some b ∧ extent c q = .ok ⟨a, b + 1⟩) ∧
      (i = 0 → EF.build (words tl.nodes) = .ok c.nodes) ∧
      (∀ up, i ≠ 0 → ts[i - 1]? = some up → EF.buildRuns (words tl.nodes) up.ptrs = .ok c.nodes) ∧
      (i + 1 < levels → ∃ p, c.ptrs = some p ∧ EF.build (words tl.ptrs) = .ok p))
  have hall : ∀ i, i < levels → ∃ y, buildLevel levels ts i = .ok y ∧ Q i y := by
    intro i hi
    obtain ⟨A, B, d⟩ := t3 i (by omega)
    obtain ⟨l, s, l1, s1, x1⟩ := d.extent hL (hsh.keys_ne hi) hn
    have hp : ∃ p, buildPtrs levels i ts[i] = .ok p ∧ (i + 1 < levels → ∃ p', p = some p' ∧ EF.build (words ts[i].ptrs) = .ok p') := by
      unfold buildPtrs
      by_cases h1 : i = levels - 1
      · rw [if_neg (by simpa using h1)]; exact ⟨none, rfl, by omega⟩
      · rw [if_pos h1]
        obtain ⟨A', B', d'⟩ := t3 (i + 1) (by omega)
        obtain ⟨_, pp, _, e2, _⟩ := nodes_below (d.ptrs (by omega)) d' hL hs hn (hsh.keys_ne hi) (hsh.keys_ne (by omega))
        rw [e2]
        exact ⟨some pp, rfl, fun _ => ⟨pp, rfl, rfl⟩⟩
    have hnd : ∃ n, buildNodes ts i ts[i] = .ok n ∧ (i = 0 → EF.build (words ts[i].nodes) = .ok n) ∧
        (∀ up, i ≠ 0 → ts[i - 1]? = some up → EF.buildRuns (words ts[i].nodes) up.ptrs = .ok n) := by
      unfold buildNodes
      by_cases h0 : i = 0
      · subst h0
        obtain ⟨e, e1, _⟩ := nodes_root d hL hs hn (hsh.keys_ne hlevels)
        rw [if_neg (by simp)]
        exact ⟨e, e1, fun _ => e1, fun _ hc => absurd rfl hc⟩
      · rw [if_pos h0]
        obtain ⟨j, rfl⟩ : ∃ j, i = j + 1 := ⟨i - 1, by omega⟩
        obtain ⟨A', B', d'⟩ := t3 j (by omega)
        obtain ⟨e, pp, e1, e2, _⟩ := nodes_below (d'.ptrs hi) d hL hs hn (hsh.keys_ne (by omega)) (hsh.keys_ne hi)
        rw [Nat.add_sub_cancel, rd_ok (show j < ts.length by omega)]
        refine ⟨e, e1, fun hc => absurd hc h0, ?_⟩
        intro up _ hup
        rw [List.getElem?_eq_getElem (by omega)] at hup
        cases hup
        exact e1
    obtain ⟨p, p1, p2⟩ := hp
    obtain ⟨nd, n1, n2, n3⟩ := hnd
    refine ⟨⟨nd, p, l, s⟩, ?_, ?_⟩
    · unfold buildLevel
      rw [rd_ok (show i < ts.length by omega)]
      simp only [M.ok_bind]
      rw [p1]
      simp only [M.ok_bind]
      rw [l1]
      simp only [M.ok_bind]
      rw [s1]
      simp only [M.ok_bind]
      rw [n1]
      rfl
    · intro tl htl
      rw [List.getElem?_eq_getElem (by omega)] at htl
      cases htl
      exact ⟨⟨A, B, d, x1 nd p⟩, n2, n3, p2⟩
  obtain ⟨T, T1, T2, T3⟩ := tabM_ok levels hall
  refine ⟨T, T1, ⟨hn, hL.pos, T2, ?_, ?_, ?_⟩⟩
  · have h0 : 0 < T.length := by omega
    obtain ⟨A, B, d⟩ := t3 0 (by omega)
    obtain ⟨_, p2, _, _⟩ := T3 0 h0 ts[0] (List.getElem?_eq_getElem (by omega))
    obtain ⟨e, e1, e2⟩ := nodes_root d hL hs hn (hsh.keys_ne hlevels)
    rw [p2 rfl] at e1
    cases e1
    exact ⟨T[0], List.getElem?_eq_getElem h0, e2⟩
  · intro i p hp hpos
    -- the node is not a terminator, so there is a next level
    have hi1 : i + 1 < levels := by
      obtain ⟨c, c1, c2, c3⟩ := mem_keys (List.getElem_mem hp)
      have := hsh.lt c c1
      apply Classical.byContradiction
      intro hc
      have h0 := hpos 0 (by rw [c3]; unfold pre; rw [List.take_of_length_le (by simp; omega)]; simp)
      omega
    obtain ⟨A, B, d⟩ := t3 i (by omega)
    obtain ⟨A', B', d'⟩ := t3 (i + 1) (by omega)
    obtain ⟨e, pp, e1, e2, e3⟩ := nodes_below (d.ptrs hi1) d' hL hs hn (hsh.keys_ne (by omega)) (hsh.keys_ne hi1)
    obtain ⟨r, r1, r2⟩ := e3 p hp hpos
    obtain ⟨_, _, _, p4⟩ := T3 i (by omega) ts[i] (List.getElem?_eq_getElem (by omega))
    obtain ⟨_, _, p3, _⟩ := T3 (i + 1) (by omega) ts[i + 1] (List.getElem?_eq_getElem (by omega))
    obtain ⟨pp', g1, g2⟩ := p4 hi1
    rw [g2] at e2
    cases e2
    have := p3 ts[i] (by omega) (by rw [Nat.add_sub_cancel]; exact List.getElem?_eq_getElem (by omega))
    rw [this] at e1
    cases e1
    refine ⟨T[i], T[i + 1], r, List.getElem?_eq_getElem (by omega), List.getElem?_eq_getElem (by omega), ?_, r2⟩
    unfold children
    rw [g1]
    exact r1
  · intro i hi
    obtain ⟨⟨A, B, d, h⟩, _⟩ := T3 i (by omega) ts[i] (List.getElem?_eq_getElem (by omega))
    exact ⟨T[i], A, B, _, List.getElem?_eq_getElem (by omega), d, h⟩

/-- the loop of `locate_prefix` -/
theorem descend_spec {T : List CLevel} {levels : Nat} {L : List Ids} (h : Rep T levels L) :
    ∀ (xs path : Ids) (t : CLevel) (r : Range), (∀ x ∈ path, 0 < x) → (∀ x ∈ xs, 0 < x ∧ x < 2 ^ 32) →
      T[path.length]? = some t → NodeRun t.nodes.seq (keys path.length L) path.length path r →
      (descend T path.length r xs = .ok none ∧ ∀ c ∈ L, ¬ (path ++ xs) <+: c) ∨
      (∃ t' r', descend T path.length r xs = .ok (some (path.length + xs.length, r')) ∧ T[path.length + xs.length]? = some t' ∧
        NodeRun t'.nodes.seq (keys (path.length + xs.length) L) (path.length + xs.length) (path ++ xs) r')
  | [], path, t, r, _, _, ht, hr => by
      refine Or.inr ⟨t, r, ?_, ?_, ?_⟩
      · simp [descend]
      · simpa using ht
      · simpa using hr
  | x :: xs, path, t, r, hp, hx, ht, hr => by
      have hx0 := hx x (by simp)
      obtain ⟨f1, f2⟩ := hr.find x hx0.2
      have e : path ++ x :: xs = (path ++ [x]) ++ xs := by simp
      unfold descend
      rw [rd_of_getElem? ht]
      simp only [M.ok_bind]
      by_cases hm : path ++ [x] ∈ keys path.length L
      · obtain ⟨q, hq, eq⟩ := List.getElem_of_mem hm
        rw [f1 q hq eq]
        simp only [M.ok_bind]
        have hb := (hr.mem q hq).mpr (by rw [eq, List.take_left])
        have hle := hr.le
        have hchild := h.child path.length q hq (by
          rw [eq]; intro y hy
          rcases List.mem_append.mp hy with hy | hy
          · exact hp y hy
          · have : y = x := by simpa using hy
            rw [this]; exact hx0.1)
        obtain ⟨t2, t3, r2, c1, c2, c3, c4⟩ := hchild.ex
        have hcard := keys_card path.length L
        have hsmall := h.small
        by_cases hnf : q = NOT_FOUND
        · unfold NOT_FOUND at hnf; omega
        · rw [if_neg hnf]
          rw [ht] at c1
          cases c1
          rw [c3]
          simp only [M.ok_bind]
          have hl : (path ++ [x]).length = path.length + 1 := by simp
          have ih := descend_spec h xs (path ++ [x]) t3 r2 (by
              intro y hy
              rcases List.mem_append.mp hy with hy | hy
              · exact hp y hy
              · have : y = x := by simpa using hy
                rw [this]; exact hx0.1) (fun y hy => hx y (by simp [hy])) (by rw [hl]; exact c2) (by rw [hl, ← eq]; exact c4)
          rw [hl] at ih
          rw [e]
          simp only [List.length_cons, show path.length + (xs.length + 1) = path.length + 1 + xs.length by omega]
          exact ih
      · left
        rw [f2 hm]
        simp only [M.ok_bind, if_true, true_and]
        rintro c hc ⟨s, hs⟩
        apply hm
        have hl : path.length + 1 ≤ c.length := by rw [← hs]; simp
        have : pre path.length c = path ++ [x] := by
          unfold pre
          rw [← hs, e, List.append_assoc, List.append_assoc, List.take_append_of_le_length (by simp), List.take_of_length_le (by simp)]
        rw [← this]
        exact keys_mem hc (by omega)

end AC.Trie

namespace AC.Trie

/-- a matching completion starts with the path of a node of the level of its last term -/
theorem match_iff {pfx : Ids} {b e : Nat} {c : Ids} :
    MatchIds pfx b e (c ++ [0]) ↔ ∃ x, b ≤ x ∧ x ≤ e ∧ pfx.length ≤ c.length ∧ pre pfx.length c = pfx ++ [x] := by
  unfold MatchIds
  constructor
  · rintro ⟨x, h1, h2, h3⟩
    have h4 := h3.length_le
    simp only [List.length_append, List.length_singleton] at h4
    refine ⟨x, h1, h2, by omega, ?_⟩
    unfold pre
    have := List.prefix_iff_eq_take.mp h3
    simpa using this.symm
  · rintro ⟨x, h1, h2, h3, h4⟩
    exact ⟨x, h1, h2, by rw [← h4]; exact List.take_prefix _ _⟩

/-- the terminator is not in the range -/
theorem match_term {pfx : Ids} {b e : Nat} {c : Ids} (hb : 0 < b) : MatchIds pfx b e (c ++ [0]) ↔ MatchIds pfx b e c := by
  unfold MatchIds
  constructor
  · rintro ⟨x, h1, h2, h3⟩
    refine ⟨x, h1, h2, ?_⟩
    rcases List.prefix_concat_iff.mp h3 with h | h
    · have := (List.append_inj' h rfl).2
      simp at this
      omega
    · exact h
  · rintro ⟨x, h1, h2, h3⟩
    exact ⟨x, h1, h2, h3.trans (List.prefix_append _ _)⟩

theorem locate_all {T : List CLevel} {levels : Nat} {L : List Ids} (h : Rep T levels L) (hL : Compl L)
    (hsh : Shape levels L)
    {pfx : Ids} (hp : ∀ x ∈ pfx, 0 < x ∧ x < 2 ^ 32) {b e : Nat} (hbe : b ≤ e) (he : e < 2 ^ 32) :
    ∃ r, locatePrefix T pfx ⟨b, e⟩ = .ok r ∧
      ((r = Range.invalid ∧ ∀ s ∈ L, ¬ MatchIds pfx b e (s ++ [0])) ∨
       (r.b < r.e ∧ r.e ≤ L.length ∧ ∀ i (hi : i < L.length), (r.b ≤ i ∧ i < r.e) ↔ MatchIds pfx b e (L[i] ++ [0]))) := by
  obtain ⟨t0, r1, r2⟩ := h.root
  unfold locatePrefix
  rw [rd_of_getElem? r1]
  simp only [M.ok_bind]
  rcases descend_spec h pfx [] t0 ⟨0, t0.nodes.size⟩ (by simp) hp r1 r2 with ⟨d1, d2⟩ | ⟨t, r, d1, d2, d3⟩
  · rw [List.length_nil] at d1
    rw [d1]
    refine ⟨_, rfl, Or.inl ⟨rfl, ?_⟩⟩
    rintro s hs ⟨x, _, _, hx⟩
    refine d2 s hs ?_
    rw [List.nil_append]
    rcases List.prefix_concat_iff.mp ((List.prefix_append pfx [x]).trans hx) with h | h
    · have := (hp 0 (by rw [h]; simp)).1
      omega
    · exact h
  · simp only [List.length_nil, Nat.zero_add, List.nil_append] at d1 d2 d3
    rw [d1]
    simp only [M.ok_bind]
    rw [d2]
    simp only
    obtain ⟨q, q1, q2, q3, q4⟩ := d3.range ⟨b, e⟩ hbe he
    rw [q1]
    simp only [M.ok_bind]
    by_cases hq : q.b = q.e
    · rw [if_pos hq]
      refine ⟨_, rfl, Or.inl ⟨rfl, ?_⟩⟩
      intro s hs hm
      obtain ⟨x, x1, x2, x3, x4⟩ := match_iff.mp hm
      obtain ⟨p, hpl, ep⟩ := List.getElem_of_mem (keys_mem hs x3)
      have := (q4 p hpl).mpr ⟨x, x1, x2, by rw [ep, x4]⟩
      omega
    · rw [if_neg hq]
      have hlv : pfx.length < levels := by
        rw [← h.len]
        apply Classical.byContradiction
        intro hc
        rw [List.getElem?_eq_none (by omega)] at d2
        cases d2
      obtain ⟨t', A, B, tl, e1, e2, e3⟩ := h.extent pfx.length hlv
      rw [d2] at e1
      cases e1
      obtain ⟨a, b', a1, b1, x1⟩ := e3 q (by omega) q3
      obtain ⟨hbl, b1'⟩ := List.getElem?_eq_some_iff.mp b1
      obtain ⟨hal, a1'⟩ := List.getElem?_eq_some_iff.mp a1
      have hAB : A.length = B.length := by rw [e2.lenA, e2.lenB]
      have hBL := (e2.ab (q := q.e - 1) (by omega) hbl).2
      have hAa := (e2.ab (q := q.b) hal (by omega)).1
      rw [b1'] at hBL
      -- spans are in the order of the nodes
      have hAB' : a ≤ b' := by
        rcases Nat.lt_or_ge q.b (q.e - 1) with h1 | h1
        · have h2 := e2.disjoint hL h1 (by omega) (by omega) (by omega)
          have h3 := (e2.ab (q := q.e - 1) (by omega) hbl).1
          omega
        · have : q.b = q.e - 1 := by omega
          simp only [this] at hAa a1'
          omega
      refine ⟨_, x1, Or.inr ⟨by simp only; omega, by simp only; omega, ?_⟩⟩
      intro j hj
      simp only
      rw [match_iff]
      constructor
      · rintro ⟨j1, j2⟩
        -- the completion has the path of the prefix
        obtain ⟨ka, kb, sa1, sb1, sab, sbL, sspan⟩ := e2.span q.b (by omega)
        obtain ⟨ka', kb', sa1', sb1', sab', sbL', sspan'⟩ := e2.span (q.e - 1) (by omega)
        rw [a1] at sa1; cases sa1
        rw [b1] at sb1'; cases sb1'
        have kq := (sspan a (by omega)).mpr ⟨Nat.le_refl _, sab⟩
        have kq' := (sspan' b' (by omega)).mpr ⟨sab', Nat.le_refl _⟩
        obtain ⟨x, x1', x2', x3'⟩ := (q4 q.b (by omega)).mp (by omega)
        obtain ⟨y, y1', y2', y3'⟩ := (q4 (q.e - 1) (by omega)).mp (by omega)
        rw [x3'] at kq
        rw [y3'] at kq'
        have hlen : pfx.length ≤ L[j].length := by
          have hpa : pfx <+: L[a] ++ [0] := by
            have : pfx ++ [x] <+: L[a] ++ [0] := by rw [← kq]; exact List.take_prefix _ _
            exact (List.prefix_append pfx [x]).trans this
          have hpb : pfx <+: L[b'] ++ [0] := by
            have : pfx ++ [y] <+: L[b'] ++ [0] := by rw [← kq']; exact List.take_prefix _ _
            exact (List.prefix_append pfx [y]).trans this
          have hpj : pfx <+: L[j] ++ [0] := by
            rcases Nat.lt_or_ge j b' with h1 | h1
            · refine FcDict.prefix_mid hpb ?_ (term_lt (FC.sorted_lt hL.sorted h1 (by omega)) (hL.pos _ (List.getElem_mem _)))
              intro hlt
              rcases Nat.lt_or_ge a j with h2 | h2
              · have := term_lt (FC.sorted_lt hL.sorted h2 (by omega)) (hL.pos _ (List.getElem_mem _))
                exact FcDict.prefix_not_lt hpa (List.lt_trans this hlt)
              · have : a = j := by omega
                subst this
                exact FcDict.prefix_not_lt hpa hlt
            · have : j = b' := by omega
              subst this; exact hpb
          have hle := hpj.length_le
          simp only [List.length_append, List.length_singleton] at hle
          rcases Nat.lt_or_ge L[j].length pfx.length with h1 | h1
          · exfalso
            have heq := hpj.eq_of_length (by simp; omega)
            have := (hp 0 (by rw [heq]; simp)).1
            omega
          · exact h1
        obtain ⟨p, hpl, ep⟩ := List.getElem_of_mem (keys_mem (i := pfx.length) (List.getElem_mem hj) hlen)
        obtain ⟨pa, pb, pa1, pb1, pab, pbL, pspan⟩ := e2.span p hpl
        have hspan := (pspan j hj).mp ep.symm
        obtain ⟨hpal, pa1'⟩ := List.getElem?_eq_some_iff.mp pa1
        obtain ⟨hpbl, pb1'⟩ := List.getElem?_eq_some_iff.mp pb1
        have hpq : q.b ≤ p ∧ p < q.e := by
          refine ⟨?_, ?_⟩
          · apply Classical.byContradiction; intro hc
            have := e2.disjoint hL (q := p) (q' := q.b) (by omega) (by omega) hpbl hal
            omega
          · apply Classical.byContradiction; intro hc
            have := e2.disjoint hL (q := q.e - 1) (q' := p) (by omega) hpl hbl hpal
            omega
        obtain ⟨z, z1, z2, z3⟩ := (q4 p hpl).mp hpq
        exact ⟨z, z1, z2, hlen, by rw [← ep, z3]⟩
      · rintro ⟨z, z1, z2, z3, z4⟩
        obtain ⟨p, hpl, ep⟩ := List.getElem_of_mem (keys_mem (i := pfx.length) (List.getElem_mem hj) z3)
        have hpq := (q4 p hpl).mpr ⟨z, z1, z2, by rw [ep, z4]⟩
        obtain ⟨pa, pb, pa1, pb1, pab, pbL, pspan⟩ := e2.span p hpl
        have hspan := (pspan j hj).mp ep.symm
        obtain ⟨hpal, pa1'⟩ := List.getElem?_eq_some_iff.mp pa1
        obtain ⟨hpbl, pb1'⟩ := List.getElem?_eq_some_iff.mp pb1
        refine ⟨?_, ?_⟩
        · rcases Nat.lt_or_ge q.b p with h1 | h1
          · have h2 := e2.disjoint hL h1 hpl (by omega) hpal
            omega
          · have : q.b = p := by omega
            simp only [this] at a1'
            omega
        · rcases Nat.lt_or_ge p (q.e - 1) with h1 | h1
          · have h2 := e2.disjoint hL h1 (by omega) hpbl (by omega)
            have h3 := (e2.ab (q := q.e - 1) (by omega) hbl).1
            omega
          · have : p = q.e - 1 := by omega
            subst this
            omega

/-- nothing is found for the invalid range -/
theorem locate_invalid {T : List CLevel} {levels : Nat} {L : List Ids} (h : Rep T levels L) {pfx : Ids} (hp : ∀ x ∈ pfx, 0 < x ∧ x < 2 ^ 32) :
    locatePrefix T pfx Range.invalid = .ok Range.invalid := by
  obtain ⟨t0, r1, r2⟩ := h.root
  unfold locatePrefix
  rw [rd_of_getElem? r1]
  simp only [M.ok_bind]
  rcases descend_spec h pfx [] t0 ⟨0, t0.nodes.size⟩ (by simp) hp r1 r2 with ⟨d1, d2⟩ | ⟨t, r, d1, d2, d3⟩
  · rw [List.length_nil] at d1
    rw [d1]
    rfl
  · simp only [List.length_nil, Nat.zero_add, List.nil_append] at d1 d2 d3
    rw [d1]
    simp only [M.ok_bind]
    rw [d2]
    simp only
    rw [d3.none, M.ok_bind, if_pos rfl]

theorem locate_spec {T : List CLevel} {levels : Nat} {L : List Ids} (h : Rep T levels L) (hL : Compl L)
    (hsh : Shape levels L)
    {pfx : Ids} (hp : ∀ x ∈ pfx, 0 < x ∧ x < 2 ^ 32) {b e : Nat} (hb : 0 < b) (hbe : b ≤ e) (he : e < 2 ^ 32) :
    ∃ r, locatePrefix T pfx ⟨b, e⟩ = .ok r ∧
      ((r = Range.invalid ∧ ∀ s ∈ L, ¬ MatchIds pfx b e s) ∨
       (r.b < r.e ∧ r.e ≤ L.length ∧ ∀ i (hi : i < L.length), (r.b ≤ i ∧ i < r.e) ↔ MatchIds pfx b e L[i])) := by
  have := locate_all h hL hsh hp hbe he
  simpa only [match_term hb] using this

end AC.Trie

namespace AC.Trie

theorem memberLoop_spec {T : List CLevel} {levels : Nat} {L : List Ids} (h : Rep T levels L) :
    ∀ (xs path : Ids) (t : CLevel) (r : Range), (∀ x ∈ path, 0 < x) → (∀ x ∈ xs, 0 < x ∧ x < 2 ^ 32) →
      T[path.length]? = some t → NodeRun t.nodes.seq (keys path.length L) path.length path r →
      ∃ v, memberLoop T path.length r (xs ++ [0]) = .ok v ∧ (v = true ↔ path ++ xs ∈ L)
  | [], path, t, r, hp, _, ht, hr => by
      obtain ⟨f1, f2⟩ := hr.find 0 (by decide)
      have hcard := keys_card path.length L
      have hsmall := h.small
      rw [List.nil_append, List.append_nil]
      unfold memberLoop
      rw [rd_of_getElem? ht]
      simp only [M.ok_bind]
      have hmem : path ++ [0] ∈ keys path.length L ↔ path ∈ L := by
        constructor
        · intro hm
          obtain ⟨c, c1, c2, c3⟩ := mem_keys hm
          unfold pre at c3
          rcases Nat.lt_or_ge path.length c.length with h1 | h1
          · rw [List.take_append_of_le_length (by omega)] at c3
            have h0 : 0 ∈ c := List.mem_of_mem_take (i := path.length + 1) (by rw [← c3]; simp)
            exact absurd (h.pos c c1 0 h0) (by omega)
          · rw [List.take_of_length_le (by simp; omega)] at c3
            rw [List.append_cancel_right c3]; exact c1
        · intro hm
          have := keys_mem (i := path.length) hm (Nat.le_refl _)
          unfold pre at this
          rwa [List.take_of_length_le (by simp)] at this
      by_cases hm : path ++ [0] ∈ keys path.length L
      · obtain ⟨q, hq, eq⟩ := List.getElem_of_mem hm
        rw [f1 q hq eq]
        simp only [M.ok_bind]
        rw [if_neg (by unfold NOT_FOUND; omega)]
        simp only [if_true]
        exact ⟨true, rfl, by simp [hmem.mp hm]⟩
      · rw [f2 hm]
        simp only [M.ok_bind, if_true]
        exact ⟨false, rfl, by simp; exact fun hc => hm (hmem.mpr hc)⟩
  | x :: xs, path, t, r, hp, hx, ht, hr => by
      have hx0 := hx x (by simp)
      obtain ⟨f1, f2⟩ := hr.find x hx0.2
      have e : path ++ x :: xs = (path ++ [x]) ++ xs := by simp
      rw [List.cons_append]
      unfold memberLoop
      rw [rd_of_getElem? ht]
      simp only [M.ok_bind]
      have hcard := keys_card path.length L
      have hsmall := h.small
      by_cases hm : path ++ [x] ∈ keys path.length L
      · obtain ⟨q, hq, eq⟩ := List.getElem_of_mem hm
        rw [f1 q hq eq]
        simp only [M.ok_bind]
        have hpos : ∀ y ∈ path ++ [x], 0 < y := by
          intro y hy
          rcases List.mem_append.mp hy with hy | hy
          · exact hp y hy
          · have : y = x := by simpa using hy
            rw [this]; exact hx0.1
        have hchild := h.child path.length q hq (by rw [eq]; exact hpos)
        obtain ⟨t2, t3, r2, c1, c2, c3, c4⟩ := hchild.ex
        rw [if_neg (by unfold NOT_FOUND; omega), if_neg (by simp)]
        rw [ht] at c1
        cases c1
        rw [c3]
        simp only [M.ok_bind]
        have hl : (path ++ [x]).length = path.length + 1 := by simp
        have ih := memberLoop_spec h xs (path ++ [x]) t3 r2 hpos (fun y hy => hx y (by simp [hy])) (by rw [hl]; exact c2)
          (by rw [hl, ← eq]; exact c4)
        rw [hl] at ih
        rw [e]
        exact ih
      · rw [f2 hm]
        simp only [M.ok_bind, if_true]
        refine ⟨false, rfl, ?_⟩
        simp only [Bool.false_eq_true, false_iff]
        intro hc
        apply hm
        have : pre path.length (path ++ x :: xs) = path ++ [x] := by
          unfold pre
          rw [e, List.append_assoc, List.take_append_of_le_length (by simp), List.take_of_length_le (by simp)]
        rw [← this]
        exact keys_mem hc (by simp)

theorem member_spec {T : List CLevel} {levels : Nat} {L : List Ids} (h : Rep T levels L)
    {c : Ids} (hp : ∀ x ∈ c, 0 < x ∧ x < 2 ^ 32) : ∃ v, isMember T (c ++ [0]) = .ok v ∧ (v = true ↔ c ∈ L) := by
  obtain ⟨t0, r1, r2⟩ := h.root
  unfold isMember
  rw [rd_of_getElem? r1]
  simp only [M.ok_bind]
  have := memberLoop_spec h c [] t0 ⟨0, t0.nodes.size⟩ (by simp) hp r1 r2
  simpa using this

end AC.Trie
