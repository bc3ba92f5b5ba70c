import Verif.Proofs.TrieBuild
/-! # What the constructor of the builder of the trie produces -/
namespace AC.Trie

/-- the pointers of level `i` when the builder is done -/
structure DonePtrs (L : List Ids) (i : Nat) (t : Level) : Prop where
  len : (keys i L).length + 1 ≤ t.ptrs.length
  len_le : t.ptrs.length ≤ (keys i L).length + 2
  zero : t.ptrs[0]? = some 0
  mono : t.ptrs.Pairwise (fun a b => a ≤ b)
  cover : (keys (i + 1) L).length ∈ t.ptrs
  par : ∀ k v, t.ptrs[k]? = some v → v ≤ (keys (i + 1) L).length ∧
    ∀ q (_ : q < (keys (i + 1) L).length), q < v ↔ ∃ k' : Nat, k' < k ∧ (keys i L)[k']? = some ((keys (i + 1) L)[q].take (i + 1))

/-- level `i` when the builder is done: `A`, `B` are the first and the last completions below each node -/
structure Done (levels : Nat) (L : List Ids) (i : Nat) (t : Level) (A B : List Nat) : Prop where
  nodes : t.nodes = (keys i L).map (·.getLastD 0)
  lenA : A.length = (keys i L).length
  lenB : B.length = (keys i L).length
  span : ∀ q (_ : q < (keys i L).length), ∃ a b, A[q]? = some a ∧ B[q]? = some b ∧
    a ≤ b ∧ b < L.length ∧ ∀ j (_ : j < L.length), pre i L[j] = (keys i L)[q] ↔ a ≤ j ∧ j ≤ b
  left : t.left = A.mapIdx fun k v => v - k
  sizes : t.sizes = sumLoop 0 A B
  ptrs : i + 1 < levels → DonePtrs L i t

theorem loop_spec (levels : Nat) : ∀ (cs D : List Ids) (ts : List Level), Compl (D ++ cs) → (∀ c ∈ cs, c.length < levels) →
    ts.length = levels → (∀ i (h : i < ts.length), LevelInv i D ts[i] ∧ (i < levels - 1 → PtrInv i D ts[i])) →
    ∃ ts', loop levels (prevOf D) D.length cs ts = .ok (prevOf (D ++ cs), (D ++ cs).length, ts') ∧ ts'.length = levels ∧
      (∀ i (h : i < ts'.length), LevelInv i (D ++ cs) ts'[i] ∧ (i < levels - 1 → PtrInv i (D ++ cs) ts'[i])) := by
  intro cs
  induction cs with
  | nil =>
      intro D ts _ _ hl hI
      rw [List.append_nil]
      exact ⟨ts, rfl, hl, hI⟩
  | cons c cs ih =>
      intro D ts hD hc hl hI
      have e : D ++ c :: cs = (D ++ [c]) ++ cs := by simp
      have hDc : Compl (D ++ [c]) := by
        rw [e] at hD
        have hs := List.pairwise_append.mp hD.sorted
        exact ⟨hs.1, fun s hs => hD.pos s (List.mem_append_left _ hs), fun s hs => hD.ne s (List.mem_append_left _ hs)⟩
      unfold loop
      rw [if_pos (hc c (by simp))]
      rw [e] at hD ⊢
      have := ih (D ++ [c]) (ts.mapIdx fun i t => t.step levels (FC.lcp c (prevOf D)) (prevOf D).length c D.length i) hD
        (fun s hs => hc s (by simp [hs])) (by simp [hl]) ?_
      · rw [show prevOf (D ++ [c]) = c by simp [prevOf], show (D ++ [c]).length = D.length + 1 by simp] at this
        exact this
      · intro i h
        rw [List.length_mapIdx] at h
        rw [List.getElem_mapIdx]
        obtain ⟨f1, f2, f3, f4⟩ := step_fields levels (FC.lcp c (prevOf D)) (prevOf D).length c D.length i ts[i]
        obtain ⟨i1, i2⟩ := hI i h
        exact ⟨i1.step hDc f1 f2 f3, fun hi => (i2 hi).step i1 hDc f3 (f4 hi).1 (f4 hi).2⟩

theorem init_inv (i : Nat) : LevelInv i [] Level.init ∧ PtrInv i [] Level.init := by
  refine ⟨⟨rfl, rfl, ?_, fun _ => rfl, ?_⟩, ⟨rfl, rfl, by simp [Level.init], rfl, ?_⟩⟩
  · rintro ⟨p, hp, _⟩; simp at hp
  · intro q hq; simp [keys] at hq
  · intro k v hk
    have : k = 0 := by
      apply Classical.byContradiction; intro hc
      rw [List.getElem?_eq_none (by simp [Level.init]; omega)] at hk; cases hk
    subst this
    have : v = 0 := by simpa [Level.init] using hk.symm
    subst this
    exact ⟨Nat.zero_le _, fun q hq => by simp [keys] at hq⟩

/-- every level of what the builder collects -/
theorem collect_spec {levels : Nat} {L : List Ids} (hL : Compl L) (hne : L ≠ []) (hlev : ∀ c ∈ L, c.length < levels) :
    ∃ ts, collect levels L = .ok ts ∧ ts.length = levels ∧
      ∀ i (h : i < ts.length), ∃ A B, Done levels L i ts[i] A B := by
  obtain ⟨ts, e1, e2, e3⟩ := loop_spec levels L [] (List.replicate levels Level.init) (by simpa using hL) hlev (by simp)
    (by intro i h; rw [List.getElem_replicate]; exact ⟨(init_inv i).1, fun _ => (init_inv i).2⟩)
  simp only [List.nil_append, List.length_nil, show prevOf [] = [] from rfl] at e1 e3
  unfold collect
  rw [e1]
  simp only [M.ok_bind]
  rw [if_neg (by have := List.length_pos_iff.mpr hne; omega)]
  refine ⟨_, rfl, by simp [e2], ?_⟩
  intro i hi
  rw [List.length_mapIdx] at hi
  rw [List.getElem_mapIdx]
  obtain ⟨i1, i2⟩ := e3 i hi
  have hopen : Opened i L ↔ i < (prevOf L).length + 1 := by
    rw [← prev_pos hL i]
    obtain ⟨p, hp⟩ : ∃ p, L.getLast? = some p := ⟨_, List.getLast?_eq_some_getLast hne⟩
    have h1 : prevOf L = p := by unfold prevOf; rw [hp]; rfl
    have h2 := List.length_pos_iff.mpr (hL.ne p (List.mem_of_getLast? hp))
    rw [h1]; omega
  have hLpos := List.length_pos_iff.mpr hne
  generalize hnx : (ts.map (·.nodes.length)).getD (i + 1) 0 = nx
  have hnx' : i + 1 < levels → nx = (keys (i + 1) L).length := by
    intro h
    rw [← hnx, List.getD_eq_getElem?_getD, List.getElem?_map, List.getElem?_eq_getElem (by omega)]
    have := (e3 (i + 1) (by omega)).1.nodes
    simp [this]
  generalize hB : (if i < (prevOf L).length + 1 then ts[i].sizes ++ [L.length - 1] else ts[i].sizes) = B
  have hBl : B.length = (keys i L).length := by
    rw [← hB]
    by_cases ho : Opened i L
    · rw [if_pos (hopen.mp ho)]; have := i1.opn ho; simp; omega
    · rw [if_neg (fun h => ho (hopen.mpr h))]; exact i1.closed ho
  have hfin : ts[i].finish levels (prevOf L).length L.length nx i =
      ⟨ts[i].nodes, (if i < levels - 1 then ts[i].ptrs ++ [nx] else ts[i].ptrs), ts[i].left.mapIdx fun k v => v - k,
        sumLoop 0 ts[i].left B, ts[i].off⟩ := by
    unfold Level.finish
    rw [← hB]
    by_cases h1 : i < (prevOf L).length + 1 <;> by_cases h2 : i < levels - 1 <;> simp only [h1, h2, if_true, if_false]
  rw [hfin]
  refine ⟨ts[i].left, B, i1.nodes, i1.left, hBl, ?_, rfl, rfl, ?_⟩
  · intro q hq
    obtain ⟨a, b, s1, s2, s3⟩ := i1.span q hq
    refine ⟨a, b, s1, ?_, s3⟩
    rw [← hB]
    by_cases ho : Opened i L
    · rw [if_pos (hopen.mp ho)]
      have := i1.opn ho
      rcases s2 with s2 | ⟨s2, s2'⟩
      · have hlt : q < ts[i].sizes.length := by
          apply Classical.byContradiction; intro hc
          rw [List.getElem?_eq_none (by omega)] at s2; cases s2
        rw [List.getElem?_append_left hlt]; exact s2
      · have : q = ts[i].sizes.length := by omega
        subst this
        rw [List.getElem?_concat_length]; congr 1; omega
    · rw [if_neg (fun h => ho (hopen.mpr h))]
      have := i1.closed ho
      rcases s2 with s2 | ⟨s2, s2'⟩
      · exact s2
      · omega
  · intro hlv
    have P := i2 (by omega)
    have hx := hnx' hlv
    simp only [show i < levels - 1 by omega, if_true]
    have hptrs : ∀ v ∈ ts[i].ptrs, v ≤ (keys (i + 1) L).length := by
      intro v hv
      obtain ⟨k, hk, rfl⟩ := List.getElem_of_mem hv
      exact (P.par k _ (List.getElem?_eq_getElem hk)).1
    have hpl := P.len
    have hszge : (keys i L).length ≤ ts[i].sizes.length + 1 := by
      by_cases ho : Opened i L
      · have := i1.opn ho; omega
      · have := i1.closed ho; omega
    have hszle : ts[i].sizes.length ≤ (keys i L).length := by
      by_cases ho : Opened i L
      · have := i1.opn ho; omega
      · have := i1.closed ho; omega
    constructor
    · simp; omega
    · simp; omega
    · simp only; rw [List.getElem?_append_left (by omega)]; exact P.zero
    · simp only
      rw [List.pairwise_append]
      refine ⟨P.mono, by simp, ?_⟩
      intro a ha b hb
      have := hptrs a ha
      have hb := List.mem_singleton.mp hb
      omega
    · simp [hx]
    · intro k v hk
      simp only at hk
      rcases Nat.lt_or_ge k ts[i].ptrs.length with h1 | h1
      · rw [List.getElem?_append_left h1] at hk; exact P.par k v hk
      · have hk' : k = ts[i].ptrs.length := by
          apply Classical.byContradiction; intro hc
          rw [List.getElem?_eq_none (by simp; omega)] at hk; cases hk
        subst hk'
        rw [List.getElem?_concat_length] at hk
        have hv := Option.some.inj hk
        refine ⟨by omega, ?_⟩
        intro q hq
        constructor
        · intro _
          obtain ⟨d, d1, d2, d3⟩ := mem_keys (List.getElem_mem hq)
          have hm : pre i d ∈ keys i L := keys_mem d1 (by omega)
          obtain ⟨k', hk', e⟩ := List.getElem_of_mem hm
          refine ⟨k', by omega, ?_⟩
          rw [List.getElem?_eq_getElem hk', e, d3, pre_take]
        · intro _; omega

end AC.Trie
