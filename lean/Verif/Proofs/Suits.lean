import Verif.Proofs.ConjQuery
/-!
# From conditions on collections to those of the constructors
-/
namespace AC
open Spec

section
variable {C : Coll} {F : Files} (h : Ready C F)
include h

theorem Ready.numTerms : NumTerms C F.terms.length :=
  ⟨F.terms, nodup_of_strict h.files.terms, fun t => (h.isTerm t).symm, rfl⟩

theorem Ready.numTerms_eq {n : Nat} (hn : NumTerms C n) : n = F.terms.length := by
  obtain ⟨L, h1, h2, rfl⟩ := hn
  have a := nodup_subset_length' (A := L) (B := F.terms) h1 (fun t ht => (h.isTerm t).mp ((h2 t).mp ht))
  have b := nodup_subset_length' (A := F.terms) (B := L) (nodup_of_strict h.files.terms) (fun t ht => (h2 t).mpr ((h.isTerm t).mpr ht))
  omega

theorem Ready.minList (h0 : ∃ t, IsTerm C t ∧ ∀ c, (0, c) ∈ C → t ∉ c) : ∃ l ∈ F.inverted, 0 ∉ l := by
  obtain ⟨t, ht, hn⟩ := h0
  have ht' := (h.isTerm t).mp ht
  have h1 := rankOf_le ht'
  have h2 := rankOf_pos (L := F.terms) t
  have hi : rankOf F.terms t - 1 < F.inverted.length := by rw [h.files.numLists]; omega
  refine ⟨F.inverted[rankOf F.terms t - 1], List.getElem_mem hi, ?_⟩
  intro hm
  have : 0 ∈ F.inverted.getD (rankOf F.terms t - 1) [] := by
    rw [List.getD_eq_getElem?_getD, List.getElem?_eq_getElem hi]; exact hm
  obtain ⟨c, hc, htc⟩ := (h.mem_list ht' 0).mp this
  exact hn c hc htc

end

theorem Spec.Suits1.doc {C : Coll} (h : Suits1 C) : ∃ r ∈ C, r.1 ≠ 0 := by
  obtain ⟨t, ⟨r, hr, ht⟩, hn⟩ := h.doc0
  refine ⟨r, hr, fun h0 => hn r.2 ?_ ht⟩
  rw [← h0]; exact hr

theorem Spec.Suits2.to3 {C : Coll} (h : Suits2 C) : Suits3 C := ⟨h.terms, h.count, h.doc⟩

theorem Index1.exists {C : Coll} {F : Files} (h : Ready C F) (hw : Suits1 C) (mem : Nat → W) : ∃ x, Index1.build F mem = .ok x ∧ x.Rep F := by
  obtain ⟨n, hn, h17⟩ := hw.terms
  rw [h.numTerms_eq hn] at h17
  exact Index1.build_spec h h17 hw.doc (h.minList hw.doc0) mem

theorem Index2.exists {C : Coll} {F : Files} (h : Ready C F) (hw : Suits2 C) (mem : Nat → W) : ∃ x, Index2.build F mem = .ok x ∧ x.Rep F := by
  obtain ⟨n, hn, h17⟩ := hw.terms
  rw [h.numTerms_eq hn] at h17
  exact Index2.build_spec h h17 (by rw [h.length_mapped]; exact hw.count) hw.doc (h.minList hw.doc0) mem

theorem Index3.exists {C : Coll} {F : Files} (h : Ready C F) (hw : Suits3 C) (mem : Nat → W) : ∃ x, Index3.build F mem = .ok x ∧ x.Rep F := by
  obtain ⟨n, hn, h17⟩ := hw.terms
  rw [h.numTerms_eq hn] at h17
  exact Index3.build_spec h h17 (by rw [h.length_mapped]; exact hw.count) hw.doc0 mem

/-! ## Uniqueness of the answer -/

theorem Spec.Best.topk {C : Coll} {P : List Str → Prop} {k : Nat} {E : Coll} (h : Spec.Best C P k E) : IsTopK (Doc C P) k (E.map (·.1)) := by
  refine ⟨by rw [List.pairwise_map]; exact h.sorted, ?_, by simpa using h.le, ?_⟩
  · intro d hd
    obtain ⟨r, hr, rfl⟩ := List.mem_map.mp hd
    exact ⟨r.2, (h.sound r hr).1, (h.sound r hr).2⟩
  · rintro d ⟨c, hc, hp⟩ hn
    obtain ⟨h1, h2⟩ := h.complete (d, c) hc hp (fun hm => hn (List.mem_map.mpr ⟨_, hm, rfl⟩))
    refine ⟨by simpa using h1, ?_⟩
    intro e he
    obtain ⟨r, hr, rfl⟩ := List.mem_map.mp he
    exact h2 r hr

theorem fst_inj {C : Coll} (hd : (C.map (·.1)).Nodup) : ∀ {E E' : Coll}, (∀ r ∈ E, r ∈ C) → (∀ r ∈ E', r ∈ C) → E.map (·.1) = E'.map (·.1) → E = E'
  | [], [], _, _, _ => rfl
  | [], _ :: _, _, _, h => by simp at h
  | _ :: _, [], _, _, h => by simp at h
  | r :: E, r' :: E', h1, h2, h => by
      simp only [List.map_cons, List.cons.injEq] at h
      have hr := h1 r (by simp)
      have hr' := h2 r' (by simp)
      have : r = r' := by
        obtain ⟨i, hi, rfl⟩ := List.getElem_of_mem hr
        obtain ⟨j, hj, rfl⟩ := List.getElem_of_mem hr'
        have : i = j := by
          have e1 := hd.idxOf_getElem i (by simpa using hi)
          have e2 := hd.idxOf_getElem j (by simpa using hj)
          rw [← e1, ← e2]
          congr 1
          simpa using h.1
        subst this; rfl
      rw [this, fst_inj hd (fun r hr => h1 r (by simp [hr])) (fun r hr => h2 r (by simp [hr])) h.2]

/-- there is only one right answer -/
theorem Spec.Best.unique {C : Coll} (hd : (C.map (·.1)).Nodup) {P Q : List Str → Prop} (hpq : ∀ r ∈ C, P r.2 ↔ Q r.2) {k : Nat} {E E' : Coll}
    (h : Spec.Best C P k E) (h' : Spec.Best C Q k E') : E = E' := by
  refine fst_inj hd (fun r hr => (h.sound r hr).1) (fun r hr => (h'.sound r hr).1) (IsTopK.unique ?_ h.topk h'.topk)
  intro d
  constructor
  · rintro ⟨c, hc, hp⟩; exact ⟨c, hc, (hpq _ hc).mp hp⟩
  · rintro ⟨c, hc, hp⟩; exact ⟨c, hc, (hpq _ hc).mpr hp⟩

/-- two queries have the same answer: both write outside of the pool, or both give the same list of results -/
def SameAnswer (o o' : M Scratch) : Prop :=
  (o = .error .oob ∧ o' = .error .oob) ∨ ∃ s s' res, o = .ok s ∧ o' = .ok s' ∧ s.pool.results = .ok res ∧ s'.pool.results = .ok res

theorem Outcome.same {C : Coll} (hd : (C.map (·.1)).Nodup) {terms : List Str} {P Q : List Str → Prop} (hpq : ∀ r ∈ C, P r.2 ↔ Q r.2) {k : Nat}
    {o o' : M Scratch} (h : Outcome C terms P k o) (h' : Outcome C terms Q k o') : SameAnswer o o' := by
  obtain ⟨E, b, h⟩ := h
  obtain ⟨E', b', h'⟩ := h'
  have := b.unique hd hpq b'
  subst this
  rcases h with ⟨e1, e2, _⟩ | ⟨s, e1, _, e2, e3, _⟩
  · rcases h' with ⟨f1, f2, _⟩ | ⟨s', f1, _, f2, f3, _⟩
    · exact Or.inl ⟨e1, f1⟩
    · exact absurd f3 e2
  · rcases h' with ⟨f1, f2, _⟩ | ⟨s', f1, _, f2, f3, _⟩
    · exact absurd e3 f2
    · exact Or.inr ⟨s, s', _, e1, f1, e2, f2⟩

/-- when there is room for the answer -/
theorem Outcome.answer {C : Coll} {terms : List Str} {P : List Str → Prop} {k : Nat} {o : M Scratch} (h : Outcome C terms P k o)
    (hroom : ∀ E, Spec.Best C P k E → room E + 2 * MAX_CHARS ≤ POOL_SIZE) :
    ∃ s res, o = .ok s ∧ s.WF ∧ s.pool.results = .ok res ∧ Answer C P k res := by
  obtain ⟨E, b, h⟩ := h
  have := hroom E b
  rcases h with ⟨e1, e2, e3⟩ | ⟨s, e1, e2, e3, e4, _⟩
  · omega
  · exact ⟨s, _, e1, e2, e3, E, b, rfl⟩

theorem room_le {C : Coll} {n : Nat} (hn : ∀ r ∈ C, (joined r.2).length ≤ n) : ∀ {E : Coll}, (∀ r ∈ E, r ∈ C) → room E ≤ E.length * n
  | [], _ => by simp [room]
  | r :: E, h => by
      have h1 := room_le hn (E := E) (fun r hr => h r (by simp [hr]))
      have h2 := hn r (h r (by simp))
      unfold room at h1 ⊢
      simp only [List.map_cons, List.sum_cons, List.length_cons, Nat.add_mul]
      omega

theorem Spec.Best.room_le {C : Coll} {P : List Str → Prop} {k n : Nat} {E : Coll} (h : Spec.Best C P k E) (hn : ∀ r ∈ C, (joined r.2).length ≤ n) :
    room E ≤ k * n :=
  Nat.le_trans (AC.room_le hn (fun r hr => (h.sound r hr).1)) (Nat.mul_le_mul_right n h.le)

theorem joined_length : ∀ (c : List Str), (joined c).length = (c.map List.length).sum + (c.length - 1)
  | [] => rfl
  | [t] => by simp [joined]
  | t :: t' :: ts => by
      have := joined_length (t' :: ts)
      rw [joined, List.length_append, List.length_cons, this]
      simp only [List.map_cons, List.sum_cons, List.length_cons]
      omega

theorem Spec.ValidColl.text_le {C : Coll} (h : ValidColl C) : ∀ r ∈ C, (joined r.2).length ≤ 190 := by
  intro r hr
  have h1 := h.short r hr
  have h2 := h.chars r hr
  rw [joined_length]; omega

theorem PrefixFound_iff {C : Coll} {complete : List Str} {last : Str} (h : LastOk C last) (c : List Str) :
    PrefixFound C complete last c ↔ PrefixMatch complete last c := by
  constructor
  · rintro ⟨x, h1, h2⟩; exact ⟨x, h1.1, h2⟩
  · rintro ⟨x, h1, h2⟩; exact ⟨x, ⟨h1, fun hf => h x hf h1⟩, h2⟩

theorem ConjFound_iff {C : Coll} {complete : List Str} {last : Str} (h : LastOk C last) (c : List Str) :
    ConjFound C complete last c ↔ ConjMatch C complete last c := by
  constructor
  · rintro ⟨h0, x, hx, h1⟩; exact ⟨h0, x, hx, h1.1⟩
  · rintro ⟨h0, x, hx, h1⟩; exact ⟨h0, x, hx, h1, fun hf => h x hf h1⟩

/-! ## Fewer results -/

theorem extractStrings_add (d : FC) (src : Nat → M (Nat × (Nat → M Nat))) (m : Nat) : ∀ (n i : Nat) (p : Pool),
    extractStrings d src (n + m) i p = extractStrings d src n i p >>= extractStrings d src m (i + n)
  | 0, i, p => by rw [Nat.zero_add]; rfl
  | n + 1, i, p => by
      rw [show n + 1 + m = (n + m) + 1 by omega, extractStrings, extractStrings]
      cases h1 : src i with
      | error e => rfl
      | ok a =>
          obtain ⟨sz, tm⟩ := a
          rw [M.ok_bind, M.ok_bind]
          dsimp only
          cases h2 : p.bytes with
          | error e => rfl
          | ok off =>
              rw [M.ok_bind, M.ok_bind]
              cases h3 : writeTerms d tm sz 0 p.data off with
              | error e => rfl
              | ok b =>
                  obtain ⟨dt, of⟩ := b
                  rw [M.ok_bind, M.ok_bind]
                  dsimp only
                  rw [extractStrings_add d src m n (i + 1), show i + 1 + n = i + (n + 1) by omega]

theorem fitsPool_take {d : FC} {tss : List Ids} (h : fitsPool d tss = true) (k : Nat) : fitsPool d (tss.take k) = true := by
  rcases Nat.lt_or_ge k tss.length with hk | hk
  · unfold fitsPool at h
    rw [show tss.length = k + (tss.length - k) by omega, extractStrings_add] at h
    have hsrc : SrcOf (listSource tss) (tss.take k) := by
      intro j hj
      have hj' : j < k ∧ j < tss.length := by rw [List.length_take] at hj; omega
      obtain ⟨t, t1, t2⟩ := listSource_src tss j hj'.2
      have he : (tss.take k)[j] = tss[j] := List.getElem_take
      generalize (tss.take k)[j] = l at he
      subst he
      exact ⟨t, t1, t2⟩
    have := fitsPool_spec (d := d) hsrc (p := Pool.fresh.init) List.length_replicate rfl
    rw [← this, List.length_take, Nat.min_eq_left (by omega)]
    cases hx : extractStrings d (listSource tss) k 0 Pool.fresh.init with
    | error e => rw [hx] at h; simp [bind, Except.bind, Except.isOk, Except.toBool] at h
    | ok p => rfl
  · rw [List.take_of_length_le hk]; exact h

theorem Fits.take {terms : List Str} {E : Coll} (h : Fits terms E) (k : Nat) : Fits terms (E.take k) := by
  obtain ⟨d, h1, h2⟩ := h
  exact ⟨d, h1, by rw [List.map_take]; exact fitsPool_take h2 k⟩

theorem Spec.Best.take {C : Coll} {P : List Str → Prop} {k k' : Nat} (hk : k ≤ k') {E : Coll} (h : Spec.Best C P k' E) :
    Spec.Best C P k (E.take k) := by
  refine ⟨fun r hr => h.sound r (List.mem_of_mem_take hr), h.sorted.sublist (List.take_sublist _ _), by simp; omega, ?_⟩
  intro r hr hp hn
  by_cases hm : r ∈ E
  · have hd : r ∈ E.drop k := by
      rw [← List.take_append_drop k E, List.mem_append] at hm
      exact hm.resolve_left hn
    have hlen : k < E.length := by
      apply Classical.byContradiction
      intro hc
      rw [List.drop_eq_nil_of_le (by omega)] at hd
      simp at hd
    refine ⟨by simp; omega, ?_⟩
    intro e he
    have := h.sorted
    rw [← List.take_append_drop k E, List.pairwise_append] at this
    exact this.2.2 e he r hd
  · obtain ⟨h1, h2⟩ := h.complete r hr hp hm
    exact ⟨by simp; omega, fun e he => h2 e (List.mem_of_mem_take he)⟩

theorem Spec.Best.length_le {C : Coll} {P Q : List Str → Prop} (hpq : ∀ r ∈ C, P r.2 → Q r.2) {k : Nat} {E E' : Coll} (h : Spec.Best C P k E)
    (h' : Spec.Best C Q k E') : E.length ≤ E'.length := by
  by_cases hk : E'.length = k
  · rw [hk]; exact h.le
  · apply nodup_subset_length'
    · exact h.sorted.imp (fun hlt he => by rw [he] at hlt; omega)
    · intro r hr
      apply Classical.byContradiction
      intro hn
      obtain ⟨h1, h2⟩ := h.sound r hr
      exact hk (h'.complete r h1 (hpq r h1 h2) hn).1

end AC
