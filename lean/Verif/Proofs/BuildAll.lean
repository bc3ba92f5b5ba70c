import Verif.Proofs.Suits
import Verif.Props.UnionTopK
import Verif.Proofs.FcLoss
/-!
# When the constructors succeed
-/
namespace AC
open Spec

/-- the number of strings that a dictionary of `n` strings really has (C10) -/
def kept (n : Nat) : Nat := if n % 17 = 0 then n - 16 else n

theorem kept_le (n : Nat) : kept n ≤ n := by unfold kept; split <;> omega

theorem kept_mod {n : Nat} (h : 0 < n) : kept n % 17 ≠ 0 := by unfold kept; split <;> omega

theorem kept_pos {n : Nat} (h : 0 < n) : 0 < kept n := by unfold kept; split <;> omega

theorem Ready.dict_any {C : Coll} {F : Files} (h : Ready C F) : ∃ d, FcDict.build F.terms = .ok d := by
  by_cases h17 : F.terms.length % 17 = 0
  · have v := h.validTerms
    have hpos : 0 < F.terms.length := List.length_pos_iff.mpr h.terms_ne
    have hlen : (F.terms.take (F.terms.length - 16)).length = F.terms.length - 16 := by simp
    have v' : ValidTerms (F.terms.take (F.terms.length - 16)) :=
      ⟨v.sorted.sublist (List.take_sublist _ _), fun s hs => v.text s (List.mem_of_mem_take hs),
        fun s hs => v.len s (List.mem_of_mem_take hs), by have := v.count; simp; omega, Nat.lt_of_le_of_lt (sum_take_le ..) v.room⟩
    obtain ⟨d, hd, _⟩ := FcDict.build_rep v' (Nat.le_refl _) v'.len (by rw [hlen]; omega)
    refine ⟨{ d with size := F.terms.length }, ?_⟩
    rw [FcDict.build, FC.build_mod17 h17 h.terms_ne]
    rw [FcDict.build] at hd
    rw [hd]; rfl
  · obtain ⟨d, hd, _⟩ := h.dict_build h17
    exact ⟨d, hd⟩

/-- what the builder of the dictionary of completions gives, whatever the number of completions -/
theorem IntDict.build_any {univ : Nat} {rs : List (Nat × Ids)} (v : ValidIds (rs.map (·.2)))
    (hu : ∀ r ∈ rs, r.1 < univ) (hd : (rs.map (·.1)).Nodup) (hne : rs ≠ []) :
    ∃ d m, IntDict.build univ rs = .ok (d, m) ∧ m.length = univ ∧ (∀ i (hi : i < (rs.take (kept rs.length)).length), m[(rs.take (kept rs.length))[i].1]? = some i) ∧
      ∀ j, j < univ → j ∉ (rs.take (kept rs.length)).map (·.1) → m[j]? = some INVALID_TERM := by
  by_cases hn : rs.length % 17 = 0
  · have hpos : 0 < rs.length := List.length_pos_iff.mpr hne
    have hk : kept rs.length = rs.length - 16 := by unfold kept; rw [if_pos hn]
    rw [hk]
    obtain ⟨rs', hrs'⟩ : ∃ rs', rs' = rs.take (rs.length - 16) := ⟨_, rfl⟩
    have hlen : rs'.length = rs.length - 16 := by simp [hrs']
    have hsub : ∀ r ∈ rs', r ∈ rs := fun r hr => List.mem_of_mem_take (hrs' ▸ hr)
    have v' : ValidIds (rs'.map (·.2)) :=
      ⟨v.sorted.sublist (by rw [hrs']; exact (List.take_sublist _ _).map _),
        fun s hs => by
          obtain ⟨r, hr, rfl⟩ := List.mem_map.mp hs
          exact v.elems _ (List.mem_map_of_mem (hsub r hr)),
        fun s hs => by
          obtain ⟨r, hr, rfl⟩ := List.mem_map.mp hs
          exact v.len _ (List.mem_map_of_mem (hsub r hr)),
        by have := v.count; simp at this ⊢; omega⟩
    have hd' : (rs'.map (·.1)).Nodup := hd.sublist (by rw [hrs']; exact (List.take_sublist _ _).map _)
    have htl : FC.tail rs.length = FC.tail rs'.length := by
      rw [hlen]; simp only [FC.tail]; (repeat' split) <;> omega
    have htl0 : FC.tail rs.length = 0 := by simp only [FC.tail]; (repeat' split) <;> omega
    have hnb : (rs.length + 16) / 17 = (rs'.length + 16) / 17 := by omega
    obtain ⟨d, hb, R⟩ := IntDict.build_fc_rep v' (by simp; omega)
    obtain ⟨m, e1, e2, e3, e4⟩ := IntDict.lexAll_spec rs' 0 (List.replicate univ INVALID_TERM)
      (fun r hr => by simpa using hu r (hsub r hr)) hd'
    have hloop : IntDict.lexLoop (FC.tail rs.length) ((rs.length + 16) / 17) rs 0 (List.replicate univ INVALID_TERM)
        = .ok m := by
      rw [IntDict.lexLoop_eq _ _ _ _ _ (by rw [htl0]; omega), htl0, if_neg (by omega),
        show 17 * ((rs.length + 16) / 17 - 1) + 1 + 0 = rs.length - 16 by omega, ← hrs', e1]
    refine ⟨{ d with size := rs.length }, m, ?_, by simpa using e2, ?_, ?_⟩
    · simp only [IntDict.build, hloop, M.ok_bind]
      rw [FC.build_mod17 (by simpa using hn) (by simpa using hne)]
      have : (rs.map (·.2)).take ((rs.map (·.2)).length - 16) = rs'.map (·.2) := by
        rw [hrs', List.length_map, List.map_take]
      rw [this, hb]
      simp [Except.map]
    · rw [← hrs']
      intro i hi
      have := e3 i hi
      simpa using this
    · rw [← hrs']
      intro j hj hm
      rw [e4 j hm]
      simp [hj]
  · have hk : kept rs.length = rs.length := by unfold kept; rw [if_neg hn]
    rw [hk, List.take_length]
    obtain ⟨d, m, i1, i2, i3, i4, i5⟩ := IntDict.build_spec v hu hd hn
    exact ⟨d, m, i1, i3, i4, i5⟩

theorem invert_any {univ n : Nat} {rs : List (Nat × Ids)} {m : List Nat} (hlen : m.length = univ) (hk : rs.length ≤ n) (hn : n < 2 ^ 32 - 1)
    (h1 : ∀ i (hi : i < rs.length), m[rs[i].1]? = some i)
    (h2 : ∀ j, j < univ → j ∉ rs.map (·.1) → m[j]? = some INVALID_TERM) : invert m n = rs.map (·.1) ++ List.replicate (n - rs.length) 0 := by
  have hkey : ∀ a j, j < n → m[a]? = some j → ∃ hj : j < rs.length, a = rs[j].1 := by
    intro a j hj ha
    have hau : a < univ := by rw [← hlen]; exact (List.getElem?_eq_some_iff.mp ha).1
    by_cases hm : a ∈ rs.map (·.1)
    · obtain ⟨r, hr, rfl⟩ := List.mem_map.mp hm
      obtain ⟨i, hi, rfl⟩ := List.getElem_of_mem hr
      rw [h1 i hi] at ha
      cases ha; exact ⟨hi, rfl⟩
    · rw [h2 a hau hm] at ha
      simp only [Option.some.injEq, INVALID_TERM] at ha
      omega
  obtain ⟨i1, i2, i3⟩ := invertLoop_spec n m 0 (List.replicate n 0) (by simp) (by
    intro a b j hj ha hb
    obtain ⟨_, e1⟩ := hkey a j hj ha
    obtain ⟨_, e2⟩ := hkey b j hj hb
    rw [e1, e2])
  rw [List.length_replicate] at i1
  apply List.ext_getElem?
  intro j
  by_cases hj : j < rs.length
  · rw [invert, i2 rs[j].1 j (by omega) (h1 j hj), List.getElem?_append_left (by simpa using hj)]
    simp [hj]
  · rw [List.getElem?_append_right (by simp; omega), List.length_map, List.getElem?_replicate]
    by_cases hjn : j < n
    · rw [invert, i3 j (by
        intro i hi
        obtain ⟨hj', _⟩ := hkey i j hjn hi
        exact hj hj'), List.getElem?_replicate, if_pos hjn, if_pos (by omega)]
    · rw [List.getElem?_eq_none (by rw [invert, i1]; omega), if_neg (by omega)]

section
variable {C : Coll} {F : Files} (h : Ready C F)
include h

theorem Ready.minimal_iff (a b : W) : (∃ u, UL.build (F.inverted.map (fun l => l.headD 0)) a b = .ok u) ↔ ∃ l ∈ F.inverted, 0 ∉ l := by
  constructor
  · rintro ⟨u, hu⟩
    apply Classical.byContradiction
    intro hn
    obtain ⟨ib, e1, e2⟩ := Props.C27_minimal_zero F.univ F.inverted h.invLists a b (by
      have := h.termCount_le; have := h.coll.size; rw [h.files.numLists]; omega)
      (fun l hl => Classical.byContradiction (fun hc => hn ⟨l, hl, hc⟩))
    obtain ⟨ib', b1, b2, _⟩ := InvBuilder.build_spec h.invLists
    rw [e1] at b1
    cases b1
    rw [b2, hu] at e2
    simp at e2
  · intro h0
    obtain ⟨u, hu, _⟩ := h.minimal_build h0 a b
    exact ⟨u, hu⟩

theorem Ready.minimal_throws (a b : W) (h0 : ∀ l ∈ F.inverted, 0 ∈ l) : UL.build (F.inverted.map (fun l => l.headD 0)) a b = .error .thrown := by
  obtain ⟨ib, e1, e2⟩ := Props.C27_minimal_zero F.univ F.inverted h.invLists a b (by
    have := h.termCount_le; have := h.coll.size; rw [h.files.numLists]; omega) h0
  obtain ⟨ib', b1, b2, _⟩ := InvBuilder.build_spec h.invLists
  rw [e1] at b1
  cases b1
  rw [b2] at e2
  exact e2

theorem Ready.minList_iff : (∃ l ∈ F.inverted, 0 ∉ l) ↔ ∃ t, IsTerm C t ∧ ∀ c, (0, c) ∈ C → t ∉ c := by
  constructor
  · rintro ⟨l, hl, h0⟩
    obtain ⟨i, hi, rfl⟩ := h.mem_inverted hl
    refine ⟨F.terms[i], (h.isTerm _).mpr (List.getElem_mem hi), ?_⟩
    intro c hc ht
    apply h0
    rw [h.files.memList i 0 hi, h.getD_terms hi]
    exact ⟨c, hc, ht⟩
  · exact h.minList

end

/-- a list of ids can be built unless all are 0 -/
theorem UL.build_or {v : List Nat} (hne : v ≠ []) (hlen : v.length < 2 ^ 30 - 1) (hs : ∀ x ∈ v, x < 2 ^ 32) (a b : W) :
    (∃ u, UL.build v a b = .ok u ∧ ∃ x ∈ v, x ≠ 0) ∨ (UL.build v a b = .error .thrown ∧ ∀ x ∈ v, x = 0) := by
  by_cases h0 : ∃ x ∈ v, x ≠ 0
  · obtain ⟨u, hu, _⟩ := UL.build_spec v a b hlen hs h0
    exact Or.inl ⟨u, hu, h0⟩
  · have hz : ∀ x ∈ v, x = 0 := fun x hx => Classical.byContradiction (fun hc => h0 ⟨x, hx, hc⟩)
    refine Or.inr ⟨?_, hz⟩
    have : v = List.replicate (v.length - 1 + 1) 0 := by
      rw [List.eq_replicate_iff]
      exact ⟨by have := List.length_pos_iff.mpr hne; omega, hz⟩
    rw [this]
    exact UL.build_zero _ _ _ (by omega)

theorem Index1.build_iff {C : Coll} {F : Files} (h : Ready C F) (mem : Nat → W) :
    ((∃ x, Index1.build F mem = .ok x) ∧ ∃ t, IsTerm C t ∧ ∀ c, (0, c) ∈ C → t ∉ c) ∨
    (Index1.build F mem = .error .thrown ∧ ¬ ∃ t, IsTerm C t ∧ ∀ c, (0, c) ∈ C → t ∉ c) := by
  obtain ⟨ib, b1, b2, b3⟩ := InvBuilder.build_spec h.invLists
  obtain ⟨ii, b4, b5⟩ := b3 (mem 4)
  have hdocs : ∀ x ∈ F.mapped.map (·.1), x < 2 ^ 32 := by
    rw [h.fst_mapped]
    intro x hx
    obtain ⟨r, hr, rfl⟩ := List.mem_map.mp hx
    have := h.coll.ids r hr; omega
  unfold Index1.build
  rw [b1, M.ok_bind]
  rw [← h.minList_iff]
  rcases UL.build_or (v := F.mapped.map (·.1)) (by
      have := h.coll.ne
      intro hc
      rw [h.fst_mapped] at hc
      exact this (by simpa using hc)) (by
      rw [List.length_map, h.length_mapped]; have := h.count_le; have := h.coll.size; omega) hdocs (mem 0) (mem 1) with
    ⟨docs, d1, d2⟩ | ⟨d1, d2⟩
  · rw [d1, M.ok_bind, b2]
    by_cases hm : ∃ l ∈ F.inverted, 0 ∉ l
    · obtain ⟨mn, m1, m2⟩ := h.minimal_build hm (mem 2) (mem 3)
      obtain ⟨T, t1, t2, _⟩ := Props.C13_trie (F.mapped.map (·.2)) h.validIds h.nonempty_mapped F.levels
        (by
          obtain ⟨r, hr, he⟩ := h.files.levels
          rw [h.snd_mapped]
          exact ⟨_, List.mem_map.mpr ⟨r, hr, rfl⟩, by simpa using he⟩)
        (by
          rw [h.snd_mapped]
          intro c hc
          obtain ⟨r, hr, rfl⟩ := List.mem_map.mp hc
          simpa using h.files.lt_levels r hr)
      obtain ⟨dict, e1⟩ := h.dict_any
      obtain ⟨fi, f1, f2⟩ := FwdIdx.build_spec h.fwdLists (mem 5)
      rw [m1, M.ok_bind, t1, M.ok_bind, e1, M.ok_bind, b4, M.ok_bind, f1, M.ok_bind]
      exact Or.inl ⟨⟨_, rfl⟩, hm⟩
    · rw [h.minimal_throws _ _ (fun l hl => Classical.byContradiction (fun hc => hm ⟨l, hl, hc⟩))]
      exact Or.inr ⟨rfl, hm⟩
  · rw [d1]
    refine Or.inr ⟨rfl, ?_⟩
    rintro ⟨l, hl, h0⟩
    obtain ⟨i, hi, rfl⟩ := h.mem_inverted hl
    obtain ⟨r, hr, hrt⟩ := (h.isTerm F.terms[i]).mpr (List.getElem_mem hi)
    apply h0
    rw [h.files.memList i 0 hi, h.getD_terms hi]
    have hz := d2 r.1 (by rw [h.fst_mapped]; exact List.mem_map.mpr ⟨r, hr, rfl⟩)
    exact ⟨r.2, by rw [← hz]; exact hr, hrt⟩

/-- one of the completions that the dictionary keeps has a document id that is not 0 -/
def KeptDoc (C : Coll) : Prop := ∃ r ∈ C.take (kept C.length), r.1 ≠ 0

theorem Base.build_iff {C : Coll} {F : Files} (h : Ready C F) (mem : Nat → W) :
    ((∃ x, Base.build F mem = .ok x) ∧ KeptDoc C) ∨ (Base.build F mem = .error .thrown ∧ ¬ KeptDoc C) := by
  have hn : F.mapped.length < 2 ^ 30 - 1 := by
    have := h.count_le; have := h.coll.size; rw [h.length_mapped]; omega
  have hdoc : ∀ r ∈ F.mapped, r.1 < F.univ ∧ r.1 < 2 ^ 32 := by
    intro r hr
    have : r.1 ∈ F.mapped.map (·.1) := List.mem_map.mpr ⟨r, hr, rfl⟩
    rw [h.fst_mapped] at this
    obtain ⟨r', hr', he⟩ := List.mem_map.mp this
    rw [← he]
    have := h.coll.ids r' hr'
    exact ⟨h.files.lt_univ r' hr', by omega⟩
  have hne : F.mapped ≠ [] := by
    have := h.coll.ne
    have h2 := h.length_mapped
    intro hc
    rw [hc] at h2
    exact this (List.length_eq_zero_iff.mp h2.symm)
  obtain ⟨d, m, i1, i3, i4, i5⟩ := IntDict.build_any h.validIds (fun r hr => (hdoc r hr).1) (by rw [h.fst_mapped]; exact h.coll.docs) hne
  have hpos : 0 < F.mapped.length := List.length_pos_iff.mpr hne
  have w1 := ceilLog2_pos (F.mapped.length + 1) (by omega)
  have w32 := ceilLog2_le (F.mapped.length + 1) 32 (by omega)
  obtain ⟨cv, c1, c2, _⟩ := CV.build_spec (toWords m) (ceilLog2 (F.mapped.length + 1)) (mem 6) w1 (by omega)
  have hk := kept_le F.mapped.length
  have hinv := invert_any i3 (n := F.mapped.length) (by rw [List.length_take]; omega) (by omega) i4 i5
  have hfst : (F.mapped.take (kept F.mapped.length)).map (·.1) = (C.take (kept C.length)).map (·.1) := by
    rw [List.map_take, h.fst_mapped, h.length_mapped, List.map_take]
  unfold Base.build
  rw [i1, M.ok_bind]
  dsimp only
  rw [c1, M.ok_bind, hinv, hfst]
  obtain ⟨dict, e1⟩ := h.dict_any
  have hlen : ((C.take (kept C.length)).map (fun r : Nat × List Str => r.1) ++ List.replicate (F.mapped.length - (F.mapped.take (kept F.mapped.length)).length) 0).length
      = F.mapped.length := by
    rw [h.length_mapped] at hk
    simp [h.length_mapped]; omega
  rcases UL.build_or (v := (C.take (kept C.length)).map (·.1) ++ List.replicate (F.mapped.length - (F.mapped.take (kept F.mapped.length)).length) 0)
      (by intro hc; rw [hc] at hlen; simp at hlen; omega) (by omega) (by
        intro x hx
        rcases List.mem_append.mp hx with hx | hx
        · rw [← hfst] at hx
          obtain ⟨r, hr, rfl⟩ := List.mem_map.mp hx
          exact (hdoc r (List.mem_of_mem_take hr)).2
        · rw [(List.mem_replicate.mp hx).2]; decide) (mem 0) (mem 1) with ⟨docs, d1, x, d2, d3⟩ | ⟨d1, d2⟩
  · rw [d1, M.ok_bind, e1, M.ok_bind]
    refine Or.inl ⟨⟨_, rfl⟩, ?_⟩
    rcases List.mem_append.mp d2 with d2 | d2
    · obtain ⟨r, hr, rfl⟩ := List.mem_map.mp d2
      exact ⟨r, hr, d3⟩
    · exact absurd (List.mem_replicate.mp d2).2 d3
  · rw [d1]
    refine Or.inr ⟨rfl, ?_⟩
    rintro ⟨r, hr, h0⟩
    exact h0 (d2 r.1 (List.mem_append_left _ (List.mem_map.mpr ⟨r, hr, rfl⟩)))

/-- the two maps between documents and completions, whatever the number of completions -/
theorem Base.maps {C : Coll} {F : Files} (h : Ready C F) {mem : Nat → W} {x : Base} (hx : Base.build F mem = .ok x) (i : Nat) (hi : i < C.length) :
    ∃ w, x.lexids.get C[i].1 = .ok w ∧
      ((i < kept C.length ∧ w.toNat = i ∧ x.docs.access i = .ok C[i].1) ∨ (kept C.length ≤ i ∧ C.length ≤ w.toNat ∧ x.docs.access i = .ok 0)) := by
  have hml := h.length_mapped
  have hn : F.mapped.length < 2 ^ 30 - 1 := by
    have := h.count_le; have := h.coll.size; rw [h.length_mapped]; omega
  have hdoc : ∀ r ∈ F.mapped, r.1 < F.univ ∧ r.1 < 2 ^ 32 := by
    intro r hr
    have : r.1 ∈ F.mapped.map (·.1) := List.mem_map.mpr ⟨r, hr, rfl⟩
    rw [h.fst_mapped] at this
    obtain ⟨r', hr', he⟩ := List.mem_map.mp this
    rw [← he]
    have := h.coll.ids r' hr'
    exact ⟨h.files.lt_univ r' hr', by omega⟩
  have hne : F.mapped ≠ [] := by
    intro hc
    rw [hc] at hml
    simp at hml; omega
  obtain ⟨d, m, i1, i3, i4, i5⟩ := IntDict.build_any h.validIds (fun r hr => (hdoc r hr).1) (by rw [h.fst_mapped]; exact h.coll.docs) hne
  have w1 := ceilLog2_pos (F.mapped.length + 1) (by omega)
  have w32 := ceilLog2_le (F.mapped.length + 1) 32 (by omega)
  have wlt := lt_two_pow_ceilLog2 (F.mapped.length + 1) (by omega)
  obtain ⟨cv, c1, c2, _⟩ := CV.build_spec (toWords m) (ceilLog2 (F.mapped.length + 1)) (mem 6) w1 (by omega)
  have hk := kept_le F.mapped.length
  have hinv := invert_any i3 (n := F.mapped.length) (by rw [List.length_take]; omega) (by omega) i4 i5
  have hfst : (F.mapped.take (kept F.mapped.length)).map (·.1) = (C.take (kept C.length)).map (·.1) := by
    rw [List.map_take, h.fst_mapped, h.length_mapped, List.map_take]
  obtain ⟨dict, e1⟩ := h.dict_any
  unfold Base.build at hx
  rw [i1, M.ok_bind] at hx
  dsimp only at hx
  rw [c1, M.ok_bind, hinv, hfst] at hx
  generalize hv : (C.take (kept C.length)).map (·.1) ++ List.replicate (F.mapped.length - (F.mapped.take (kept F.mapped.length)).length) 0 = v at hx
  rw [hml] at hk
  have hlen : v.length = C.length := by
    rw [← hv, List.length_append, List.length_map, List.length_take, List.length_replicate, List.length_take, hml]; omega
  have hsmall : ∀ x ∈ v, x < 2 ^ 32 := by
    intro x hx
    rw [← hv] at hx
    rcases List.mem_append.mp hx with hx | hx
    · rw [← hfst] at hx
      obtain ⟨r, hr, rfl⟩ := List.mem_map.mp hx
      exact (hdoc r (List.mem_of_mem_take hr)).2
    · rw [(List.mem_replicate.mp hx).2]; decide
  have hvi : (i < kept C.length → v.getD i 0 = C[i].1) ∧ (kept C.length ≤ i → v.getD i 0 = 0) := by
    constructor
    · intro hik
      rw [← hv, List.getD_eq_getElem?_getD, List.getElem?_append_left (by rw [List.length_map, List.length_take]; omega), List.getElem?_map,
        List.getElem?_take, if_pos hik, List.getElem?_eq_getElem hi]
      rfl
    · intro hik
      rw [← hv, List.getD_eq_getElem?_getD, List.getElem?_append_right (by rw [List.length_map, List.length_take]; omega), List.getElem?_replicate]
      split <;> rfl
  rcases UL.build_or (v := v) (by intro hc; rw [hc] at hlen; simp at hlen; omega) (by rw [hlen, ← hml]; exact hn) hsmall (mem 0) (mem 1) with
    ⟨docs, d1, d2⟩ | ⟨d1, d2⟩
  · obtain ⟨u, u1, u2⟩ := UL.build_spec v (mem 0) (mem 1) (by rw [hlen, ← hml]; exact hn) hsmall d2
    rw [u1, M.ok_bind, e1, M.ok_bind] at hx
    cases hx
    dsimp only
    have hacc := u2.access i (by rw [hlen]; exact hi)
    have hdm : C[i].1 < (toWords m).length := by
      have : C[i].1 ∈ F.mapped.map (·.1) := by rw [h.fst_mapped]; exact List.mem_map.mpr ⟨C[i], List.getElem_mem hi, rfl⟩
      obtain ⟨r, hr, he⟩ := List.mem_map.mp this
      have := (hdoc r hr).1
      rw [toWords, List.length_map, i3, ← he]; exact this
    obtain ⟨w, g1, g2⟩ := CV.get_spec c2 C[i].1 hdm
    refine ⟨w, g1, ?_⟩
    have hfi : ∀ j, j < C.length → (F.mapped.map (·.1))[j]? = (C.map (·.1))[j]? := fun j _ => by rw [h.fst_mapped]
    by_cases hik : i < kept C.length
    · left
      refine ⟨hik, ?_, by rw [hacc, hvi.1 hik]⟩
      have h4 := i4 i (by rw [List.length_take, hml]; omega)
      have he : ((F.mapped.take (kept F.mapped.length))[i]'(by rw [List.length_take, hml]; omega)).1 = C[i].1 := by
        rw [List.getElem_take]
        have := hfi i hi
        rw [List.getElem?_map, List.getElem?_map, List.getElem?_eq_getElem hi, List.getElem?_eq_getElem (by omega)] at this
        simpa using this
      rw [he] at h4
      obtain ⟨hl, he'⟩ := List.getElem?_eq_some_iff.mp h4
      rw [g2]
      simp only [toWords, List.getElem_map, he', BitVec.toNat_ofNat]
      rw [Nat.mod_eq_of_lt (show i < 2 ^ 64 by omega), Nat.mod_eq_of_lt (by omega)]
    · right
      refine ⟨by omega, ?_, by rw [hacc, hvi.2 (by omega)]⟩
      have h5 := i5 C[i].1 (by rw [toWords, List.length_map, i3] at hdm; exact hdm) (by
        intro hm
        rw [hfst, List.map_take] at hm
        obtain ⟨j, hj, he⟩ := List.getElem_of_mem hm
        rw [List.getElem_take] at he
        have hj' : j < kept C.length := by rw [List.length_take] at hj; omega
        have e1 := h.coll.docs.idxOf_getElem j (by rw [List.length_map]; omega)
        have e2 := h.coll.docs.idxOf_getElem i (by simpa using hi)
        rw [he] at e1
        rw [List.getElem_map] at e2
        omega)
      obtain ⟨hl, he'⟩ := List.getElem?_eq_some_iff.mp h5
      rw [g2]
      simp only [toWords, List.getElem_map, he', BitVec.toNat_ofNat, INVALID_TERM]
      rw [Nat.mod_eq_of_lt (show 2 ^ 32 - 1 < 2 ^ 64 by decide)]
      generalize ceilLog2 (F.mapped.length + 1) = c at *
      have hp : 2 ^ 32 = 2 ^ c * 2 ^ (32 - c) := by rw [← Nat.pow_add]; congr 1; omega
      have hp2 : 0 < 2 ^ (32 - c) := Nat.two_pow_pos _
      have hp1 : 0 < 2 ^ c := Nat.two_pow_pos _
      have : (2 ^ 32 - 1) % 2 ^ c = 2 ^ c - 1 := by
        rw [hp, show 2 ^ c * 2 ^ (32 - c) - 1 = (2 ^ c - 1) + 2 ^ c * (2 ^ (32 - c) - 1) by
          rw [Nat.mul_sub, Nat.mul_one]
          have : 2 ^ c * 1 ≤ 2 ^ c * 2 ^ (32 - c) := Nat.mul_le_mul_left _ hp2
          omega]
        rw [Nat.add_mul_mod_self_left, Nat.mod_eq_of_lt (by omega)]
      omega
  · rw [d1] at hx
    cases hx

theorem Index2.build_iff {C : Coll} {F : Files} (h : Ready C F) (mem : Nat → W) :
    ((∃ x, Index2.build F mem = .ok x) ∧ KeptDoc C ∧ ∃ t, IsTerm C t ∧ ∀ c, (0, c) ∈ C → t ∉ c) ∨
    (Index2.build F mem = .error .thrown ∧ ¬ (KeptDoc C ∧ ∃ t, IsTerm C t ∧ ∀ c, (0, c) ∈ C → t ∉ c)) := by
  obtain ⟨ib, b1, b2, b3⟩ := InvBuilder.build_spec h.invLists
  obtain ⟨ii, b4, b5⟩ := b3 (mem 4)
  unfold Index2.build
  rw [b1, M.ok_bind, ← h.minList_iff]
  rcases Base.build_iff h mem with ⟨⟨x, x1⟩, x2⟩ | ⟨x1, x2⟩
  · rw [x1, M.ok_bind, b2]
    by_cases hm : ∃ l ∈ F.inverted, 0 ∉ l
    · obtain ⟨mn, m1, m2⟩ := h.minimal_build hm (mem 2) (mem 3)
      rw [m1, M.ok_bind, b4, M.ok_bind]
      exact Or.inl ⟨⟨_, rfl⟩, x2, hm⟩
    · rw [h.minimal_throws _ _ (fun l hl => Classical.byContradiction (fun hc => hm ⟨l, hl, hc⟩))]
      exact Or.inr ⟨rfl, fun hc => hm hc.2⟩
  · rw [x1]
    exact Or.inr ⟨rfl, fun hc => x2 hc.1⟩

theorem Index3.build_iff {C : Coll} {F : Files} (h : Ready C F) (mem : Nat → W) :
    ((∃ x, Index3.build F mem = .ok x) ∧ KeptDoc C) ∨ (Index3.build F mem = .error .thrown ∧ ¬ KeptDoc C) := by
  obtain ⟨ib, b1, b2, b3⟩ := InvBuilder.build_spec h.invLists
  obtain ⟨ii, b4, b5⟩ := b3 (mem 4)
  unfold Index3.build
  rw [b1, M.ok_bind]
  rcases Base.build_iff h mem with ⟨⟨x, x1⟩, x2⟩ | ⟨x1, x2⟩
  · rw [x1, M.ok_bind, b4, M.ok_bind]
    exact Or.inl ⟨⟨_, rfl⟩, x2⟩
  · rw [x1]
    exact Or.inr ⟨rfl, x2⟩

end AC
