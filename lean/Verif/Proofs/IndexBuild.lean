import Verif.Proofs.Collection
import Verif.Proofs.DocMap
import Verif.Props.Trie
/-!
# The constructors of the index types
-/
namespace AC
open Spec

theorem invertLoop_spec (size : Nat) : ∀ (rest : List Nat) (doc : Nat) (v : List Nat), size = v.length →
    (∀ a b j : Nat, j < size → rest[a]? = some j → rest[b]? = some j → a = b) →
    (invertLoop size rest doc v).length = v.length ∧
    (∀ i j : Nat, j < size → rest[i]? = some j → (invertLoop size rest doc v)[j]? = some (doc + i)) ∧
    (∀ j : Nat, (∀ i : Nat, rest[i]? ≠ some j) → (invertLoop size rest doc v)[j]? = v[j]?)
  | [], doc, v, _, _ => by simp [invertLoop]
  | lex :: rest, doc, v, hv, hu => by
      unfold invertLoop
      have hlen : (if lex < size then v.set lex doc else v).length = v.length := by split <;> simp
      obtain ⟨h1, h2, h3⟩ := invertLoop_spec size rest (doc + 1) (if lex < size then v.set lex doc else v) (by rw [hlen]; exact hv)
        (by
          intro a b j hj ha hb
          have := hu (a + 1) (b + 1) j hj (by simpa using ha) (by simpa using hb)
          omega)
      refine ⟨by rw [h1, hlen], ?_, ?_⟩
      · intro i j hj hi
        cases i with
        | zero =>
            simp only [List.getElem?_cons_zero, Option.some.injEq] at hi
            subst hi
            rw [h3 lex (by
              intro i hi
              have := hu 0 (i + 1) lex hj (by simp) (by simpa using hi)
              omega), if_pos hj, List.getElem?_set_self (by omega)]
            rfl
        | succ i =>
            rw [List.getElem?_cons_succ] at hi
            rw [h2 i j hj hi]; congr 1; omega
      · intro j hj
        rw [h3 j (by intro i hi; exact hj (i + 1) (by simpa using hi))]
        split
        · rw [List.getElem?_set_ne (by intro he; exact hj 0 (by simp [he]))]
        · rfl

/-- `invert` gives the documents in the order of their completions -/
theorem invert_spec {univ : Nat} {rs : List (Nat × Ids)} {m : List Nat} (hlen : m.length = univ) (hn : rs.length < 2 ^ 32 - 1)
    (hu : ∀ r ∈ rs, r.1 < univ) (h1 : ∀ i (hi : i < rs.length), m[rs[i].1]? = some i)
    (h2 : ∀ j, j < univ → j ∉ rs.map (·.1) → m[j]? = some INVALID_TERM) : invert m rs.length = rs.map (·.1) := by
  have hkey : ∀ a j, j < rs.length → m[a]? = some j → ∃ hj : j < rs.length, a = rs[j].1 := by
    intro a j hj ha
    refine ⟨hj, ?_⟩
    have hau : a < univ := by rw [← hlen]; exact (List.getElem?_eq_some_iff.mp ha).1
    by_cases hm : a ∈ rs.map (·.1)
    · obtain ⟨r, hr, rfl⟩ := List.mem_map.mp hm
      obtain ⟨i, hi, rfl⟩ := List.getElem_of_mem hr
      rw [h1 i hi] at ha
      cases ha; rfl
    · rw [h2 a hau hm] at ha
      simp only [Option.some.injEq, INVALID_TERM] at ha
      omega
  obtain ⟨i1, i2, i3⟩ := invertLoop_spec rs.length m 0 (List.replicate rs.length 0) (by simp) (by
    intro a b j hj ha hb
    obtain ⟨_, e1⟩ := hkey a j hj ha
    obtain ⟨_, e2⟩ := hkey b j hj hb
    rw [e1, e2])
  rw [List.length_replicate] at i1
  apply List.ext_getElem?
  intro j
  by_cases hj : j < rs.length
  · rw [invert, i2 rs[j].1 j hj (h1 j hj)]
    simp [hj]
  · rw [List.getElem?_eq_none (by rw [invert, i1]; omega), List.getElem?_eq_none (by simp; omega)]

/-! ## Conditions of the constructors -/

theorem Ready.dict_build {C : Coll} {F : Files} (h : Ready C F) (h17 : F.terms.length % 17 ≠ 0) :
    ∃ d, FcDict.build F.terms = .ok d ∧ FC.Rep Elem.byte MAX_CHARS d F.terms :=
  FcDict.build_rep h.validTerms (Nat.le_refl _) h.validTerms.len h17

theorem Ready.docs_build {C : Coll} {F : Files} (h : Ready C F) (h0 : ∃ r ∈ C, r.1 ≠ 0) (a b : W) :
    ∃ u, UL.build (F.mapped.map (·.1)) a b = .ok u ∧ u.Rep (F.mapped.map (·.1)) := by
  rw [h.fst_mapped]
  apply UL.build_spec
  · have := h.count_le; have := h.coll.size; rw [List.length_map]; omega
  · intro x hx
    obtain ⟨r, hr, rfl⟩ := List.mem_map.mp hx
    have := h.coll.ids r hr; omega
  · obtain ⟨r, hr, h0⟩ := h0
    exact ⟨r.1, List.mem_map.mpr ⟨r, hr, rfl⟩, h0⟩

theorem headD_mem {l : List Nat} (h : l ≠ []) : l.headD 0 ∈ l := by
  cases l with
  | nil => exact absurd rfl h
  | cons x xs => simp

theorem Ready.minimal_build {C : Coll} {F : Files} (h : Ready C F) (h0 : ∃ l ∈ F.inverted, 0 ∉ l) (a b : W) :
    ∃ u, UL.build (F.inverted.map (fun l => l.headD 0)) a b = .ok u ∧ u.Rep (F.inverted.map (fun l => l.headD 0)) := by
  apply UL.build_spec
  · have := h.termCount_le; have := h.coll.size; rw [List.length_map, h.files.numLists]; omega
  · intro x hx
    obtain ⟨l, hl, rfl⟩ := List.mem_map.mp hx
    have h1 := h.invLists.each l hl
    have := h1.2.2 _ (headD_mem h1.1)
    have := h.univ_lt
    omega
  · obtain ⟨l, hl, hl0⟩ := h0
    refine ⟨_, List.mem_map.mpr ⟨l, hl, rfl⟩, ?_⟩
    intro he
    have := headD_mem (h.invLists.each l hl).1
    rw [he] at this
    exact hl0 this

/-! ## Type 1 -/

structure Index1.Rep (x : Index1) (F : Files) : Prop where
  trie : ∀ (pfx : Ids) (b e : Nat), (∀ x ∈ pfx, 0 < x ∧ x < 2 ^ 32) → 0 < b → b ≤ e → e < 2 ^ 32 →
    ∃ r, Trie.locatePrefix x.completions pfx ⟨b, e⟩ = .ok r ∧ Props.CompletionRange (F.mapped.map (·.2)) pfx b e r
  docs : x.docs.Rep (F.mapped.map (·.1))
  minimal : x.minimal.Rep (F.inverted.map (fun l => l.headD 0))
  dict : FC.Rep Elem.byte MAX_CHARS x.dict F.terms
  built : FcDict.build F.terms = .ok x.dict
  inverted : x.inverted.Rep F.univ F.inverted
  forward : x.forward.Rep F.terms.length F.forward

theorem Index1.build_spec {C : Coll} {F : Files} (h : Ready C F) (h17 : F.terms.length % 17 ≠ 0) (h0 : ∃ r ∈ C, r.1 ≠ 0)
    (hmin : ∃ l ∈ F.inverted, 0 ∉ l) (mem : Nat → W) : ∃ x, Index1.build F mem = .ok x ∧ x.Rep F := by
  obtain ⟨ib, b1, b2, b3⟩ := InvBuilder.build_spec h.invLists
  obtain ⟨ii, b4, b5⟩ := b3 (mem 4)
  obtain ⟨docs, d1, d2⟩ := h.docs_build h0 (mem 0) (mem 1)
  obtain ⟨mn, m1, m2⟩ := h.minimal_build hmin (mem 2) (mem 3)
  obtain ⟨T, t1, t2, _⟩ := Props.C13_trie (F.mapped.map (·.2)) h.validIds h.nonempty_mapped F.levels
    (by
      obtain ⟨r, hr, he⟩ := h.files.levels
      rw [h.snd_mapped]
      exact ⟨_, List.mem_map.mpr ⟨r, hr, rfl⟩, by simpa using he⟩)
    (by
      rw [h.snd_mapped]
      intro c hc
      obtain ⟨r, hr, rfl⟩ := List.mem_map.mp hc
      simpa using h.files.lt_levels r hr)
  obtain ⟨dict, e1, e2⟩ := h.dict_build h17
  obtain ⟨fi, f1, f2⟩ := FwdIdx.build_spec h.fwdLists (mem 5)
  refine ⟨⟨T, docs, mn, dict, ii, fi, F.mapped.length⟩, ?_, ⟨t2, d2, m2, e2, e1, b5, f2⟩⟩
  unfold Index1.build
  rw [b1, M.ok_bind, d1, M.ok_bind, b2, m1, M.ok_bind, t1, M.ok_bind, e1, M.ok_bind, b4, M.ok_bind, f1, M.ok_bind]

/-! ## Types 2 and 3 -/

theorem Base.build_spec {C : Coll} {F : Files} (h : Ready C F) (h17 : F.terms.length % 17 ≠ 0) (hc17 : F.mapped.length % 17 ≠ 0)
    (h0 : ∃ r ∈ C, r.1 ≠ 0) (mem : Nat → W) :
    ∃ x, Base.build F mem = .ok x ∧ x.Rep F.mapped ∧ FC.Rep Elem.byte MAX_CHARS x.dict F.terms ∧ FcDict.build F.terms = .ok x.dict := by
  have hn : F.mapped.length < 2 ^ 30 - 1 := by
    have := h.count_le; have := h.coll.size; rw [h.length_mapped]; omega
  have hu : ∀ r ∈ F.mapped, r.1 < F.univ := by
    intro r hr
    have : r.1 ∈ F.mapped.map (·.1) := List.mem_map.mpr ⟨r, hr, rfl⟩
    rw [h.fst_mapped] at this
    obtain ⟨r', hr', he⟩ := List.mem_map.mp this
    rw [← he]; exact h.files.lt_univ r' hr'
  obtain ⟨d, m, i1, i2, i3, i4, i5⟩ := IntDict.build_spec h.validIds hu (by rw [h.fst_mapped]; exact h.coll.docs) hc17
  have hpos : 0 < F.mapped.length := by omega
  have w1 := ceilLog2_pos (F.mapped.length + 1) (by omega)
  have w32 := ceilLog2_le (F.mapped.length + 1) 32 (by omega)
  have wlt := lt_two_pow_ceilLog2 (F.mapped.length + 1) (by omega)
  obtain ⟨cv, c1, c2, _⟩ := CV.build_spec (toWords m) (ceilLog2 (F.mapped.length + 1)) (mem 6) w1 (by omega)
  obtain ⟨docs, d1, d2⟩ := h.docs_build h0 (mem 0) (mem 1)
  obtain ⟨dict, e1, e2⟩ := h.dict_build h17
  refine ⟨⟨d, docs, dict, cv⟩, ?_, ⟨i2, d2, ?_⟩, e2, e1⟩
  · unfold Base.build
    rw [i1, M.ok_bind]
    dsimp only
    rw [c1, M.ok_bind, invert_spec i3 (by omega) hu i4 i5, d1, M.ok_bind, e1, M.ok_bind]
  · intro i hi
    have hm := i4 i hi
    obtain ⟨hl, he⟩ := List.getElem?_eq_some_iff.mp hm
    obtain ⟨w, g1, g2⟩ := CV.get_spec c2 (F.mapped[i]).1 (by simpa [toWords] using hl)
    refine ⟨w, g1, ?_⟩
    rw [g2]
    simp only [toWords, List.getElem_map, he, BitVec.toNat_ofNat]
    rw [Nat.mod_eq_of_lt (show i < 2 ^ 64 by omega), Nat.mod_eq_of_lt (by omega)]

structure Index2.Rep (x : Index2) (F : Files) : Prop where
  base : x.toBase.Rep F.mapped
  dict : FC.Rep Elem.byte MAX_CHARS x.dict F.terms
  built : FcDict.build F.terms = .ok x.dict
  minimal : x.minimal.Rep (F.inverted.map (fun l => l.headD 0))
  inverted : x.inverted.Rep F.univ F.inverted

theorem Index2.build_spec {C : Coll} {F : Files} (h : Ready C F) (h17 : F.terms.length % 17 ≠ 0) (hc17 : F.mapped.length % 17 ≠ 0)
    (h0 : ∃ r ∈ C, r.1 ≠ 0) (hmin : ∃ l ∈ F.inverted, 0 ∉ l) (mem : Nat → W) : ∃ x, Index2.build F mem = .ok x ∧ x.Rep F := by
  obtain ⟨ib, b1, b2, b3⟩ := InvBuilder.build_spec h.invLists
  obtain ⟨ii, b4, b5⟩ := b3 (mem 4)
  obtain ⟨mn, m1, m2⟩ := h.minimal_build hmin (mem 2) (mem 3)
  obtain ⟨x, x1, x2, x3, x4⟩ := Base.build_spec h h17 hc17 h0 mem
  refine ⟨⟨x, mn, ii⟩, ?_, ⟨x2, x3, x4, m2, b5⟩⟩
  unfold Index2.build
  rw [b1, M.ok_bind, x1, M.ok_bind, b2, m1, M.ok_bind, b4, M.ok_bind]

structure Index3.Rep (x : Index3) (F : Files) : Prop where
  base : x.toBase.Rep F.mapped
  dict : FC.Rep Elem.byte MAX_CHARS x.dict F.terms
  built : FcDict.build F.terms = .ok x.dict
  inverted : x.inverted.Rep F.univ F.inverted

theorem Index3.build_spec {C : Coll} {F : Files} (h : Ready C F) (h17 : F.terms.length % 17 ≠ 0) (hc17 : F.mapped.length % 17 ≠ 0)
    (h0 : ∃ r ∈ C, r.1 ≠ 0) (mem : Nat → W) : ∃ x, Index3.build F mem = .ok x ∧ x.Rep F := by
  obtain ⟨ib, b1, b2, b3⟩ := InvBuilder.build_spec h.invLists
  obtain ⟨ii, b4, b5⟩ := b3 (mem 4)
  obtain ⟨x, x1, x2, x3, x4⟩ := Base.build_spec h h17 hc17 h0 mem
  refine ⟨⟨x, ii⟩, ?_, ⟨x2, x3, x4, b5⟩⟩
  unfold Index3.build
  rw [b1, M.ok_bind, x1, M.ok_bind, b4, M.ok_bind]

end AC
