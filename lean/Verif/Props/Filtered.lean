import Verif.Model.Filtered
import Verif.Props.Collect
import Verif.Props.Deploy
import Verif.Props.Honest
/-!
# C82: an index of the collection without the queries
-/
namespace AC.Props
open AC Spec

/-- a collection, and the lines of its text with their words. The characters that the versions of Python treat differently do not occur. -/
structure FilterInput (C : Coll) (L : List (Str × Str × List Str)) : Prop where
  valid : ValidColl C
  lines : ∀ l ∈ L, Line l
  digits : ∀ l ∈ L, l.2.1.all isDigit = true
  chars : ∀ l ∈ L, ∀ b ∈ l.1, b < 28 ∨ 31 < b
  each : C = L.map (fun l => (num l.2.1, l.2.2))

theorem joined_inj {C : Coll} (hC : ValidColl C) {r r' : Nat × List Str} (h : r ∈ C) (h' : r' ∈ C) (e : joined r.2 = joined r'.2) : r.2 = r'.2 := by
  rw [← pieces_joined (hC.nonempty _ h) (fun t ht => (hC.words _ h t ht).2.2), ← pieces_joined (hC.nonempty _ h') (fun t ht => (hC.words _ h' t ht).2.2), e]

theorem sum_sublist {l l' : List Nat} (h : l.Sublist l') : l.sum ≤ l'.sum := by
  induction h with
  | slnil => exact Nat.le_refl _
  | cons a _ ih => rw [List.sum_cons]; omega
  | cons_cons a _ ih => rw [List.sum_cons, List.sum_cons]; omega

theorem flatMap_sublist {α β : Type} (f : α → List β) {l l' : List α} (h : l.Sublist l') : (l.flatMap f).Sublist (l'.flatMap f) := by
  induction h with
  | slnil => exact List.Sublist.refl _
  | cons a _ ih => rw [List.flatMap_cons]; exact ih.trans (List.sublist_append_right _ _)
  | cons_cons a _ ih => rw [List.flatMap_cons, List.flatMap_cons]; exact (List.Sublist.refl _).append ih

/-- some of the completions of a valid collection are a valid collection -/
theorem _root_.AC.Spec.ValidColl.sublist {C K : Coll} (h : ValidColl C) (hs : K.Sublist C) (hne : K ≠ []) : ValidColl K where
  ne := hne
  docs := h.docs.sublist (hs.map _)
  sorted := h.sorted.sublist (hs.map _)
  nonempty := fun r hr => h.nonempty r (hs.subset hr)
  words := fun r hr => h.words r (hs.subset hr)
  short := fun r hr => h.short r (hs.subset hr)
  chars := fun r hr => h.chars r (hs.subset hr)
  ids := fun r hr => h.ids r (hs.subset hr)
  size := Nat.lt_of_le_of_lt (flatMap_sublist _ hs).length_le h.size
  room := Nat.lt_of_le_of_lt (sum_sublist ((flatMap_sublist _ hs).map _)) h.room

/-- the completions whose texts are in none of the lists of queries -/
def unasked (Q : Nat → List Str) (C : Coll) : Coll := C.filter fun r => (List.range 7).all fun i => !(Q i).contains (joined r.2)

theorem mem_unasked {Q : Nat → List Str} {C : Coll} {r : Nat × List Str} : r ∈ unasked Q C ↔ r ∈ C ∧ ∀ i, i < 7 → joined r.2 ∉ Q i := by
  unfold unasked
  simp

theorem nothing_built (mem : Nat → W) (junk : Nat) : (indexOfTexts (Index1.build · mem) junk (Pre.prepare [])).toOption = none := by
  have e : indexOfTexts (Index1.build · mem) junk (Pre.prepare []) = Index1.build (Pre.run []) mem := rfl
  rw [e]
  unfold Index1.build
  have ht : ∀ l, Trie.build l ((Pre.run []).mapped.map (·.2)) = .error .oob := fun _ => rfl
  cases InvBuilder.mk' (Pre.run []).univ (Pre.run []).inverted with
  | error _ => rfl
  | ok ib =>
  rw [M.ok_bind]
  cases UL.build ((Pre.run []).mapped.map (·.1)) (mem 0) (mem 1) with
  | error _ => rfl
  | ok docs =>
  rw [M.ok_bind]
  cases UL.build ib.minimal (mem 2) (mem 3) with
  | error _ => rfl
  | ok mi =>
  rw [M.ok_bind, ht]
  rfl

section
variable {C : Coll} {L : List (Str × Str × List Str)} (h : FilterInput C L) {shuffle : Nat → List Str → List Str} (hs : ∀ i l, (shuffle i l).Perm l) {n : Nat}
include h

theorem FilterInput.text : TextInput C L := by
  refine ⟨h.valid, h.lines, ?_⟩
  rw [h.each]
  generalize L = L
  induction L with
  | nil => exact .nil
  | cons l L ih => exact .cons rfl ih

include hs

/-- **C82**: the index files are those of the completions that are not chosen as queries -/
theorem C82_rest (hn : ∃ i, i < 7 ∧ n < (C.filter fun r => ofShard i r.2).length) :
    ∃ Q : Nat → List Str, (∀ i, i < 7 → Chosen C n i (Q i)) ∧ (Pre.filterAndPreprocess shuffle n (textOf L)).1 = (List.range 7).map (fun i => queryFile (Q i)) ∧
      ValidColl (unasked Q C) ∧ ∀ {α : Type} (build : Files → M α) (junk : Nat),
        indexOfTexts build junk (Pre.filterAndPreprocess shuffle n (textOf L)).2 = build (Pre.run (unasked Q C)) := by
  obtain ⟨Q, h1, h2⟩ := chosen_files h.text hs n
  have hfiles : Pre.partition shuffle n (textOf L) = (List.range 7).map (fun i => queryFile (Q i)) := by
    refine List.ext_getElem (by simp [h1]) (fun i hi hi' => ?_)
    have := (h2 i (by omega)).2.1
    rw [List.getD_eq_getElem?_getD, List.getElem?_eq_getElem hi] at this
    simpa using this
  have hmem : ∀ i, i < 7 → ∀ s ∈ Q i, ∃ r ∈ C, ofShard i r.2 = true ∧ joined r.2 = s := by
    intro i hi s hs'
    obtain ⟨R, g, _⟩ := (h2 i hi).1
    obtain ⟨r, hr, e⟩ := List.mem_map.mp (g.mem_iff.mp (List.mem_append_left R hs'))
    exact ⟨r, (List.mem_filter.mp hr).1, (List.mem_filter.mp hr).2, e⟩
  have hne : unasked Q C ≠ [] := by
    obtain ⟨i, hi, hlt⟩ := hn
    obtain ⟨R, g, gl⟩ := (h2 i hi).1
    have hnd : ((C.filter fun r => ofShard i r.2).map fun r => joined r.2).Nodup := by
      have hsub : (C.filter fun r => ofShard i r.2).Sublist C := List.filter_sublist
      have hp := List.pairwise_map.mp (h.valid.sorted.sublist (hsub.map _))
      refine List.pairwise_map.mpr (hp.imp_of_mem ?_)
      intro a b ha hb hab e
      have := joined_inj h.valid (hsub.subset ha) (hsub.subset hb) e
      rw [this] at hab
      exact List.lt_irrefl _ hab
    have hl := g.length_eq
    rw [List.length_append, gl, List.length_map] at hl
    have hR : 0 < R.length := by omega
    have hs0 := List.getElem_mem hR
    generalize R[0] = s at hs0
    obtain ⟨r, hr, e⟩ := List.mem_map.mp (g.mem_iff.mp (List.mem_append_right (Q i) hs0))
    have hrC := (List.mem_filter.mp hr).1
    have hri := (List.mem_filter.mp hr).2
    refine List.ne_nil_of_mem (mem_unasked.mpr ⟨hrC, fun j hj hq => ?_⟩)
    by_cases hij : j = i
    · subst hij
      exact (List.nodup_append.mp (g.nodup_iff.mpr hnd)).2.2 _ hq _ hs0 e
    · obtain ⟨r', hr', hsh, e'⟩ := hmem j hj _ hq
      rw [joined_inj h.valid hr' hrC e'] at hsh
      unfold ofShard at hsh hri
      by_cases h6 : j < 6 <;> by_cases h6' : i < 6 <;> simp [h6, h6'] at hsh hri <;> omega
  have hK : unasked Q C = (L.filter (fun l => !(((List.range 7).map Q).flatten).contains (joined l.2.2))).map (fun l => (num l.2.1, l.2.2)) := by
    unfold unasked
    rw [h.each, List.filter_map]
    refine congrArg _ (List.filter_congr fun l _ => ?_)
    rw [Bool.eq_iff_iff]
    simp
  have hv : ValidColl (unasked Q C) := h.valid.sublist List.filter_sublist hne
  refine ⟨Q, fun i hi => (h2 i hi).1, hfiles, hv, fun build junk => ?_⟩
  have hfilt := Pre.filterDataset_text (fun l hl => ⟨(h.lines l hl).words, (h.lines l hl).newline, h.chars l hl⟩) ((List.range 7).map Q) (by
    intro P hP q hq
    obtain ⟨i, hi, rfl⟩ := List.mem_map.mp hP
    obtain ⟨r, hr, _, rfl⟩ := hmem i (List.mem_range.mp hi) q hq
    rw [h.each] at hr
    obtain ⟨l, hl, rfl⟩ := List.mem_map.mp hr
    exact (h.lines l hl).words.joined_newline (h.lines l hl).newline (by decide))
  have hparse := C48_lines (L := L.filter (fun l => !(((List.range 7).map Q).flatten).contains (joined l.2.2))) (fun l hl => by
    have hl := (List.mem_filter.mp hl).1
    exact ⟨(h.lines l hl).words, h.digits l hl, (h.lines l hl).newline, (h.lines l hl).return_⟩)
  have hcoll : unasked Q C = Pre.collOf ((L.filter (fun l => !(((List.range 7).map Q).flatten).contains (joined l.2.2))).map (fun l => (l.2.1, num l.2.1, l.2.2))) := by
    rw [hK, Pre.collOf, List.map_map]
    rfl
  have := C48_index build hparse (by rw [← hcoll]; exact hv) junk
  rw [← hcoll] at this
  rw [← this]
  unfold Pre.filterAndPreprocess indexOf
  dsimp only
  rw [hfiles, show (List.range 7).map (fun i => queryFile (Q i)) = ((List.range 7).map Q).map queryFile by rw [List.map_map]; rfl]
  rw [show Pre.filterDataset (((List.range 7).map Q).map queryFile) (textOf L) = _ from hfilt]

/-- what is not shown: none of the results of a search, if it ends, has the text of a query -/
def NotShown (Q : Nat → List Str) (o : M Scratch) : Prop :=
  ∀ s' res, o = .ok s' → s'.pool.results = .ok res → ∀ e ∈ res, ∀ i, i < 7 → e.2 ∉ Q i

omit h hs in
theorem _root_.AC.Props.HonestSearch.notShown {Q : Nat → List Str} {P : List Str → Prop} {k : Nat} {o : M Scratch} (ho : HonestSearch (unasked Q C) P k o) : NotShown Q o := by
  intro s' res e1 e2 e he i hi
  rcases ho with ⟨s'', res', g1, _, g3, g4⟩ | g
  · rw [e1] at g1
    cases g1
    rw [e2] at g3
    cases g3
    obtain ⟨c, hc, e, _⟩ := g4.sound e he
    rw [e]
    exact (mem_unasked.mp hc).2 i hi
  · rw [e1] at g
    cases g

omit h hs in
theorem _root_.AC.Props.RankedSearch.notShown {Q : Nat → List Str} {P : List Str → Prop} {k : Nat} {o : M Scratch} (ho : RankedSearch (unasked Q C) P k o) : NotShown Q o := by
  refine HonestSearch.notShown (C := C) (P := P) (k := k) ?_
  rcases ho with ⟨s'', res', g1, g2, g3, g4, _⟩ | g
  · exact .inl ⟨s'', res', g1, g2, g3, g4⟩
  · exact .inr g

/-- **C82**: after the queries have been taken out of the collection, no search of an index of the rest shows one of them, whatever is typed -/
theorem C82_unseen (std : StdLib) (hn : ∃ i, i < 7 ∧ n < (C.filter fun r => ofShard i r.2).length) :
    ∃ Q : Nat → List Str, (∀ i, i < 7 → Chosen C n i (Q i)) ∧ (Pre.filterAndPreprocess shuffle n (textOf L)).1 = (List.range 7).map (fun i => queryFile (Q i)) ∧
      ∀ (junk : Nat) (mem : Nat → W) (q : Str) (k : Nat) (s : Scratch), IsText q → 1 ≤ k → k ≤ MAX_K → s.WF →
        (∀ x, indexOfTexts (Index1.build · mem) junk (Pre.filterAndPreprocess shuffle n (textOf L)).2 = .ok x →
          NotShown Q (x.prefixTopk std q k s) ∧ NotShown Q (x.conjTopk std q k s)) ∧
        (∀ x, indexOfTexts (Index2.build · mem) junk (Pre.filterAndPreprocess shuffle n (textOf L)).2 = .ok x →
          NotShown Q (x.toBase.prefixTopk std q k s) ∧ NotShown Q (x.conjTopk std q k s)) ∧
        (∀ x, indexOfTexts (Index3.build · mem) junk (Pre.filterAndPreprocess shuffle n (textOf L)).2 = .ok x →
          NotShown Q (x.toBase.prefixTopk std q k s) ∧ NotShown Q (x.conjTopk std q k s)) ∧
        (∀ m x, (∀ r ∈ C, r.1 < 2 ^ 32 - 2) → indexOfTexts (Index4.build std m · mem) junk (Pre.filterAndPreprocess shuffle n (textOf L)).2 = .ok x →
          NotShown Q (x.toBase.prefixTopk std q k s) ∧ NotShown Q (x.conjTopk std q k s)) := by
  obtain ⟨Q, h1, h2, h3, h4⟩ := C82_rest h hs hn
  refine ⟨Q, h1, h2, fun junk mem q k s hq hk hk' hsw => ⟨?_, ?_, ?_, ?_⟩⟩
  · intro x hx
    rw [h4] at hx
    exact ⟨(C70_type1 std h3 hx hq hk hk' hsw).1.notShown, (C70_type1 std h3 hx hq hk hk' hsw).2.notShown⟩
  · intro x hx
    rw [h4] at hx
    exact ⟨(C70_type2 std h3 hx hq hk hk' hsw).1.notShown, (C70_type2 std h3 hx hq hk hk' hsw).2.notShown⟩
  · intro x hx
    rw [h4] at hx
    exact ⟨(C70_type3 std h3 hx hq hk hk' hsw).1.notShown, (C70_type3 std h3 hx hq hk hk' hsw).2.notShown⟩
  · intro m x hids hx
    rw [h4] at hx
    have := C70_type4 std h3 (fun r hr => hids r (mem_unasked.mp hr).1) hx hq hk hk' hsw
    exact ⟨this.1.notShown, this.2.notShown⟩

/-- When there are no more completions of any number of terms than are taken, nothing is left, and no index can be built. -/
theorem C82_none (hn : ∀ i, i < 7 → (C.filter fun r => ofShard i r.2).length ≤ n) (junk : Nat) (mem : Nat → W) :
    (indexOfTexts (Index1.build · mem) junk (Pre.filterAndPreprocess shuffle n (textOf L)).2).toOption = none ∧
    (indexOfTexts (Index2.build · mem) junk (Pre.filterAndPreprocess shuffle n (textOf L)).2).toOption = none ∧
    (indexOfTexts (Index3.build · mem) junk (Pre.filterAndPreprocess shuffle n (textOf L)).2).toOption = none ∧
    ∀ std m, (indexOfTexts (Index4.build std m · mem) junk (Pre.filterAndPreprocess shuffle n (textOf L)).2).toOption = none := by
  obtain ⟨Q, h1, h2⟩ := chosen_files h.text hs n
  have hfiles : Pre.partition shuffle n (textOf L) = (List.range 7).map (fun i => queryFile (Q i)) := by
    refine List.ext_getElem (by simp [h1]) (fun i hi hi' => ?_)
    have := (h2 i (by omega)).2.1
    rw [List.getD_eq_getElem?_getD, List.getElem?_eq_getElem hi] at this
    simpa using this
  have hmem : ∀ l ∈ L, joined l.2.2 ∈ ((List.range 7).map Q).flatten := by
    intro l hl
    have hr : (num l.2.1, l.2.2) ∈ C := by rw [h.each]; exact List.mem_map_of_mem hl
    have hpos : 0 < l.2.2.length := List.length_pos_iff.mpr (h.valid.nonempty _ hr)
    obtain ⟨i, hi, hsh⟩ : ∃ i, i < 7 ∧ ofShard i l.2.2 = true := by
      by_cases h7 : l.2.2.length < 7
      · exact ⟨l.2.2.length - 1, by omega, by unfold ofShard; rw [if_pos (by omega)]; simp; omega⟩
      · exact ⟨6, by omega, by unfold ofShard; rw [if_neg (by omega)]; simp; omega⟩
    obtain ⟨R, g, gl⟩ := (h2 i hi).1
    have hlen := g.length_eq
    rw [List.length_append, gl, List.length_map] at hlen
    have := hn i hi
    have hR : R = [] := List.length_eq_zero_iff.mp (by omega)
    rw [hR, List.append_nil] at g
    refine List.mem_flatten.mpr ⟨Q i, List.mem_map_of_mem (List.mem_range.mpr hi), ?_⟩
    exact g.mem_iff.mpr (List.mem_map.mpr ⟨_, List.mem_filter.mpr ⟨hr, hsh⟩, rfl⟩)
  have hfilt := Pre.filterDataset_text (fun l hl => ⟨(h.lines l hl).words, (h.lines l hl).newline, h.chars l hl⟩) ((List.range 7).map Q) (by
    intro P hP q hq
    obtain ⟨i, hi, rfl⟩ := List.mem_map.mp hP
    obtain ⟨R, g, _⟩ := (h2 i (List.mem_range.mp hi)).1
    obtain ⟨r, hr, rfl⟩ := List.mem_map.mp (g.mem_iff.mp (List.mem_append_left R hq))
    have hr := (List.mem_filter.mp hr).1
    rw [h.each] at hr
    obtain ⟨l, hl, rfl⟩ := List.mem_map.mp hr
    exact (h.lines l hl).words.joined_newline (h.lines l hl).newline (by decide))
  have hnil : L.filter (fun l => !(((List.range 7).map Q).flatten).contains (joined l.2.2)) = [] := by
    rw [List.filter_eq_nil_iff]
    intro l hl
    have := List.contains_iff_mem.mpr (hmem l hl)
    rw [this]
    decide
  rw [hnil] at hfilt
  have e : (Pre.filterAndPreprocess shuffle n (textOf L)).2 = Pre.prepare [] := by
    unfold Pre.filterAndPreprocess
    dsimp only
    rw [hfiles, show (List.range 7).map (fun i => queryFile (Q i)) = ((List.range 7).map Q).map queryFile by rw [List.map_map]; rfl]
    exact congrArg Pre.prepare hfilt
  rw [e]
  exact ⟨nothing_built mem junk, rfl, rfl, fun _ _ => rfl⟩
end

/-- lines "5 ab", "4 b", "7 b  ab" -/
def heldLines : List (Str × Str × List Str) :=
  [([53, 32, 97, 98], [53], [[97, 98]]), ([52, 32, 98], [52], [[98]]), ([55, 32, 98, 32, 32, 97, 98], [55], [[98], [97, 98]])]

def heldColl : Coll := [(5, [[97, 98]]), (4, [[98]]), (7, [[98], [97, 98]])]

theorem heldLines_input : FilterInput heldColl heldLines where
  valid := ⟨by decide, by decide, by decide, by decide, by decide, by decide, by decide, by decide, by decide, by decide⟩
  lines := by
    intro l hl
    simp only [heldLines, List.mem_cons, List.not_mem_nil, or_false] at hl
    rcases hl with rfl | rfl | rfl
    · exact ⟨Pre.split_iff.mp (by decide +kernel), by decide, by decide⟩
    · exact ⟨Pre.split_iff.mp (by decide +kernel), by decide, by decide⟩
    · exact ⟨Pre.split_iff.mp (by decide +kernel), by decide, by decide⟩
  digits := by decide
  chars := by decide
  each := by decide +kernel

/-- one query of each length: "b" and "b ab", when the lists are reversed; "ab" is left -/
example (std : StdLib) (mem : Nat → W) : (Pre.filterAndPreprocess (fun _ l => l.reverse) 1 (textOf heldLines)).1 = [[98, 10], [98, 32, 97, 98, 10], [], [], [], [], []] ∧
    ∃ x, indexOfTexts (Index1.build · mem) 0 (Pre.filterAndPreprocess (fun _ l => l.reverse) 1 (textOf heldLines)).2 = .ok x ∧
      ∃ Q : Nat → List Str, [98] ∈ Q 0 ∧ ∀ q k s, IsText q → 1 ≤ k → k ≤ MAX_K → s.WF → NotShown Q (x.prefixTopk std q k s) := by
  have hs : ∀ (i : Nat) (l : List Str), ((fun _ l => l.reverse) i l : List Str).Perm l := fun _ l => List.reverse_perm l
  have hf : (Pre.filterAndPreprocess (fun _ l => l.reverse) 1 (textOf heldLines)).1 = [[98, 10], [98, 32, 97, 98, 10], [], [], [], [], []] := by decide +kernel
  obtain ⟨Q, h1, h2, h3, h4⟩ := C82_rest heldLines_input hs (n := 1) ⟨0, by decide, by decide⟩
  have hQ : [98] ∈ Q 0 := by
    obtain ⟨R, g, gl⟩ := h1 0 (by decide)
    have g0 : queryFile (Q 0) = [98, 10] := by
      have := congrArg (·.getD 0 []) (h2.symm.trans hf)
      exact this
    have hall : ((heldColl.filter fun r => ofShard 0 r.2).map fun r => joined r.2) = [[97, 98], [98]] := by decide +kernel
    rw [hall] at g gl
    match hq : Q 0, gl with
    | [s], _ =>
        rw [hq] at g g0
        have := g.mem_iff.mp (List.mem_append_left R (List.mem_singleton.mpr rfl))
        simp only [List.mem_cons, List.not_mem_nil, or_false] at this
        rcases this with rfl | rfl
        · exact absurd g0 (by decide)
        · exact List.mem_singleton.mpr rfl
  have h0 : ∃ t, IsTerm (unasked Q heldColl) t ∧ ∀ c, (0, c) ∈ unasked Q heldColl → t ∉ c := by
    obtain ⟨r, hr⟩ := List.exists_mem_of_ne_nil _ h3.ne
    obtain ⟨t, ht⟩ := List.exists_mem_of_ne_nil _ (h3.nonempty r hr)
    refine ⟨t, ⟨r, hr, ht⟩, fun c hc => ?_⟩
    have := (mem_unasked.mp hc).1
    simp [heldColl] at this
  obtain ⟨x, hx⟩ : ∃ x, Index1.build (Pre.run (unasked Q heldColl)) mem = .ok x := by
    rcases Index1.build_iff h3.ready mem with h | h
    · exact h.1
    · exact absurd h0 h.2
  exact ⟨hf, x, by rw [h4]; exact hx, Q, hQ, fun q k s hq hk hk' hsw => (C70_type1 std h3 hx hq hk hk' hsw).1.notShown⟩

/-- all the completions of each length are taken -/
example (mem : Nat → W) : (indexOfTexts (Index1.build · mem) 0 (Pre.filterAndPreprocess (fun _ l => l.reverse) 2 (textOf heldLines)).2).toOption = none :=
  (C82_none heldLines_input (fun _ l => List.reverse_perm l) (n := 2) (by decide) 0 mem).1

end AC.Props
