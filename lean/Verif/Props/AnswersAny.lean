import Verif.Props.Answers4
import Verif.Props.Type4Multiple17
/-!
# C30, C31, C33 and C34 for every valid collection

In `Props/Answers.lean` and `Props/Answers4.lean` these claims are about collections whose numbers of terms and of completions are not multiples of 17.
Here all that is asked is that the collection is valid and that the index could be built. With multiples of 17 the index loses data (C66, C68, C69), but
what a search returns is still determined by the query and by the number of results alone.
-/
namespace AC.Props
open AC Spec

/-- the searches of an index of some type that was built from a collection -/
inductive IsBuilt (C : Coll) : (StdLib → Ask → Scratch → M Scratch) → Prop
  | type1 {mem : Nat → W} {x : Index1} : Index1.build (Pre.run C) mem = .ok x → IsBuilt C x.ask
  | type2 {mem : Nat → W} {x : Index2} : Index2.build (Pre.run C) mem = .ok x → IsBuilt C x.ask
  | type3 {mem : Nat → W} {x : Index3} : Index3.build (Pre.run C) mem = .ok x → IsBuilt C x.ask
  | type4 {std₀ : StdLib} {m : Nat} {mem : Nat → W} {x : Index4} : (∀ r ∈ C, r.1 < 2 ^ 32 - 2) → Index4.build std₀ m (Pre.run C) mem = .ok x → IsBuilt C x.ask

/-- the same for types 1, 2 and 3 -/
inductive IsBuilt3 (C : Coll) : (StdLib → Ask → Scratch → M Scratch) → Prop
  | type1 {mem : Nat → W} {x : Index1} : Index1.build (Pre.run C) mem = .ok x → IsBuilt3 C x.ask
  | type2 {mem : Nat → W} {x : Index2} : Index2.build (Pre.run C) mem = .ok x → IsBuilt3 C x.ask
  | type3 {mem : Nat → W} {x : Index3} : Index3.build (Pre.run C) mem = .ok x → IsBuilt3 C x.ask

/-! ## What determines the answers -/

/-- What a search for `k` results does when its results are the first ones of `S`: it fails if `g`, or if one of the first `k` is `bad`; otherwise it
shows them. -/
def Gives (C : Coll) (S : Coll) (g : Prop) (bad : List Str → Prop) (k : Nat) (o : M Scratch) : Prop :=
  (g → o = .error .oob) ∧ (¬ g → ((∀ r ∈ S.take k, ¬ bad r.2) → Shows (Pre.run C).terms (S.take k) o) ∧ ((∃ r ∈ S.take k, bad r.2) → o = .error .oob))

/-- the queries with the same last term and the same complete terms -/
def SameTerms (q q' : Str) : Prop := lastTerm q' = lastTerm q ∧ ∀ t, t ∈ completeTerms q' ↔ t ∈ completeTerms q

/-- The answers of the searches are determined by a list `S` of results for each query, by the numbers of results `g` for which they fail, and by the
completions `bad` that cannot be shown. -/
structure Settles (C : Coll) (run : Ask → Scratch → M Scratch) (S : Bool → Str → Coll) (g : Bool → Str → Nat → Prop) (bad : Bool → List Str → Prop) : Prop where
  mem : ∀ cj q, IsText q → ∀ r ∈ S cj q, r ∈ C
  mono : ∀ cj q k k', k ≤ k' → g cj q k → g cj q k'
  order : ∀ q q', SameTerms q q' → S true q' = S true q ∧ ∀ k, g true q' k ↔ g true q k
  gives : ∀ cj q k s, IsText q → 1 ≤ k → k ≤ MAX_K → Scratch.WF s → Gives C (S cj q) (g cj q k) (bad cj) k (run ⟨cj, q, k⟩ s)

theorem Gives.wf {C S : Coll} {g : Prop} {bad : List Str → Prop} {k : Nat} {o : M Scratch} (h : Gives C S g bad k o) {s : Scratch} (ho : o = .ok s) : s.WF := by
  obtain ⟨h1, h2⟩ := h
  by_cases hg : g
  · rw [h1 hg] at ho; cases ho
  · by_cases hb : ∃ r ∈ S.take k, bad r.2
    · rw [(h2 hg).2 hb] at ho; cases ho
    · exact ((h2 hg).1 (fun r hr hh => hb ⟨r, hr, hh⟩)).wf ho

/-- what is known when the search succeeds -/
theorem Gives.ok {C S : Coll} {g : Prop} {bad : List Str → Prop} {k : Nat} {o : M Scratch} (h : Gives C S g bad k o) {s : Scratch} (ho : o = .ok s) :
    ¬ g ∧ (∀ r ∈ S.take k, ¬ bad r.2) ∧ Shows (Pre.run C).terms (S.take k) o := by
  obtain ⟨h1, h2⟩ := h
  by_cases hg : g
  · rw [h1 hg] at ho; cases ho
  · by_cases hb : ∃ r ∈ S.take k, bad r.2
    · rw [(h2 hg).2 hb] at ho; cases ho
    · have hb' : ∀ r ∈ S.take k, ¬ bad r.2 := fun r hr hh => hb ⟨r, hr, hh⟩
      exact ⟨hg, hb', (h2 hg).1 hb'⟩

theorem Gives.same {C S : Coll} {g : Prop} {bad : List Str → Prop} {k : Nat} {o o' : M Scratch} (h : Gives C S g bad k o) (h' : Gives C S g bad k o') :
    SameAnswer o o' := by
  obtain ⟨h1, h2⟩ := h
  obtain ⟨h1', h2'⟩ := h'
  by_cases hg : g
  · exact Or.inl ⟨h1 hg, h1' hg⟩
  · by_cases hb : ∃ r ∈ S.take k, bad r.2
    · exact Or.inl ⟨(h2 hg).2 hb, (h2' hg).2 hb⟩
    · have hb' : ∀ r ∈ S.take k, ¬ bad r.2 := fun r hr hh => hb ⟨r, hr, hh⟩
      exact ((h2 hg).1 hb').same ((h2' hg).1 hb')

/-! ## The list of all the matches -/

/-- the completions that satisfy `P`, by increasing id -/
noncomputable def allOf (C : Coll) (P : List Str → Prop) : Coll :=
  (C.filter (fun r => @decide (P r.2) (Classical.propDecidable _))).mergeSort (fun a b => a.1.ble b.1)

theorem allOf_best {C : Coll} (hd : (C.map (·.1)).Nodup) (P : List Str → Prop) (k : Nat) : Spec.Best C P k ((allOf C P).take k) := by
  classical
  have hm : ∀ r, r ∈ allOf C P ↔ r ∈ C ∧ P r.2 := by
    intro r
    unfold allOf
    simp [List.mem_mergeSort]
  have hle : (allOf C P).Pairwise (fun a b => a.1 ≤ b.1) := by
    unfold allOf
    have := List.pairwise_mergeSort (le := fun a b : Nat × List Str => a.1.ble b.1) (by simp only [Nat.ble_eq]; omega)
      (by simp only [Bool.or_eq_true, Nat.ble_eq]; omega) (C.filter (fun r => @decide (P r.2) (Classical.propDecidable _)))
    simpa only [Nat.ble_eq] using this
  have hnd : ((allOf C P).map (·.1)).Nodup := by
    unfold allOf
    refine ((List.mergeSort_perm _ _).map (fun r : Nat × List Str => r.1)).nodup_iff.mpr ?_
    exact List.Nodup.sublist (List.Sublist.map _ List.filter_sublist) hd
  have hlt : (allOf C P).Pairwise (fun a b => a.1 < b.1) := by
    have h2 : (allOf C P).Pairwise (fun a b => a.1 ≠ b.1) := by
      have := hnd
      unfold List.Nodup at this
      rwa [List.pairwise_map] at this
    exact (hle.and h2).imp (fun ⟨h1, h2⟩ => by omega)
  refine ⟨fun r hr => (hm r).mp (List.mem_of_mem_take hr), hlt.sublist (List.take_sublist _ _), List.length_take_le _ _, ?_⟩
  intro r hr hp hn
  have hin := (hm r).mpr ⟨hr, hp⟩
  have hsplit := List.take_append_drop k (allOf C P)
  have hin' : r ∈ (allOf C P).drop k := by
    rw [← hsplit] at hin
    exact (List.mem_append.mp hin).resolve_left hn
  constructor
  · rw [List.length_take]
    have := List.length_pos_of_mem hin'
    rw [List.length_drop] at this
    omega
  · intro e he
    rw [← hsplit] at hlt
    exact (List.pairwise_append.mp hlt).2.2 e he r hin'

/-- an outcome given by the best results -/
theorem gives_of {C : Coll} (hd : (C.map (·.1)).Nodup) {P : List Str → Prop} {bad : List Str → Prop} {k : Nat} {o : M Scratch} {g : Prop}
    (h1 : g → o = .error .oob)
    (h2 : ¬ g → ∃ E, Spec.Best C P k E ∧ ((∀ r ∈ E, ¬ bad r.2) → Shows (Pre.run C).terms E o) ∧ ((∃ r ∈ E, bad r.2) → o = .error .oob)) :
    Gives C (allOf C P) g bad k o := by
  refine ⟨h1, fun hg => ?_⟩
  obtain ⟨E, b, h3⟩ := h2 hg
  rw [← b.unique hd (fun _ _ => Iff.rfl) (allOf_best hd P k)]
  exact h3

theorem _root_.AC.Outcome.gives {C : Coll} (hC : ValidColl C) {P : List Str → Prop} {k : Nat} {o : M Scratch} (h : Outcome C (Pre.run C).terms P k o) :
    Gives C (allOf C P) False (fun _ => False) k o := by
  obtain ⟨E, b, h⟩ := h
  exact gives_of hC.docs (by simp) (fun _ => ⟨E, b, fun _ => h, by simp⟩)

/-- a completion with one of the last 16 terms -/
def HasLast (C : Coll) (c : List Str) : Prop := ∃ t ∈ c, AmongLast C 16 t

theorem outcome17_form {C : Coll} {P : List Str → Prop} {k : Nat} {o : M Scratch} (h : Outcome17 C (Pre.run C).terms P k o) :
    ∃ E, Spec.Best C P k E ∧ ((∀ r ∈ E, ¬ HasLast C r.2) → Shows (Pre.run C).terms E o) ∧ ((∃ r ∈ E, HasLast C r.2) → o = .error .oob) := by
  obtain ⟨E, b, h1, h2⟩ := h
  exact ⟨E, b, fun hh => h1 (fun r hr t ht hl => hh r hr ⟨t, ht, hl⟩), h2⟩

theorem _root_.AC.Outcome17.gives {C : Coll} (hC : ValidColl C) {P : List Str → Prop} {k : Nat} {o : M Scratch} (h : Outcome17 C (Pre.run C).terms P k o) :
    Gives C (allOf C P) False (HasLast C) k o :=
  gives_of hC.docs (by simp) (fun _ => outcome17_form h)

theorem _root_.AC.OutcomeC.gives {C : Coll} (hC : ValidColl C) {P : List Str → Prop} {k : Nat} {o : M Scratch} (h : OutcomeC C (Pre.run C).terms P k o) :
    Gives C (allOf C P) False (LastCompletion C 16) k o :=
  gives_of hC.docs (by simp) (fun _ => h)

theorem _root_.AC.OutcomeB.gives {C : Coll} (hC : ValidColl C) {P : List Str → Prop} {k : Nat} {o : M Scratch} (h : OutcomeB C (Pre.run C).terms P k o) :
    Gives C (allOf C P) False (Gone C) k o :=
  gives_of hC.docs (by simp) (fun _ => h)

/-! ## Types 1, 2 and 3 -/

/-- searches that find the best of what satisfies `pre` and `cnj`, except that conjunctive search fails for the numbers of results `g` -/
theorem settles_of {C : Coll} {run : Ask → Scratch → M Scratch} {pre cnj : List Str → Str → List Str → Prop} {g : List Str → Str → Nat → Prop}
    {bp bc : List Str → Prop}
    (hp : ∀ q k s, IsText q → 1 ≤ k → k ≤ MAX_K → Scratch.WF s → Gives C (allOf C (pre (completeTerms q) (lastTerm q))) False bp k (run ⟨false, q, k⟩ s))
    (hc : ∀ q k s, IsText q → 1 ≤ k → k ≤ MAX_K → Scratch.WF s →
      Gives C (allOf C (cnj (completeTerms q) (lastTerm q))) (g (completeTerms q) (lastTerm q) k) bc k (run ⟨true, q, k⟩ s))
    (hm : ∀ l t k k', k ≤ k' → g l t k → g l t k')
    (ho : ∀ l l' t, (∀ x, x ∈ l' ↔ x ∈ l) → cnj l' t = cnj l t ∧ ∀ k, g l' t k ↔ g l t k) :
    Settles C run (fun cj q => if cj then allOf C (cnj (completeTerms q) (lastTerm q)) else allOf C (pre (completeTerms q) (lastTerm q)))
      (fun cj q k => if cj then g (completeTerms q) (lastTerm q) k else False) (fun cj => if cj then bc else bp) := by
  refine ⟨?_, ?_, ?_, ?_⟩
  · have key : ∀ P, ∀ r ∈ allOf C P, r ∈ C := by
      intro P r hr
      unfold allOf at hr
      simp only [List.mem_mergeSort, List.mem_filter] at hr
      exact hr.1
    rintro (_ | _) q _ r hr
    · exact key _ r (by simpa using hr)
    · exact key _ r (by simpa using hr)
  · rintro (_ | _) q k k' hk h
    · simp at h
    · simp only [if_true] at h ⊢; exact hm _ _ k k' hk h
  · rintro q q' ⟨h1, h2⟩
    simp only [if_true]
    obtain ⟨h3, h4⟩ := ho (completeTerms q) (completeTerms q') (lastTerm q) h2
    rw [h1, h3]
    exact ⟨rfl, h4⟩
  · rintro (_ | _) q k s hq hk hk' hs
    · simpa using hp q k s hq hk hk' hs
    · simpa using hc q k s hq hk hk' hs

theorem conjFound_order (C : Coll) {l l' : List Str} (t : Str) (h : ∀ x, x ∈ l' ↔ x ∈ l) : ConjFound C l' t = ConjFound C l t := by
  funext c
  unfold ConjFound
  simp only [h]

theorem conjKept_order (C : Coll) {l l' : List Str} (t : Str) (h : ∀ x, x ∈ l' ↔ x ∈ l) : ConjKept C l' t = ConjKept C l t := by
  funext c
  unfold ConjKept
  simp only [h]

/-- some completion that conjunctive search of type 2 examines is lost -/
def LostFound (C : Coll) (l : List Str) (t : Str) (k : Nat) : Prop := ∃ d c, Examined C l t k d c ∧ LastCompletion C 16 c

/-- the same when the number of terms is a multiple of 17 too -/
def LostKept (C : Coll) (l : List Str) (t : Str) (k : Nat) : Prop := ∃ d c, ExaminedKept C l t k d c ∧ LastCompletion C 16 c

theorem lostFound_order (C : Coll) {l l' : List Str} (t : Str) (h : ∀ x, x ∈ l' ↔ x ∈ l) (k : Nat) : LostFound C l' t k ↔ LostFound C l t k := by
  unfold LostFound Examined
  simp only [h, conjFound_order C t h]

theorem lostKept_order (C : Coll) {l l' : List Str} (t : Str) (h : ∀ x, x ∈ l' ↔ x ∈ l) (k : Nat) : LostKept C l' t k ↔ LostKept C l t k := by
  unfold LostKept ExaminedKept
  simp only [h, conjKept_order C t h]

theorem lostFound_mono (C : Coll) (l : List Str) (t : Str) (k k' : Nat) (hk : k ≤ k') (h : LostFound C l t k) : LostFound C l t k' := by
  obtain ⟨d, c, ⟨h1, h2, h3, h4, h5⟩, h6⟩ := h
  exact ⟨d, c, ⟨h1, h2, h3, h4, fun G a b => Nat.lt_of_lt_of_le (h5 G a b) hk⟩, h6⟩

theorem lostKept_mono (C : Coll) (l : List Str) (t : Str) (k k' : Nat) (hk : k ≤ k') (h : LostKept C l t k) : LostKept C l t k' := by
  obtain ⟨d, c, ⟨h1, h2, h3, h4, h5⟩, h6⟩ := h
  exact ⟨d, c, ⟨h1, h2, h3, h4, fun G a b => Nat.lt_of_lt_of_le (h5 G a b) hk⟩, h6⟩

/-- searches that are settled, the same for every standard library -/
def SettledRun (C : Coll) (run : StdLib → Ask → Scratch → M Scratch) : Prop := ∃ S g bad, ∀ std, Settles C (run std) S g bad

theorem settled_of {C : Coll} {run : StdLib → Ask → Scratch → M Scratch} (pre cnj : List Str → Str → List Str → Prop) (g : List Str → Str → Nat → Prop)
    (bp bc : List Str → Prop)
    (hp : ∀ std q k s, IsText q → 1 ≤ k → k ≤ MAX_K → Scratch.WF s → Gives C (allOf C (pre (completeTerms q) (lastTerm q))) False bp k (run std ⟨false, q, k⟩ s))
    (hc : ∀ std q k s, IsText q → 1 ≤ k → k ≤ MAX_K → Scratch.WF s →
      Gives C (allOf C (cnj (completeTerms q) (lastTerm q))) (g (completeTerms q) (lastTerm q) k) bc k (run std ⟨true, q, k⟩ s))
    (hm : ∀ l t k k', k ≤ k' → g l t k → g l t k')
    (ho : ∀ l l' t, (∀ x, x ∈ l' ↔ x ∈ l) → cnj l' t = cnj l t ∧ ∀ k, g l' t k ↔ g l t k) : SettledRun C run :=
  ⟨_, _, _, fun std => settles_of (hp std) (hc std) hm ho⟩

section
variable {C : Coll} (hC : ValidColl C)
include hC

theorem settled1 {mem : Nat → W} {x : Index1} (hx : Index1.build (Pre.run C) mem = .ok x) : SettledRun C x.ask := by
  have hr := hC.ready
  rcases Index1.build_iff hr mem with ⟨_, h0⟩ | ⟨he, _⟩
  · by_cases h17 : (Pre.run C).terms.length % 17 = 0
    · obtain ⟨y, y1, y2⟩ := Index1.build_lossy hr h17 (doc_of_doc0 h0) (hr.minList h0) mem
      rw [hx] at y1
      cases y1
      exact settled_of (PrefixKept C) (ConjKept C) (fun _ _ _ => False) (HasLast C) (HasLast C)
        (fun std q k s hq hk hk' hs => (Index1.prefix_outcome17 std hr y2 hq hk hk' hs).gives hC)
        (fun std q k s hq hk hk' hs => (Index1.conj_lossy std hr y2 hq hk hk' hs).gives hC)
        (fun _ _ _ _ _ => id) (fun l l' t h => ⟨conjKept_order C t h, fun _ => Iff.rfl⟩)
    · obtain ⟨y, y1, y2⟩ := Index1.build_spec hr h17 (doc_of_doc0 h0) (hr.minList h0) mem
      rw [hx] at y1
      cases y1
      exact settled_of (PrefixFound C) (ConjFound C) (fun _ _ _ => False) (fun _ => False) (fun _ => False)
        (fun std q k s hq hk hk' hs => (Index1.prefix_spec std hr y2 hq hk hk' hs).gives hC)
        (fun std q k s hq hk hk' hs => (Index1.conj_spec std hr y2 hq hk hk' hs).gives hC)
        (fun _ _ _ _ _ => id) (fun l l' t h => ⟨conjFound_order C t h, fun _ => Iff.rfl⟩)
  · rw [hx] at he
    simp at he

theorem settled3 {mem : Nat → W} {x : Index3} (hx : Index3.build (Pre.run C) mem = .ok x) : SettledRun C x.ask := by
  have hr := hC.ready
  have hml := hr.length_mapped
  rcases Index3.build_iff hr mem with ⟨_, h0⟩ | ⟨he, _⟩
  · by_cases h17 : (Pre.run C).terms.length % 17 = 0 <;> by_cases hc17 : C.length % 17 = 0
    · obtain ⟨y, y1, y2⟩ := Index3.build_both hr h17 hc17 h0 mem
      rw [hx] at y1
      cases y1
      exact settled_of (PrefixKeptB C) (ConjKept C) (fun _ _ _ => False) (HasLast C) (Gone C)
        (fun std q k s hq hk hk' hs => (Base.prefix_specB hr std y2.base y2.dict y2.built hq hk hk' hs).gives hC)
        (fun std q k s hq hk hk' hs => (Index3.conj_specB hr std y2 hq hk hk' hs).gives hC)
        (fun _ _ _ _ _ => id) (fun l l' t h => ⟨conjKept_order C t h, fun _ => Iff.rfl⟩)
    · obtain ⟨y, y1, y2⟩ := Index3.build_lossy hr h17 (by rw [hml]; exact hc17) (doc_of_kept h0) mem
      rw [hx] at y1
      cases y1
      exact settled_of (PrefixKept2 C) (ConjKept C) (fun _ _ _ => False) (HasLast C) (HasLast C)
        (fun std q k s hq hk hk' hs => (Base.prefix_outcome17 std hr y2.base y2.dict y2.built hq hk hk' hs).gives hC)
        (fun std q k s hq hk hk' hs => (Index3.conj_lossy std hr y2 hq hk hk' hs).gives hC)
        (fun _ _ _ _ _ => id) (fun l l' t h => ⟨conjKept_order C t h, fun _ => Iff.rfl⟩)
    · obtain ⟨y, y1, y2⟩ := Index3.build_lost hr h17 hc17 h0 mem
      rw [hx] at y1
      cases y1
      exact settled_of _ (ConjFound C) (fun _ _ _ => False) (fun _ => False) (LastCompletion C 16)
        (fun std q k s hq hk hk' hs => (Base.prefix_spec17 hr std y2.base y2.dict y2.built hq hk hk' hs).gives hC)
        (fun std q k s hq hk hk' hs => (Index3.conj_specC hr std y2 hq hk hk' hs).gives hC)
        (fun _ _ _ _ _ => id) (fun l l' t h => ⟨conjFound_order C t h, fun _ => Iff.rfl⟩)
    · obtain ⟨y, y1, y2⟩ := Index3.build_spec hr h17 (by rw [hml]; exact hc17) (doc_of_kept h0) mem
      rw [hx] at y1
      cases y1
      exact settled_of (PrefixFound2 C) (ConjFound C) (fun _ _ _ => False) (fun _ => False) (fun _ => False)
        (fun std q k s hq hk hk' hs => (Base.prefix_spec std hr y2.base y2.dict y2.built hq hk hk' hs).gives hC)
        (fun std q k s hq hk hk' hs => (Index3.conj_spec std hr y2 hq hk hk' hs).gives hC)
        (fun _ _ _ _ _ => id) (fun l l' t h => ⟨conjFound_order C t h, fun _ => Iff.rfl⟩)
  · rw [hx] at he
    simp at he

theorem settled2 {mem : Nat → W} {x : Index2} (hx : Index2.build (Pre.run C) mem = .ok x) : SettledRun C x.ask := by
  have hr := hC.ready
  have hml := hr.length_mapped
  rcases Index2.build_iff hr mem with ⟨_, h0, h1⟩ | ⟨he, _⟩
  · by_cases h17 : (Pre.run C).terms.length % 17 = 0 <;> by_cases hc17 : C.length % 17 = 0
    · obtain ⟨y, y1, y2⟩ := Index2.build_both hr h17 hc17 h0 (hr.minList h1) mem
      rw [hx] at y1
      cases y1
      refine settled_of (PrefixKeptB C) (ConjKept C) (LostKept C) (HasLast C) (HasLast C)
        (fun std q k s hq hk hk' hs => (Base.prefix_specB hr std y2.base y2.dict y2.built hq hk hk' hs).gives hC)
        (fun std q k s hq hk hk' hs => ?_)
        (lostKept_mono C) (fun l l' t h => ⟨conjKept_order C t h, lostKept_order C t h⟩)
      obtain ⟨h3, h4⟩ := Index2.conj_specB hr std y2 hq hk hk' hs
      exact gives_of hC.docs h3 (fun hg => outcome17_form (h4 hg))
    · obtain ⟨y, y1, y2⟩ := Index2.build_lossy hr h17 (by rw [hml]; exact hc17) (doc_of_kept h0) (hr.minList h1) mem
      rw [hx] at y1
      cases y1
      exact settled_of (PrefixKept2 C) (ConjKept C) (fun _ _ _ => False) (HasLast C) (HasLast C)
        (fun std q k s hq hk hk' hs => (Base.prefix_outcome17 std hr y2.base y2.dict y2.built hq hk hk' hs).gives hC)
        (fun std q k s hq hk hk' hs => (Index2.conj_lossy std hr y2 hq hk hk' hs).gives hC)
        (fun _ _ _ _ _ => id) (fun l l' t h => ⟨conjKept_order C t h, fun _ => Iff.rfl⟩)
    · obtain ⟨y, y1, y2⟩ := Index2.build_lost hr h17 hc17 h0 (hr.minList h1) mem
      rw [hx] at y1
      cases y1
      refine settled_of _ (ConjFound C) (LostFound C) (fun _ => False) (fun _ => False)
        (fun std q k s hq hk hk' hs => (Base.prefix_spec17 hr std y2.base y2.dict y2.built hq hk hk' hs).gives hC)
        (fun std q k s hq hk hk' hs => ?_)
        (lostFound_mono C) (fun l l' t h => ⟨conjFound_order C t h, lostFound_order C t h⟩)
      obtain ⟨h3, h4⟩ := Index2.conj_specC hr std y2 hq hk hk' hs
      refine gives_of hC.docs h3 (fun hg => ?_)
      obtain ⟨E, b, h⟩ := h4 hg
      exact ⟨E, b, fun _ => h, by simp⟩
    · obtain ⟨y, y1, y2⟩ := Index2.build_spec hr h17 (by rw [hml]; exact hc17) (doc_of_kept h0) (hr.minList h1) mem
      rw [hx] at y1
      cases y1
      exact settled_of (PrefixFound2 C) (ConjFound C) (fun _ _ _ => False) (fun _ => False) (fun _ => False)
        (fun std q k s hq hk hk' hs => (Base.prefix_spec std hr y2.base y2.dict y2.built hq hk hk' hs).gives hC)
        (fun std q k s hq hk hk' hs => (Index2.conj_spec std hr y2 hq hk hk' hs).gives hC)
        (fun _ _ _ _ _ => id) (fun l l' t h => ⟨conjFound_order C t h, fun _ => Iff.rfl⟩)
  · rw [hx] at he
    simp at he

theorem _root_.AC.Props.IsBuilt3.settled {run : StdLib → Ask → Scratch → M Scratch} (h : IsBuilt3 C run) : SettledRun C run := by
  cases h with
  | type1 h => exact settled1 hC h
  | type2 h => exact settled2 hC h
  | type3 h => exact settled3 hC h

end

/-! ## Type 4 -/

/-- the list `S` answers the conjunctive searches for `q` and for the queries with the same terms -/
def Lists (C : Coll) (run : Ask → Scratch → M Scratch) (bad : List Str → Prop) (q : Str) (S : Coll) : Prop :=
  (∀ r ∈ S, r ∈ C) ∧ ∀ q', IsText q' → SameTerms q q' → ∀ k s, 1 ≤ k → k ≤ MAX_K → Scratch.WF s → Gives C S False bad k (run ⟨true, q', k⟩ s)

theorem lists_order {C : Coll} {run : Ask → Scratch → M Scratch} {bad : List Str → Prop} {q q' : Str} (h : SameTerms q q') :
    Lists C run bad q' = Lists C run bad q := by
  funext S
  have key : ∀ q'', SameTerms q' q'' ↔ SameTerms q q'' := by
    intro q''
    unfold SameTerms
    rw [h.1]
    simp only [h.2]
  unfold Lists
  simp only [key]

open Classical in
/-- one list that satisfies `p`, if there is one -/
noncomputable def oneOf (p : Coll → Prop) : Coll := if h : ∃ S, p S then Classical.choose h else []

/-- one list that answers the conjunctive searches for `q` -/
noncomputable def listFor (C : Coll) (run : Ask → Scratch → M Scratch) (bad : List Str → Prop) (q : Str) : Coll := oneOf (Lists C run bad q)

theorem listFor_spec {C : Coll} {run : Ask → Scratch → M Scratch} {bad : List Str → Prop} {q : Str} (h : ∃ S, Lists C run bad q S) :
    Lists C run bad q (listFor C run bad q) := by
  unfold listFor oneOf
  rw [dif_pos h]
  exact Classical.choose_spec h

theorem listFor_order {C : Coll} {run : Ask → Scratch → M Scratch} {bad : List Str → Prop} {q q' : Str} (h : SameTerms q q') :
    listFor C run bad q' = listFor C run bad q := by
  unfold listFor
  rw [lists_order h]

theorem settles4_of {C : Coll} {run : Ask → Scratch → M Scratch} (pre : List Str → Str → List Str → Prop) (bp bc : List Str → Prop)
    (hp : ∀ q k s, IsText q → 1 ≤ k → k ≤ MAX_K → Scratch.WF s → Gives C (allOf C (pre (completeTerms q) (lastTerm q))) False bp k (run ⟨false, q, k⟩ s))
    (hc : ∀ q, IsText q → ∃ S, Lists C run bc q S) : ∃ S g bad, Settles C run S g bad := by
  refine ⟨fun cj q => if cj then listFor C run bc q else allOf C (pre (completeTerms q) (lastTerm q)), fun _ _ _ => False, fun cj => if cj then bc else bp,
    ?_, fun _ _ _ _ _ => id, ?_, ?_⟩
  · rintro (_ | _) q hq r hr
    · simp only [Bool.false_eq_true, if_false] at hr
      unfold allOf at hr
      simp only [List.mem_mergeSort, List.mem_filter] at hr
      exact hr.1
    · simp only [if_true] at hr
      exact (listFor_spec (hc q hq)).1 r hr
  · intro q q' h
    refine ⟨?_, fun _ => Iff.rfl⟩
    simp only [if_true]
    exact listFor_order h
  · rintro (_ | _) q k s hq hk hk' hs
    · simpa using hp q k s hq hk hk' hs
    · have := (listFor_spec (hc q hq)).2 q hq ⟨rfl, fun _ => Iff.rfl⟩ k s hk hk' hs
      simpa using this

theorem settles4 {C : Coll} (hC : ValidColl C) (hids : ∀ r ∈ C, r.1 < 2 ^ 32 - 2) {std₀ : StdLib} {m : Nat} {mem : Nat → W} {x : Index4}
    (hx : Index4.build std₀ m (Pre.run C) mem = .ok x) (std : StdLib) : ∃ S g bad, Settles C (x.ask std) S g bad := by
  have hr := hC.ready
  have hml := hr.length_mapped
  have h0 : KeptDoc C := by
    rcases Base.build_iff hr mem with ⟨_, h0⟩ | ⟨he, _⟩
    · exact h0
    · unfold Index4.build at hx
      obtain ⟨_, _, hx⟩ := bind_ok hx
      rw [he, M.error_bind] at hx
      simp at hx
  by_cases h17 : (Pre.run C).terms.length % 17 = 0 <;> by_cases hc17 : C.length % 17 = 0
  · obtain ⟨y, docss, y1, y2⟩ := Index4.build_both hr h17 hc17 h0 std₀ m mem
    rw [hx] at y1
    cases y1
    refine settles4_of (PrefixKeptB C) (HasLast C) (Gone C)
      (fun q k s hq hk hk' hs => (Base.prefix_specB hr std y2.base y2.dict y2.built hq hk hk' hs).gives hC) (fun q hq => ?_)
    obtain ⟨S, s1, s2⟩ := Index4.conj_likeB hr std y2 hids hq
    exact ⟨S, s1.mem, fun q' hq' hs k s hk hk' hw => ⟨by simp, fun _ => s2 q' hq' hs.1 hs.2 k hk hk' s hw⟩⟩
  · obtain ⟨y, docss, y1, y2⟩ := Index4.build_lossy hr h17 (by rw [hml]; exact hc17) (doc_of_kept h0) std₀ m mem
    rw [hx] at y1
    cases y1
    refine settles4_of (PrefixKept2 C) (HasLast C) (HasLast C)
      (fun q k s hq hk hk' hs => (Base.prefix_outcome17 std hr y2.base y2.dict y2.built hq hk hk' hs).gives hC) (fun q hq => ?_)
    obtain ⟨S, s1, s2⟩ := Index4.conj_like17 hr std y2 hids hq
    refine ⟨S, s1.mem, fun q' hq' hs k s hk hk' hw => ⟨by simp, fun _ => ?_⟩⟩
    obtain ⟨a, b⟩ := s2 q' hq' hs.1 hs.2 k hk hk' s hw
    exact ⟨fun hh => a (fun r hr t ht hl => hh r hr ⟨t, ht, hl⟩), b⟩
  · obtain ⟨y, docss, y1, y2⟩ := Index4.build_lost hr h17 hc17 h0 std₀ m mem
    rw [hx] at y1
    cases y1
    refine settles4_of (PrefixKeptC C) (fun _ => False) (LastCompletion C 16)
      (fun q k s hq hk hk' hs => (Base.prefix_spec17 hr std y2.base y2.dict y2.built hq hk hk' hs).gives hC) (fun q hq => ?_)
    obtain ⟨S, s1, s2⟩ := Index4.conj_likeC hr std y2 hids hq
    exact ⟨S, s1.mem, fun q' hq' hs k s hk hk' hw => ⟨by simp, fun _ => s2 q' hq' hs.1 hs.2 k hk hk' s hw⟩⟩
  · obtain ⟨y, docss, y1, y2⟩ := Index4.build_spec hr h17 (by rw [hml]; exact hc17) (doc_of_kept h0) std₀ m mem
    rw [hx] at y1
    cases y1
    refine settles4_of (PrefixFound2 C) (fun _ => False) (fun _ => False)
      (fun q k s hq hk hk' hs => (Base.prefix_spec std hr y2.base y2.dict y2.built hq hk hk' hs).gives hC) (fun q hq => ?_)
    obtain ⟨S, s1, s2⟩ := Index4.conj_spec hr std y2 hids hq
    exact ⟨S, s1.mem, fun q' hq' hs k s hk hk' hw => ⟨by simp, fun _ => ⟨fun _ => s2 q' hq' hs.1 hs.2 k hk hk' s hw, by simp⟩⟩⟩

theorem IsBuilt.settles {C : Coll} (hC : ValidColl C) {run : StdLib → Ask → Scratch → M Scratch} (h : IsBuilt C run) (std : StdLib) :
    ∃ S g bad, Settles C (run std) S g bad := by
  cases h with
  | type1 h => obtain ⟨S, g, bad, hh⟩ := settled1 hC h; exact ⟨S, g, bad, hh std⟩
  | type2 h => obtain ⟨S, g, bad, hh⟩ := settled2 hC h; exact ⟨S, g, bad, hh std⟩
  | type3 h => obtain ⟨S, g, bad, hh⟩ := settled3 hC h; exact ⟨S, g, bad, hh std⟩
  | type4 hi h => exact settles4 hC hi h std

theorem IsBuilt3.any {C : Coll} {run : StdLib → Ask → Scratch → M Scratch} (h : IsBuilt3 C run) : IsBuilt C run := by
  cases h with
  | type1 h => exact .type1 h
  | type2 h => exact .type2 h
  | type3 h => exact .type3 h

theorem IsBuilt.wf {C : Coll} (hC : ValidColl C) {run : StdLib → Ask → Scratch → M Scratch} (h : IsBuilt C run) {s : Scratch} (hs : Visited run s) : s.WF := by
  induction hs with
  | fresh => exact Scratch.fresh_wf
  | @step std a s s' _ ha ho ih =>
      obtain ⟨S, g, bad, hh⟩ := h.settles hC std
      exact (hh.gives a.conj a.text a.k s ha.1 ha.2.1 ha.2.2 ih).wf ho

/-! ## The claims -/

section
variable {C : Coll} {run : StdLib → Ask → Scratch → M Scratch}

/-- **C30**, for every type and every valid collection from which the index can be built. -/
theorem C30_any (hC : ValidColl C) (hi : IsBuilt C run) (std : StdLib) (a : Ask) (ha : a.Ok) {s t : Scratch} (hs : Visited run s)
    (ht : run std a s = .ok t) : TextsInPlace C t.pool := by
  obtain ⟨S, g, bad, hh⟩ := hi.settles hC std
  obtain ⟨_, _, h⟩ := (hh.gives a.conj a.text a.k s ha.1 ha.2.1 ha.2.2 (hi.wf hC hs)).ok ht
  have ht' : run std ⟨a.conj, a.text, a.k⟩ s = .ok t := ht
  rw [ht'] at h
  rcases h with ⟨e, _⟩ | ⟨t', e, _, e1, _, _, e2⟩
  · cases e
  · cases e
    exact textsInPlace (fun r hr => hh.mem _ _ ha.1 r (List.mem_of_mem_take hr)) e1 e2

/-- **C31**, for every type and every valid collection from which the index can be built: with the same standard library, the answer does not depend on
the searches made before. -/
theorem C31_any (hC : ValidColl C) (hi : IsBuilt C run) (std : StdLib) (a : Ask) (ha : a.Ok) {s s' : Scratch} (hs : Visited run s)
    (hs' : Visited run s') : SameAnswer (run std a s) (run std a s') := by
  obtain ⟨S, g, bad, hh⟩ := hi.settles hC std
  exact (hh.gives a.conj a.text a.k s ha.1 ha.2.1 ha.2.2 (hi.wf hC hs)).same (hh.gives a.conj a.text a.k s' ha.1 ha.2.1 ha.2.2 (hi.wf hC hs'))

/-- **C31** for types 1, 2 and 3: nor on the choices of the standard library. -/
theorem C31_any3 (hC : ValidColl C) (hi : IsBuilt3 C run) (std std' : StdLib) (a : Ask) (ha : a.Ok) {s s' : Scratch} (hs : Visited run s)
    (hs' : Visited run s') : SameAnswer (run std a s) (run std' a s') := by
  obtain ⟨S, g, bad, hh⟩ := hi.settled hC
  exact ((hh std).gives a.conj a.text a.k s ha.1 ha.2.1 ha.2.2 (hi.any.wf hC hs)).same
    ((hh std').gives a.conj a.text a.k s' ha.1 ha.2.1 ha.2.2 (hi.any.wf hC hs'))

/-- **C33**, for every type and every valid collection from which the index can be built. -/
theorem C33_any (hC : ValidColl C) (hi : IsBuilt C run) (std : StdLib) (q q' : Str) (k : Nat) (ha : Ask.Ok ⟨true, q, k⟩) (ha' : IsText q')
    (hl : lastTerm q = lastTerm q') (ht : ∀ t, t ∈ completeTerms q ↔ t ∈ completeTerms q') {s s' : Scratch} (hs : Visited run s)
    (hs' : Visited run s') : SameAnswer (run std ⟨true, q, k⟩ s) (run std ⟨true, q', k⟩ s') := by
  obtain ⟨S, g, bad, hh⟩ := hi.settles hC std
  have h1 := hh.gives true q k s ha.1 ha.2.1 ha.2.2 (hi.wf hC hs)
  have h2 := hh.gives true q' k s' ha' ha.2.1 ha.2.2 (hi.wf hC hs')
  obtain ⟨o1, o2⟩ := hh.order q q' ⟨hl.symm, fun t => (ht t).symm⟩
  rw [o1, propext (o2 k)] at h2
  exact h1.same h2

/-- **C34**, for every type and every valid collection from which the index can be built. -/
theorem C34_any (hC : ValidColl C) (hi : IsBuilt C run) (std : StdLib) (cj : Bool) (q : Str) (k k' : Nat) (hk : 1 ≤ k) (hkk : k ≤ k')
    (ha : Ask.Ok ⟨cj, q, k'⟩) {s s' t' : Scratch} {res' : List (Nat × Str)} (hs : Visited run s) (hs' : Visited run s')
    (h1 : run std ⟨cj, q, k'⟩ s' = .ok t') (h2 : t'.pool.results = .ok res') :
    ∃ t, run std ⟨cj, q, k⟩ s = .ok t ∧ t.pool.results = .ok (res'.take k) := by
  obtain ⟨S, g, bad, hh⟩ := hi.settles hC std
  obtain ⟨g1, g2, g3⟩ := (hh.gives cj q k' s' ha.1 ha.2.1 ha.2.2 (hi.wf hC hs')).ok h1
  have htk : (S cj q).take k = ((S cj q).take k').take k := by rw [List.take_take, Nat.min_eq_left hkk]
  have o := ((hh.gives cj q k s ha.1 hk (Nat.le_trans hkk ha.2.2) (hi.wf hC hs)).2 (fun hg => g1 (hh.mono cj q k k' hkk hg))).1 (by
    intro r hr
    rw [htk] at hr
    exact g2 r (List.mem_of_mem_take hr))
  rw [h1] at g3
  rcases g3 with ⟨e, _⟩ | ⟨t2, e, _, e1, e2, _⟩
  · cases e
  · cases e
    rw [h2] at e1
    cases e1
    rcases o with ⟨_, f, _⟩ | ⟨t, f1, _, f2, _⟩
    · rw [htk] at f
      exact absurd (e2.take k) f
    · exact ⟨t, f1, by rw [f2, htk, List.map_take]⟩

end

/-- The hypotheses hold of the collection for which both numbers are multiples of 17, for every type; and with type 3 a state reached by a search that
returns something, that of "aq ar". -/
example (std : StdLib) (m : Nat) (mem : Nat → W) : ValidColl collB34 ∧ (∃ x : Index1, IsBuilt3 collB34 x.ask) ∧ (∃ x : Index2, IsBuilt3 collB34 x.ask) ∧
    (∃ x : Index4, Index4.build std m (Pre.run collB34) mem = .ok x ∧ IsBuilt collB34 x.ask) ∧ ∃ x : Index3, IsBuilt3 collB34 x.ask ∧
    ∃ s, x.ask std ⟨true, [97, 113, 32, 97, 114], 15⟩ Scratch.fresh = .ok s ∧ Visited x.ask s ∧ Visited x.ask Scratch.fresh := by
  have hr := collB34_valid.ready
  have hs := collB34_suits
  have hk := hr.keptDoc hs.count hs.doc
  have h17 := Suits17e.mod collB34_valid hs.toSuits17e
  refine ⟨collB34_valid, ?_, ?_, ?_, ?_⟩
  · obtain ⟨x, h, _⟩ := Index1.build_lossy hr h17 (doc_of_doc0 hs.doc0) (hr.minList hs.doc0) mem
    exact ⟨x, .type1 h⟩
  · obtain ⟨x, h, _⟩ := Index2.build_both hr h17 hs.count hk (hr.minList hs.doc0) mem
    exact ⟨x, .type2 h⟩
  · obtain ⟨x, _, h, _⟩ := Index4.build_both hr h17 hs.count hk std m mem
    exact ⟨x, h, .type4 (by decide +kernel) h⟩
  · obtain ⟨x, h1, h2⟩ := C69_partial std collB34_valid hs.toSuits17e mem
    refine ⟨x, .type3 h1, ?_⟩
    obtain ⟨_, _, c3, c4, c5, c6, _, _, c9, c10, c11, c12⟩ := collB34_case
    have hq : IsText [97, 113, 32, 97, 114] := by decide
    obtain ⟨s', res, e1, _, e2, e3⟩ := (h2 _ 15 Scratch.fresh hq (by decide) (by decide) Scratch.fresh_wf (by rw [c12]; exact c4) c3).2
      (by rw [c11, c12]; exact c9) (by rw [c11]; exact c10)
    exact ⟨s', e1, .step (std := std) (a := ⟨true, _, 15⟩) .fresh ⟨hq, by decide, by decide⟩ e1, .fresh⟩

end AC.Props
