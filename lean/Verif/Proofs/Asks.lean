import Verif.Proofs.Suits
/-!
# The searches of the index types, seen by a client
-/
namespace AC
open Spec

/-- a search that a client asks for -/
structure Ask where
  conj : Bool
  text : Str
  k : Nat

/-- the searches considered: a text without NUL bytes and from 1 to 15 results -/
def Ask.Ok (a : Ask) : Prop := IsText a.text ∧ 1 ≤ a.k ∧ a.k ≤ MAX_K

/-- the two searches of type 1 -/
def Index1.ask (x : Index1) (std : StdLib) (a : Ask) (s : Scratch) : M Scratch :=
  if a.conj then x.conjTopk std a.text a.k s else x.prefixTopk std a.text a.k s

/-- the two searches of type 2 -/
def Index2.ask (x : Index2) (std : StdLib) (a : Ask) (s : Scratch) : M Scratch :=
  if a.conj then x.conjTopk std a.text a.k s else x.toBase.prefixTopk std a.text a.k s

/-- the two searches of type 3 -/
def Index3.ask (x : Index3) (std : StdLib) (a : Ask) (s : Scratch) : M Scratch :=
  if a.conj then x.conjTopk std a.text a.k s else x.toBase.prefixTopk std a.text a.k s

/-- the searches of an index of type 1, 2 or 3 built from a collection that the type can be built from -/
inductive IsIndex (C : Coll) : (StdLib → Ask → Scratch → M Scratch) → Prop
  | type1 {mem : Nat → W} {x : Index1} : Suits1 C → Index1.build (Pre.run C) mem = .ok x → IsIndex C x.ask
  | type2 {mem : Nat → W} {x : Index2} : Suits2 C → Index2.build (Pre.run C) mem = .ok x → IsIndex C x.ask
  | type3 {mem : Nat → W} {x : Index3} : Suits3 C → Index3.build (Pre.run C) mem = .ok x → IsIndex C x.ask

/-- the states of an object: what some searches leave, from the one that the constructor makes -/
inductive Visited (run : StdLib → Ask → Scratch → M Scratch) : Scratch → Prop
  | fresh : Visited run Scratch.fresh
  | step {std : StdLib} {a : Ask} {s s' : Scratch} : Visited run s → a.Ok → run std a s = .ok s' → Visited run s'

theorem Index1.rep_of_build {C : Coll} (hC : ValidColl C) (hw : Suits1 C) {mem : Nat → W} {x : Index1} (hb : Index1.build (Pre.run C) mem = .ok x) :
    x.Rep (Pre.run C) := by
  obtain ⟨y, h1, h2⟩ := Index1.exists hC.ready hw mem
  rw [hb] at h1; cases h1; exact h2

theorem Index2.rep_of_build {C : Coll} (hC : ValidColl C) (hw : Suits2 C) {mem : Nat → W} {x : Index2} (hb : Index2.build (Pre.run C) mem = .ok x) :
    x.Rep (Pre.run C) := by
  obtain ⟨y, h1, h2⟩ := Index2.exists hC.ready hw mem
  rw [hb] at h1; cases h1; exact h2

theorem Index3.rep_of_build {C : Coll} (hC : ValidColl C) (hw : Suits3 C) {mem : Nat → W} {x : Index3} (hb : Index3.build (Pre.run C) mem = .ok x) :
    x.Rep (Pre.run C) := by
  obtain ⟨y, h1, h2⟩ := Index3.exists hC.ready hw mem
  rw [hb] at h1; cases h1; exact h2

/-- what the searches find, prefix searches finding `pre` -/
def foundBy (C : Coll) (pre : List Str → Str → List Str → Prop) (a : Ask) (c : List Str) : Prop :=
  if a.conj then ConjFound C (completeTerms a.text) (lastTerm a.text) c else pre (completeTerms a.text) (lastTerm a.text) c

/-- what an index serves -/
def Serves (C : Coll) (pre : List Str → Str → List Str → Prop) (run : StdLib → Ask → Scratch → M Scratch) : Prop :=
  ∀ std a s, a.Ok → Scratch.WF s → Outcome C (Pre.run C).terms (foundBy C pre a) a.k (run std a s)

theorem Index1.serves {C : Coll} (hC : ValidColl C) {x : Index1} (h : x.Rep (Pre.run C)) : Serves C (PrefixFound C) x.ask := by
  rintro std ⟨cj, q, k⟩ s ⟨h1, h2, h3⟩ hs
  cases cj with
  | true => exact Index1.conj_spec std hC.ready h h1 h2 h3 hs
  | false => exact Index1.prefix_spec std hC.ready h h1 h2 h3 hs

theorem Index2.serves {C : Coll} (hC : ValidColl C) {x : Index2} (h : x.Rep (Pre.run C)) : Serves C (PrefixFound2 C) x.ask := by
  rintro std ⟨cj, q, k⟩ s ⟨h1, h2, h3⟩ hs
  cases cj with
  | true => exact Index2.conj_spec std hC.ready h h1 h2 h3 hs
  | false => exact Base.prefix_spec std hC.ready h.base h.dict h.built h1 h2 h3 hs

theorem Index3.serves {C : Coll} (hC : ValidColl C) {x : Index3} (h : x.Rep (Pre.run C)) : Serves C (PrefixFound2 C) x.ask := by
  rintro std ⟨cj, q, k⟩ s ⟨h1, h2, h3⟩ hs
  cases cj with
  | true => exact Index3.conj_spec std hC.ready h h1 h2 h3 hs
  | false => exact Base.prefix_spec std hC.ready h.base h.dict h.built h1 h2 h3 hs

theorem IsIndex.serves {C : Coll} (hC : ValidColl C) {run : StdLib → Ask → Scratch → M Scratch} (h : IsIndex C run) :
    ∃ pre, (pre = PrefixFound C ∨ pre = PrefixFound2 C) ∧ Serves C pre run := by
  cases h with
  | type1 hw hb => exact ⟨_, Or.inl rfl, Index1.serves hC (Index1.rep_of_build hC hw hb)⟩
  | type2 hw hb => exact ⟨_, Or.inr rfl, Index2.serves hC (Index2.rep_of_build hC hw hb)⟩
  | type3 hw hb => exact ⟨_, Or.inr rfl, Index3.serves hC (Index3.rep_of_build hC hw hb)⟩

theorem Outcome.wf {C : Coll} {terms : List Str} {P : List Str → Prop} {k : Nat} {o : M Scratch} (h : Outcome C terms P k o) {s : Scratch}
    (ho : o = .ok s) : s.WF := by
  obtain ⟨E, _, h⟩ := h
  rw [ho] at h
  rcases h with ⟨e, _⟩ | ⟨s', e, hw, _⟩
  · simp at e
  · cases e; exact hw

theorem Visited.wf {C : Coll} {pre : List Str → Str → List Str → Prop} {run : StdLib → Ask → Scratch → M Scratch} (h : Serves C pre run)
    {s : Scratch} (hs : Visited run s) : s.WF := by
  induction hs with
  | fresh => exact Scratch.fresh_wf
  | step _ ha ho ih => exact (h _ _ _ ha ih).wf ho

/-- the answer, given the state -/
theorem Outcome.cases {C : Coll} {terms : List Str} {P : List Str → Prop} {k : Nat} {o : M Scratch} (h : Outcome C terms P k o) {s : Scratch}
    (ho : o = .ok s) : ∃ E, Spec.Best C P k E ∧ s.pool.results = .ok (E.map shown) ∧ Fits terms E ∧ s.pool.Holds (E.map (fun r => joined r.2)) := by
  obtain ⟨E, b, h⟩ := h
  rw [ho] at h
  rcases h with ⟨e, _⟩ | ⟨s', e, hw, h1, h2, _, h3⟩
  · simp at e
  · cases e; exact ⟨E, b, h1, h2, h3⟩

end AC
