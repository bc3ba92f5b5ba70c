import Verif.Props.Answers
import Verif.Props.Type4
import Verif.Proofs.Counts
import Verif.Proofs.Twin4
/-!
# C45: saving and loading an index

`mem'` are the words of memory that follow the buffers of the loaded index; they have nothing to do with those of the index that was saved.
-/
namespace AC.Props
open AC Spec

/-- **C45**, type 1: for every collection and every contents of memory, the index is saved as a sequence of bytes, and what is loaded from them is
the index that would have been built there. Saving that one gives the same bytes. -/
theorem C45_saved1 {C : Coll} (hC : ValidColl C) {mem : Nat → W} {x : Index1} (h : Index1.build (Pre.run C) mem = .ok x) (mem' : Nat → W) :
    ∃ file y, save (fun V => V.index1) x = .ok file ∧ load (fun V => V.index1) (Index1.blank mem') file = .ok y ∧
      Index1.build (Pre.run C) mem' = .ok y ∧ save (fun V => V.index1) y = .ok file ∧ ∀ b ∈ file, b < 256 := by
  obtain ⟨h1, h2⟩ := Index1.build_put (mem' := mem') h
  obtain ⟨n, hn⟩ := Index1.bytes_ok h2
  obtain ⟨file, h3, h4, h5, h6⟩ := (Trip.index1 h2 hn mem').save_load
  exact ⟨file, _, h3, h6 (Index1.build_fits hC.ready h), h1, h4, h5.2⟩

/-- **C45**, type 2 -/
theorem C45_saved2 {C : Coll} (hC : ValidColl C) {mem : Nat → W} {x : Index2} (h : Index2.build (Pre.run C) mem = .ok x)
    (mem' : Nat → W) :
    ∃ file y, save (fun V => V.index2) x = .ok file ∧ load (fun V => V.index2) (Index2.blank mem') file = .ok y ∧
      Index2.build (Pre.run C) mem' = .ok y ∧ save (fun V => V.index2) y = .ok file ∧ ∀ b ∈ file, b < 256 := by
  have h1 := Index2.build_put (mem' := mem') h
  obtain ⟨file, h3, h4, h5, h6⟩ := (Trip.index2 x mem').save_load
  exact ⟨file, _, h3, h6 (Index2.build_fits hC.ready h), h1, h4, h5.2⟩

/-- **C45**, type 3 -/
theorem C45_saved3 {C : Coll} (hC : ValidColl C) {mem : Nat → W} {x : Index3} (h : Index3.build (Pre.run C) mem = .ok x)
    (mem' : Nat → W) :
    ∃ file y, save (fun V => V.index3) x = .ok file ∧ load (fun V => V.index3) (Index3.blank mem') file = .ok y ∧
      Index3.build (Pre.run C) mem' = .ok y ∧ save (fun V => V.index3) y = .ok file ∧ ∀ b ∈ file, b < 256 := by
  have h1 := Index3.build_put (mem' := mem') h
  obtain ⟨file, h3, h4, h5, h6⟩ := (Trip.index3 x mem').save_load
  exact ⟨file, _, h3, h6 (Index3.build_fits hC.ready h), h1, h4, h5.2⟩

/-- **C45**, type 4 -/
theorem C45_saved4 {C : Coll} (hC : ValidColl C) {std : StdLib} {m : Nat} {mem : Nat → W} {x : Index4} (h : Index4.build std m (Pre.run C) mem = .ok x)
    (mem' : Nat → W) :
    ∃ file y, save (fun V => V.index4) x = .ok file ∧ load (fun V => V.index4) (Index4.blank mem') file = .ok y ∧
      Index4.build std m (Pre.run C) mem' = .ok y ∧ save (fun V => V.index4) y = .ok file ∧ ∀ b ∈ file, b < 256 := by
  have h1 := Index4.build_put (mem' := mem') h
  obtain ⟨file, h3, h4, h5, h6⟩ := (Trip.index4 x mem').save_load
  exact ⟨file, _, h3, h6 (Index4.build_fits hC.ready h), h1, h4, h5.2⟩

/-- **C45**: the file depends on the collection and on nothing that is in memory. -/
theorem C45_file {C : Coll} (hC : ValidColl C) (mem mem' : Nat → W) :
    (∀ x y : Index1, Index1.build (Pre.run C) mem = .ok x → Index1.build (Pre.run C) mem' = .ok y →
      save (fun V => V.index1) x = save (fun V => V.index1) y) ∧
    (∀ x y : Index2, Index2.build (Pre.run C) mem = .ok x → Index2.build (Pre.run C) mem' = .ok y →
      save (fun V => V.index2) x = save (fun V => V.index2) y) ∧
    (∀ x y : Index3, Index3.build (Pre.run C) mem = .ok x → Index3.build (Pre.run C) mem' = .ok y →
      save (fun V => V.index3) x = save (fun V => V.index3) y) ∧
    (∀ (std : StdLib) (m : Nat) (x y : Index4), Index4.build std m (Pre.run C) mem = .ok x → Index4.build std m (Pre.run C) mem' = .ok y →
      save (fun V => V.index4) x = save (fun V => V.index4) y) := by
  refine ⟨fun x y hx hy => ?_, fun x y hx hy => ?_, fun x y hx hy => ?_, fun std m x y hx hy => ?_⟩
  · obtain ⟨file, z, h1, _, h3, h4, _⟩ := C45_saved1 hC hx mem'
    rw [hy] at h3
    cases h3
    rw [h1, h4]
  · obtain ⟨file, z, h1, _, h3, h4, _⟩ := C45_saved2 hC hx mem'
    rw [hy] at h3
    cases h3
    rw [h1, h4]
  · obtain ⟨file, z, h1, _, h3, h4, _⟩ := C45_saved3 hC hx mem'
    rw [hy] at h3
    cases h3
    rw [h1, h4]
  · obtain ⟨file, z, h1, _, h3, h4, _⟩ := C45_saved4 hC hx mem'
    rw [hy] at h3
    cases h3
    rw [h1, h4]

/-- two indexes of the same type give the same answers -/
theorem same_type {C : Coll} {run run' : StdLib → Ask → Scratch → M Scratch} {pre : List Str → Str → List Str → Prop} (hC : ValidColl C)
    (h : Serves C pre run) (h' : Serves C pre run') (std std' : StdLib) (a : Ask) (ha : a.Ok) {s s' : Scratch} (hs : Visited run s)
    (hs' : Visited run' s') : SameAnswer (run std a s) (run' std' a s') :=
  (h std a s ha (hs.wf h)).same hC.docs (fun _ _ => Iff.rfl) (h' std' a s' ha (hs'.wf h'))

variable {C : Coll} {mem : Nat → W}

/-- **C45**: a type 1 index that is saved and loaded answers every query as the original does. -/
theorem C45_answers1 (hC : ValidColl C) (hw : Suits1 C) {x : Index1} (hx : Index1.build (Pre.run C) mem = .ok x) (mem' : Nat → W) :
    ∃ file y, save (fun V => V.index1) x = .ok file ∧ load (fun V => V.index1) (Index1.blank mem') file = .ok y ∧
      ∀ std std' a s s', a.Ok → Visited x.ask s → Visited y.ask s' → SameAnswer (x.ask std a s) (y.ask std' a s') := by
  obtain ⟨file, y, h1, h2, h3, _⟩ := C45_saved1 hC hx mem'
  exact ⟨file, y, h1, h2, fun std std' a s s' ha hs hs' => same_type hC (Index1.serves hC (Index1.rep_of_build hC hw hx))
    (Index1.serves hC (Index1.rep_of_build hC hw h3)) std std' a ha hs hs'⟩

/-- **C45**: a type 2 index that is saved and loaded answers every query as the original does. -/
theorem C45_answers2 (hC : ValidColl C) (hw : Suits2 C) {x : Index2} (hx : Index2.build (Pre.run C) mem = .ok x) (mem' : Nat → W) :
    ∃ file y, save (fun V => V.index2) x = .ok file ∧ load (fun V => V.index2) (Index2.blank mem') file = .ok y ∧
      ∀ std std' a s s', a.Ok → Visited x.ask s → Visited y.ask s' → SameAnswer (x.ask std a s) (y.ask std' a s') := by
  obtain ⟨file, y, h1, h2, h3, _⟩ := C45_saved2 hC hx mem'
  exact ⟨file, y, h1, h2, fun std std' a s s' ha hs hs' => same_type hC (Index2.serves hC (Index2.rep_of_build hC hw hx))
    (Index2.serves hC (Index2.rep_of_build hC hw h3)) std std' a ha hs hs'⟩

/-- **C45**: a type 3 index that is saved and loaded answers every query as the original does. -/
theorem C45_answers3 (hC : ValidColl C) (hw : Suits3 C) {x : Index3} (hx : Index3.build (Pre.run C) mem = .ok x) (mem' : Nat → W) :
    ∃ file y, save (fun V => V.index3) x = .ok file ∧ load (fun V => V.index3) (Index3.blank mem') file = .ok y ∧
      ∀ std std' a s s', a.Ok → Visited x.ask s → Visited y.ask s' → SameAnswer (x.ask std a s) (y.ask std' a s') := by
  obtain ⟨file, y, h1, h2, h3, _⟩ := C45_saved3 hC hx mem'
  exact ⟨file, y, h1, h2, fun std std' a s s' ha hs hs' => same_type hC (Index3.serves hC (Index3.rep_of_build hC hw hx))
    (Index3.serves hC (Index3.rep_of_build hC hw h3)) std std' a ha hs hs'⟩

/-- Nothing about the query is left open by `Result4`: no complete term is known, or every completion with all of the known ones that
is found in one of the blocks that are looked at has, in each of them, no term or one that is found -/
def Settled (C : Coll) (B : List (List Str)) (q : Str) : Prop :=
  (∀ t ∈ completeTerms q, ¬ IsTerm C t) ∨ ∀ r ∈ C, (∀ t ∈ completeTerms q, IsTerm C t → t ∈ r.2) →
    (∃ b ∈ B, Looked C (lastTerm q) b ∧ FoundIn C (lastTerm q) b r.2) → ∀ b ∈ B, Looked C (lastTerm q) b → (∃ x ∈ r.2, x ∈ b) → FoundIn C (lastTerm q) b r.2

theorem result4_unique (hd : (C.map (·.1)).Nodup) {B : List (List Str)} {q : Str} (hq : Settled C B q) {S S' : Coll}
    (h : Result4 C B (completeTerms q) (lastTerm q) S) (h' : Result4 C B (completeTerms q) (lastTerm q) S') : S = S' := by
  have hinj : ∀ a b : Nat × List Str, a ∈ C → b ∈ C → a.1 = b.1 → a = b := by
    intro a b ha hb he
    obtain ⟨i, hi, rfl⟩ := List.mem_iff_getElem.mp ha
    obtain ⟨j, hj, rfl⟩ := List.mem_iff_getElem.mp hb
    have := (List.getElem_inj (i := i) (j := j) (h₀ := by simpa using hi) (h₁ := by simpa using hj) hd).mp (by simpa using he)
    subst this
    rfl
  by_cases hk : ∃ t ∈ completeTerms q, IsTerm C t
  · obtain ⟨a1, a2, a3⟩ := h.inter hk
    obtain ⟨b1, b2, b3⟩ := h'.inter hk
    rcases hq with hn | hq
    · obtain ⟨t, ht, hT⟩ := hk
      exact absurd hT (hn t ht)
    · refine List.Perm.eq_of_pairwise (le := fun a b => a.1 < b.1) ?_ a1 b1 ?_
      · intro a b _ _ h1 h2
        omega
      · rw [List.perm_ext_iff_of_nodup (a1.imp (fun h he => by rw [he] at h; omega)) (b1.imp (fun h he => by rw [he] at h; omega))]
        intro r
        constructor
        · intro hr
          obtain ⟨c1, c2, c3⟩ := a2 r hr
          exact b3 r (h.mem r hr) c1 c2 c3 (hq r (h.mem r hr) c1 c3)
        · intro hr
          obtain ⟨c1, c2, c3⟩ := b2 r hr
          exact a3 r (h'.mem r hr) c1 c2 c3 (hq r (h'.mem r hr) c1 c3)
  · have hn : ∀ t ∈ completeTerms q, ¬ IsTerm C t := fun t ht hT => hk ⟨t, ht, hT⟩
    obtain ⟨a1, a2⟩ := h.union hn
    obtain ⟨b1, b2⟩ := h'.union hn
    refine List.Perm.eq_of_pairwise (le := fun a b => a.1 ≤ b.1) ?_ a1 b1 ?_
    · intro a b ha hb h1 h2
      exact hinj a b (h.mem a ha) (h'.mem b hb) (Nat.le_antisymm h1 h2)
    · rw [List.perm_iff_count]
      intro r
      by_cases hr : r ∈ C
      · rw [a2 r hr, b2 r hr]
      · rw [List.count_eq_zero.mpr (fun h1 => hr (h.mem r h1)), List.count_eq_zero.mpr (fun h1 => hr (h'.mem r h1))]

/-- Two indexes of type 4 built from the same collection with the same block size answer every query alike, whatever was in memory and whatever the
libraries they were built with. -/
theorem C45_rebuilt4 (hC : ValidColl C) (hw : Suits4 C) {std₁ std₂ : StdLib} {m : Nat} {mem₁ mem₂ : Nat → W} {x y : Index4}
    (hx : Index4.build std₁ m (Pre.run C) mem₁ = .ok x) (hy : Index4.build std₂ m (Pre.run C) mem₂ = .ok y) :
    ∀ (std : StdLib) (a : Ask) (s s' : Scratch), std.ByKeys → a.Ok → s.WF → s'.WF → SameAnswer (x.ask std a s) (y.ask std a s') := by
  intro std a s s' hstd ha hs hs'
  obtain ⟨docss, rx⟩ := Index4.rep_of_build hC hw.toSuits3 hx
  obtain ⟨docss', ry⟩ := Index4.rep_of_build hC hw.toSuits3 hy
  obtain ⟨cj, q, k⟩ := a
  obtain ⟨a1, a2, a3⟩ := ha
  cases cj with
  | false =>
      exact Outcome.same hC.docs (fun _ _ => Iff.rfl) (Base.prefix_spec std hC.ready rx.base rx.dict rx.built a1 a2 a3 hs)
        (Base.prefix_spec std hC.ready ry.base ry.dict ry.built a1 a2 a3 hs')
  | true =>
      obtain ⟨S, h⟩ := Index4.conj_twin hC.ready hstd rx ry hw.ids a1
      obtain ⟨h1, h2⟩ := h k a2 a3 s s' hs hs'
      exact h1.same h2

/-- **C45**, type 4: the index that is saved and loaded answers every query as the original does. -/
theorem C45_answers4 (hC : ValidColl C) (hw : Suits4 C) {std₀ : StdLib} {m : Nat} {x : Index4}
    (hx : Index4.build std₀ m (Pre.run C) mem = .ok x) (mem' : Nat → W) :
    ∃ file y, save (fun V => V.index4) x = .ok file ∧ load (fun V => V.index4) (Index4.blank mem') file = .ok y ∧
      ∀ (std : StdLib) (a : Ask) (s s' : Scratch), std.ByKeys → a.Ok → s.WF → s'.WF → SameAnswer (x.ask std a s) (y.ask std a s') := by
  obtain ⟨file, y, h1, h2, h3, _⟩ := C45_saved4 hC hx mem'
  exact ⟨file, y, h1, h2, C45_rebuilt4 hC hw hx h3⟩

/-- Type 4, when the loaded index is used with another standard library: the answers to prefix queries are still the same, and those to the
conjunctive queries for which `Result4` leaves nothing open. For the other queries they need not be (`C06_library`). -/
theorem C45_answers4_libraries (hC : ValidColl C) (hw : Suits4 C) {std₀ : StdLib} {m : Nat} {x : Index4}
    (hx : Index4.build std₀ m (Pre.run C) mem = .ok x) {B : List (List Str)} (hB : IsBlocks C m B) (mem' : Nat → W) :
    ∃ file y, save (fun V => V.index4) x = .ok file ∧ load (fun V => V.index4) (Index4.blank mem') file = .ok y ∧
      ∀ (std std' : StdLib) (a : Ask) (s s' : Scratch), a.Ok → (a.conj = true → Settled C B a.text) → s.WF → s'.WF →
        SameAnswer (x.ask std a s) (y.ask std' a s') := by
  obtain ⟨file, y, h1, h2, h3, _⟩ := C45_saved4 hC hx mem'
  refine ⟨file, y, h1, h2, ?_⟩
  intro std std' a s s' ha hq hs hs'
  obtain ⟨docss, rx⟩ := Index4.rep_of_build hC hw.toSuits3 hx
  obtain ⟨docss', ry⟩ := Index4.rep_of_build hC hw.toSuits3 h3
  obtain ⟨cj, q, k⟩ := a
  obtain ⟨a1, a2, a3⟩ := ha
  cases cj with
  | false =>
      exact Outcome.same hC.docs (fun _ _ => Iff.rfl) (Base.prefix_spec std hC.ready rx.base rx.dict rx.built a1 a2 a3 hs)
        (Base.prefix_spec std' hC.ready ry.base ry.dict ry.built a1 a2 a3 hs')
  | true =>
      obtain ⟨S, r1, r2⟩ := Index4.conj_spec hC.ready std rx hw.ids a1
      obtain ⟨S', r1', r2'⟩ := Index4.conj_spec hC.ready std' ry hw.ids a1
      rw [C06_blocks_unique (hC.ready.blocks rx.inverted.cut) hB] at r1
      rw [C06_blocks_unique (hC.ready.blocks ry.inverted.cut) hB] at r1'
      have := result4_unique hC.docs (hq rfl) r1 r1'
      subst this
      exact (r2 q a1 rfl (fun _ => Iff.rfl) k a2 a3 s hs).same (r2' q a1 rfl (fun _ => Iff.rfl) k a2 a3 s' hs')

/-- the sample, in three blocks, and the query `"b "`, for which all terms are found in each of the blocks -/
example : IsBlocks sampleColl 3 [[[97, 98]], [[98]], [[99]]] ∧ Settled sampleColl [[[97, 98]], [[98]], [[99]]] [98, 32] ∧
    ∃ t ∈ completeTerms [98, 32], IsTerm sampleColl t := by
  have hq : completeTerms [98, 32] = [[98]] ∧ lastTerm [98, 32] = [] := by decide
  refine ⟨sampleColl_blocks.1, Or.inr ?_, [98], by decide, (sampleColl_terms _).mpr (by decide)⟩
  rw [hq.2]
  rintro r _ _ _ b _ _ ⟨x, hx, hxb⟩
  exact ⟨x, hx, hxb, sampleColl_reaches x⟩

/-- the sample can be saved and loaded with each of the types -/
example (mem mem' : Nat → W) (std : StdLib) :
    (∃ x : Index1, ∃ file, Index1.build (Pre.run sampleColl) mem = .ok x ∧ save (fun V => V.index1) x = .ok file) ∧
    (∃ x : Index2, ∃ file, Index2.build (Pre.run sampleColl) mem = .ok x ∧ save (fun V => V.index2) x = .ok file) ∧
    (∃ x : Index3, ∃ file, Index3.build (Pre.run sampleColl) mem = .ok x ∧ save (fun V => V.index3) x = .ok file) ∧
    (∃ x : Index4, ∃ file, Index4.build std 3 (Pre.run sampleColl) mem = .ok x ∧ save (fun V => V.index4) x = .ok file) := by
  obtain ⟨x, h1, _⟩ := Index1.exists sampleColl_valid.ready sampleColl_suits.toSuits1 mem
  obtain ⟨y, h2, _⟩ := Index2.exists sampleColl_valid.ready sampleColl_suits mem
  obtain ⟨z, h3, _⟩ := Index3.exists sampleColl_valid.ready sampleColl_suits.to3 mem
  obtain ⟨w, _, h4, _⟩ := Index4.exists sampleColl_valid.ready sampleColl_suits.to3 std 3 mem
  obtain ⟨f1, _, g1, _⟩ := C45_saved1 sampleColl_valid h1 mem'
  obtain ⟨f2, _, g2, _⟩ := C45_saved2 sampleColl_valid h2 mem'
  obtain ⟨f3, _, g3, _⟩ := C45_saved3 sampleColl_valid h3 mem'
  obtain ⟨f4, _, g4, _⟩ := C45_saved4 sampleColl_valid h4 mem'
  exact ⟨⟨x, f1, h1, g1⟩, ⟨y, f2, h2, g2⟩, ⟨z, f3, h3, g3⟩, ⟨w, f4, h4, g4⟩⟩

end AC.Props
