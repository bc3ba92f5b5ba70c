import Verif.Spec.Actual
import Verif.Proofs.IndexBuild
import Verif.Proofs.Results
/-!
# The queries: what they have in common
-/
namespace AC
open Spec

/-- the sizes of the buffers, which never change -/
structure Scratch.WF (s : Scratch) : Prop where
  scores : s.pool.scores.length = MAX_K
  data : s.pool.data.length = POOL_SIZE
  dbuf : s.dbuf.length = FcDict.bufSize
  cbuf : s.cbuf.length = IntDict.bufSize
  shape : Shape s.compl s.sizes

theorem Scratch.fresh_wf : Scratch.fresh.WF :=
  ⟨List.length_replicate, List.length_replicate, List.length_replicate, List.length_replicate,
    ⟨List.length_replicate, by intro row h; rw [(List.mem_replicate.mp h).2]; exact List.length_replicate, List.length_replicate⟩⟩

/-- the texts of the completions `E` can be decoded into the pool, given the terms of the dictionary: the exact condition -/
def Fits (terms : List Str) (E : Coll) : Prop :=
  ∃ d, FcDict.build terms = .ok d ∧ fitsPool d (E.map (fun r => r.2.map (rankOf terms))) = true

/-- The results of a query are the completions `E`, with their texts, in a state where queries can be run again; unless
the texts do not fit, in which case bytes are written outside of the pool. -/
def Shows (terms : List Str) (E : Coll) (o : M Scratch) : Prop :=
  (o = .error .oob ∧ ¬ Fits terms E ∧ POOL_SIZE < room E + 2 * MAX_CHARS) ∨
  ∃ s, o = .ok s ∧ s.WF ∧ s.pool.results = .ok (E.map shown) ∧ Fits terms E ∧ room E ≤ POOL_SIZE ∧
    s.pool.Holds (E.map (fun r => joined r.2))

/-- The outcome of a query: the best completions with property `P`, with their texts, in a state where queries can be run again; unless
the texts do not fit, in which case bytes are written outside of the pool. -/
def Outcome (C : Coll) (terms : List Str) (P : List Str → Prop) (k : Nat) (o : M Scratch) : Prop :=
  ∃ E, Spec.Best C P k E ∧ Shows terms E o

/-! ## From documents to completions -/

section docs
variable {C : Coll} {F : Files} (h : Ready C F)
include h

theorem Ready.unique {d : Nat} {c c' : List Str} (hc : (d, c) ∈ C) (hc' : (d, c') ∈ C) : c = c' := by
  have h1 := h.files.forward _ hc
  have h2 := h.files.forward _ hc'
  rw [h1] at h2
  exact map_rankOf_inj (h.mem hc) (h.mem hc') h2

/-- the terms of a document -/
theorem Ready.terms_of {d : Nat} {c : List Str} (hc : (d, c) ∈ C) :
    (F.forward.getD d []).map (fun t => F.terms.getD (t - 1) []) = c := by
  rw [h.files.forward _ hc, List.map_map]
  conv => rhs; rw [← List.map_id c]
  apply List.map_congr_left
  intro t ht
  exact getD_rankOf (h.mem hc t ht)

theorem Ready.best {P : List Str → Prop} {k : Nat} {docs : List Nat} (ht : IsTopK (Doc C P) k docs) :
    Spec.Best C P k (docs.map (fun d => (d, (F.forward.getD d []).map (fun t => F.terms.getD (t - 1) [])))) := by
  refine ⟨?_, ?_, by simpa using ht.le, ?_⟩
  · intro r hr
    obtain ⟨d, hd, rfl⟩ := List.mem_map.mp hr
    obtain ⟨c, hc, hp⟩ := ht.sound d hd
    rw [h.terms_of hc]
    exact ⟨hc, hp⟩
  · rw [List.pairwise_map]; exact ht.sorted
  · intro r hr hp hn
    have hd : r.1 ∉ docs := by
      intro hd
      apply hn
      refine List.mem_map.mpr ⟨r.1, hd, ?_⟩
      rw [h.terms_of (c := r.2) hr]
    obtain ⟨h1, h2⟩ := ht.complete r.1 ⟨r.2, hr, hp⟩ hd
    refine ⟨by simpa using h1, ?_⟩
    intro e he
    obtain ⟨d, hd, rfl⟩ := List.mem_map.mp he
    exact h2 d hd

theorem Ready.idsIn {d : Nat} {c : List Str} (hc : (d, c) ∈ C) : IdsIn F.terms (F.forward.getD d []) := by
  rw [h.files.forward _ hc]
  intro t ht
  obtain ⟨s, hs, rfl⟩ := List.mem_map.mp ht
  exact ⟨rankOf_pos s, rankOf_le (h.mem hc s hs)⟩

theorem Ready.mapped_mem {d : Nat} {c : List Str} (hc : (d, c) ∈ C) : (d, F.forward.getD d []) ∈ F.mapped := by
  rw [h.files.mapped, h.files.forward _ hc]
  exact List.mem_map.mpr ⟨(d, c), hc, rfl⟩

theorem Ready.lt_forward {d : Nat} {c : List Str} (hc : (d, c) ∈ C) : d < F.forward.length := by
  rw [h.files.numDocs]; exact h.files.lt_univ _ hc

theorem Ready.tss_eq {docs : List Nat} (ht : ∀ d ∈ docs, ∃ c, (d, c) ∈ C) :
    (docs.map (fun d => (d, (F.forward.getD d []).map (fun t => F.terms.getD (t - 1) [])))).map (fun r => r.2.map (rankOf F.terms)) =
      docs.map (fun d => F.forward.getD d []) := by
  rw [List.map_map]
  apply List.map_congr_left
  intro d hd
  obtain ⟨c, hc⟩ := ht d hd
  dsimp only [Function.comp]
  rw [h.terms_of hc, h.files.forward _ hc]

theorem Ready.shows {docs : List Nat} (ht : ∀ d ∈ docs, ∃ c, (d, c) ∈ C) {s : Scratch} (hs : s.WF)
    {d : FC} (hdict : FcDict.build F.terms = .ok d) {o : M Scratch}
    (hd : Decoded d F.terms s docs (docs.map (fun d => F.forward.getD d [])) o) :
    Shows F.terms (docs.map (fun d => (d, (F.forward.getD d []).map (fun t => F.terms.getD (t - 1) [])))) o := by
  have hroom : ((docs.map (fun d => F.forward.getD d [])).map (textOf F.terms)).flatten.length =
      room (docs.map (fun d => (d, (F.forward.getD d []).map (fun t => F.terms.getD (t - 1) [])))) := by
    unfold room
    rw [List.length_flatten, List.map_map, List.map_map, List.map_map]; rfl
  have hzip : docs.zip ((docs.map (fun d => F.forward.getD d [])).map (textOf F.terms)) =
      (docs.map (fun d => (d, (F.forward.getD d []).map (fun t => F.terms.getD (t - 1) [])))).map shown := by
    rw [List.map_map, List.map_map]
    clear hd ht hroom
    induction docs with
    | nil => rfl
    | cons d ds ih => simp only [List.map_cons, List.zip_cons_cons, ih]; rfl
  rcases hd with ⟨e1, e0, e2⟩ | ⟨p, e1, e2, e3, e4, e0, e5, e6⟩
  · left
    rw [hs.data, hroom] at e2
    refine ⟨e1, ?_, e2⟩
    rintro ⟨d', hd', hf⟩
    rw [hdict] at hd'
    cases hd'
    rw [h.tss_eq ht, e0] at hf
    simp at hf
  · right
    rw [hroom, hs.data] at e5
    rw [hzip] at e4
    refine ⟨_, e1, ⟨by simp only; rw [e2]; exact hs.scores, by simp only; rw [e3]; exact hs.data, hs.dbuf, hs.cbuf, hs.shape⟩, e4, ?_, e5, ?_⟩
    rotate_left
    · rw [List.map_map] at e6 ⊢; exact e6
    exact ⟨d, hdict, by rw [h.tss_eq ht, e0]⟩

theorem Ready.outcome {P : List Str → Prop} {k : Nat} {docs : List Nat} (ht : IsTopK (Doc C P) k docs) {s : Scratch} (hs : s.WF)
    {d : FC} (hdict : FcDict.build F.terms = .ok d) {o : M Scratch}
    (hd : Decoded d F.terms s docs (docs.map (fun d => F.forward.getD d [])) o) : Outcome C F.terms P k o :=
  ⟨_, h.best ht, h.shows (fun d hd => by obtain ⟨c, hc, _⟩ := ht.sound d hd; exact ⟨c, hc⟩) hs hdict hd⟩

end docs

theorem IsTopK_nil {P : Nat → Prop} {k : Nat} (h : ∀ x, ¬ P x) : IsTopK P k [] :=
  ⟨by simp, by simp, by simp, fun x hx => absurd hx (h x)⟩

/-- nothing is found -/
theorem outcome_none {C : Coll} {P : List Str → Prop} {k : Nat} {s : Scratch} (hs : s.WF) (hp : s.pool.Holds [])
    {terms : List Str} {d : FC} (hdict : FcDict.build terms = .ok d) (h : ∀ r ∈ C, ¬ P r.2) : Outcome C terms P k (.ok s) := by
  refine ⟨[], ⟨by simp, by simp, by simp, fun r hr hp => absurd hp (h r hr)⟩, Or.inr ⟨s, rfl, hs, ?_, ⟨d, hdict, rfl⟩, by simp [room], by simpa using hp⟩⟩
  rw [hp.results (by simp)]; simp

theorem Outcome.congr {C : Coll} {P Q : List Str → Prop} {k : Nat} {terms : List Str} {o : M Scratch} (h : Outcome C terms P k o)
    (hpq : ∀ r ∈ C, P r.2 ↔ Q r.2) : Outcome C terms Q k o := by
  obtain ⟨E, b, h⟩ := h
  exact ⟨E, ⟨fun r hr => ⟨(b.sound r hr).1, (hpq r (b.sound r hr).1).mp (b.sound r hr).2⟩, b.sorted, b.le,
    fun r hr hq => b.complete r hr ((hpq r hr).mpr hq)⟩, h⟩

/-! ## The terms of the query -/

theorem Ready.isTerm {C : Coll} {F : Files} (h : Ready C F) (t : Str) : IsTerm C t ↔ t ∈ F.terms := (h.files.memTerms t).symm

theorem Ready.isFirst {C : Coll} {F : Files} (h : Ready C F) {i : Nat} (hi : i < F.terms.length) : IsFirstTerm C F.terms[i] ↔ i = 0 := by
  have hs := h.files.terms
  constructor
  · rintro ⟨_, h2⟩
    rcases Nat.eq_zero_or_pos i with h0 | h0
    · exact h0
    · exfalso
      exact h2 F.terms[0] ((h.isTerm _).mpr (List.getElem_mem _)) ((List.pairwise_iff_getElem.mp hs) 0 i (by omega) hi h0)
  · rintro rfl
    refine ⟨(h.isTerm _).mpr (List.getElem_mem _), ?_⟩
    intro t ht hlt
    obtain ⟨j, hj, rfl⟩ := List.getElem_of_mem ((h.isTerm _).mp ht)
    rcases Nat.eq_zero_or_pos j with h0 | h0
    · subst h0; exact List.lt_irrefl _ hlt
    · exact List.lt_irrefl _ (List.lt_trans hlt ((List.pairwise_iff_getElem.mp hs) 0 j (by omega) hj h0))

theorem Ready.reaches {C : Coll} {F : Files} (h : Ready C F) {last : Str} {i : Nat} (hi : i < F.terms.length) :
    Reaches C last F.terms[i] ↔ last <+: F.terms[i] ∧ ¬ (i = 0 ∧ last ≠ [] ∧ last ≠ F.terms[i]) := by
  unfold Reaches
  rw [h.isFirst hi]
  constructor
  · rintro ⟨h1, h2⟩
    refine ⟨h1, ?_⟩
    rintro ⟨h0, h3, h4⟩
    rcases h2 h0 with h | h
    · exact h3 h
    · exact h4 h
  · rintro ⟨h1, h2⟩
    refine ⟨h1, fun h0 => ?_⟩
    by_cases h3 : last = []
    · exact Or.inl h3
    · by_cases h4 : last = F.terms[i]
      · exact Or.inr h4
      · exact absurd ⟨h0, h3, h4⟩ h2

/-- the range `[b, e]` (from 0) is that of the terms found for `last` -/
structure LastRange (C : Coll) (F : Files) (last : Str) (b e : Nat) : Prop where
  le : b ≤ e
  lt : e < F.terms.length
  iff : ∀ i (hi : i < F.terms.length), (b ≤ i ∧ i ≤ e) ↔ Reaches C last F.terms[i]

theorem LastRange.rank {C : Coll} {F : Files} {last : Str} {b e : Nat} (h : LastRange C F last b e) {x : Str} (hx : x ∈ F.terms) :
    (b + 1 ≤ rankOf F.terms x ∧ rankOf F.terms x ≤ e + 1) ↔ Reaches C last x := by
  have hi := List.idxOf_lt_length_iff.mpr hx
  have := h.iff (F.terms.idxOf x) hi
  rw [List.getElem_idxOf] at this
  rw [← this]
  unfold rankOf
  omega

/-- the two outcomes of `analyse` -/
inductive Analysed (C : Coll) (F : Files) (q : Str) (must : Bool) (s : Scratch) : M (Scratch × Option (Ids × Range)) → Prop
  | unknown (buf : Str) (hb : buf.length = s.dbuf.length) (hm : must = true) (hu : ∃ t ∈ completeTerms q, ¬ IsTerm C t) :
      Analysed C F q must s (.ok ({ s with pool := s.pool.init, dbuf := buf }, none))
  | nothing (buf : Str) (hb : buf.length = s.dbuf.length) (hu : ∀ x, IsTerm C x → ¬ Reaches C (lastTerm q) x) :
      Analysed C F q must s (.ok ({ s with pool := s.pool.init, dbuf := buf }, none))
  | some (buf : Str) (hb : buf.length = s.dbuf.length) (r : Range) (hr : LastRange C F (lastTerm q) r.b r.e)
      (hk : must = true → ∀ t ∈ completeTerms q, t ∈ F.terms) :
      Analysed C F q must s (.ok ({ s with pool := s.pool.init, dbuf := buf },
        Option.some (((completeTerms q).filter (fun t => decide (t ∈ F.terms))).map (rankOf F.terms), r)))

theorem analyse_spec {C : Coll} {F : Files} (h : Ready C F) {d : FC} (R : FC.Rep Elem.byte MAX_CHARS d F.terms) {q : Str} (hq : IsText q)
    (must : Bool) {s : Scratch} (hs : s.dbuf.length = FcDict.bufSize) : Analysed C F q must s (analyse d q must s) := by
  have v := h.validTerms
  obtain ⟨ok, pfx, suffix, buf, p1, p2, p3, p4⟩ := parse_spec v (Locates.of_rep v R (n := FcDict.bufSize) (by decide)) must hq s.dbuf hs
  unfold analyse
  rw [p1, M.ok_bind]
  dsimp only
  cases ok with
  | false =>
      rw [if_neg (by simp)]
      refine Analysed.unknown buf p2 ?_ ?_
      · cases must with
        | true => rfl
        | false => exact absurd (p3.mpr (by simp)) (by simp)
      · apply Classical.byContradiction
        intro hc
        have : false = true := p3.mpr (by
          intro _ t ht
          apply Classical.byContradiction
          intro hn
          exact hc ⟨t, ht, fun h' => hn ((h.isTerm t).mp h')⟩)
        simp at this
  | true =>
      rw [if_pos rfl]
      obtain ⟨q1, q2⟩ := p4 rfl
      subst q1 q2
      have ht : IsText (lastTerm q) := fun c hc => hq c (lastTerm_subset q hc)
      obtain ⟨r, buf', l1, l2, l3⟩ := FcDict.locatePrefix_exact v R ht buf (by rw [p2, hs]; decide)
      rw [l1, M.ok_bind]
      dsimp only
      rcases l3 with ⟨e1, e2⟩ | ⟨e1, e2, e3⟩
      · subst e1
        rw [if_pos (by decide)]
        refine Analysed.nothing buf' (by omega) ?_
        intro x hx hr
        obtain ⟨i, hi, rfl⟩ := List.getElem_of_mem ((h.isTerm x).mp hx)
        obtain ⟨r1, r2⟩ := (h.reaches hi).mp hr
        exact r2 (e2 i hi r1)
      · have hninv : r.isInvalid = false := by
          have := v.count
          simp only [Range.isInvalid, NOT_FOUND, Bool.or_eq_false_iff, beq_eq_false_iff_ne, decide_eq_false_iff_not]
          omega
        rw [if_neg (by simp [hninv])]
        exact Analysed.some buf' (by omega) r ⟨e1, e2, fun i hi => by rw [e3 i hi, h.reaches hi]⟩ (p3.mp rfl)

end AC
