import Verif.Proofs.LossyBuild
import Verif.Proofs.Type4
/-!
# Conjunctive search with type 4 when the number of terms is a multiple of 17

Soundness only here; the exact outcome is in `Proofs/Lossy4Exact`.
-/
namespace AC
open Spec

/-- like `Index4.Rep`, for a number of terms that is a multiple of 17 -/
structure Index4.Rep17 (x : Index4) (m : Nat) (F : Files) (docss : List (List Nat)) : Prop where
  base : x.toBase.Rep F.mapped
  dict : Lossy x.dict F.terms
  built : FcDict.build F.terms = .ok x.dict
  inverted : x.inverted.Rep F.univ m F.inverted docss

/-- the outcome of a search that is only sound: it shows some completions with property `P`, or reads out of bounds when one of them has a lost
term -/
def Sound17 (C : Coll) (terms : List Str) (P : List Str → Prop) (k : Nat) (o : M Scratch) : Prop :=
  ∃ E : Coll, E.length ≤ k ∧ (∀ r ∈ E, r ∈ C ∧ P r.2) ∧ ((∀ r ∈ E, ∀ t ∈ r.2, ¬ AmongLast C 16 t) → Shows terms E o) ∧
    ((∃ r ∈ E, ∃ t ∈ r.2, AmongLast C 16 t) → o = .error .oob)

theorem Outcome17.sound {C : Coll} {terms : List Str} {P : List Str → Prop} {k : Nat} {o : M Scratch} (h : Outcome17 C terms P k o) :
    Sound17 C terms P k o := by
  obtain ⟨E, b, h1, h2⟩ := h
  exact ⟨E, b.le, b.sound, h1, h2⟩

section
variable {C : Coll} {F : Files} (h : Ready C F)
include h

theorem Index4.build_lossy (h17 : F.terms.length % 17 = 0) (hc17 : F.mapped.length % 17 ≠ 0)
    (h0 : ∃ r ∈ C, r.1 ≠ 0) (std : StdLib) (m : Nat) (mem : Nat → W) :
    ∃ x docss, Index4.build std m F mem = .ok x ∧ x.Rep17 m F docss := by
  obtain ⟨ib, b1, b2, b3⟩ := BlkBuilder.build_spec h.blkLists std m
  obtain ⟨ii, docss, b4, b5⟩ := b3 (fun i => mem (7 + i))
  obtain ⟨x, x1, x2, x3, x4⟩ := Base.build_lossy h h17 hc17 h0 mem
  refine ⟨⟨x, ii⟩, docss, ?_, ⟨x2, x3, x4, b5⟩⟩
  unfold Index4.build
  rw [b1, M.ok_bind, x1, M.ok_bind, b4, M.ok_bind]

theorem Ready.sound17 (hn : 16 ≤ F.terms.length) {P : List Str → Prop} {k : Nat} {docs : List Nat}
    (hk : docs.length ≤ k) (ht : ∀ d ∈ docs, ∃ c, (d, c) ∈ C ∧ P c) {s : Scratch} (hs : s.WF)
    {d : FC} (hdict : FcDict.build F.terms = .ok d) {o : M Scratch}
    (hd : DecodedL d F.terms s docs (docs.map (fun d => F.forward.getD d [])) o) : Sound17 C F.terms P k o := by
  have hdoc : ∀ d ∈ docs, ∃ c, (d, c) ∈ C := fun d hd => by obtain ⟨c, hc, _⟩ := ht d hd; exact ⟨c, hc⟩
  have key : ∀ d ∈ docs, ∀ t ∈ F.forward.getD d [], (AmongLast C 16 (F.terms.getD (t - 1) []) ↔ F.terms.length - 16 < t) := by
    intro d hd t htt
    obtain ⟨c, hc⟩ := hdoc d hd
    have := h.idsIn hc t htt
    rw [List.getD_eq_getElem?_getD, List.getElem?_eq_getElem (show t - 1 < F.terms.length by omega), Option.getD_some, h.amongLast hn (by omega)]
    omega
  refine ⟨docs.map (AC.rowOf F), by simpa using hk, ?_, ?_, ?_⟩
  · intro r hr
    obtain ⟨d, hd', rfl⟩ := List.mem_map.mp hr
    obtain ⟨c, hc, hp⟩ := ht d hd'
    rw [h.rowOf hc]
    exact ⟨hc, hp⟩
  · intro hk
    refine h.shows hdoc hs hdict (hd.1 ?_)
    intro ts hts t htt
    obtain ⟨d, hdd, rfl⟩ := List.mem_map.mp hts
    have h1 := hk _ (List.mem_map.mpr ⟨d, hdd, rfl⟩) _ (List.mem_map.mpr ⟨t, htt, rfl⟩)
    rw [key d hdd t htt] at h1
    omega
  · rintro ⟨r, hr, t, htr, hl⟩
    obtain ⟨d, hdd, rfl⟩ := List.mem_map.mp hr
    obtain ⟨t', htt, rfl⟩ := List.mem_map.mp htr
    exact hd.2 ⟨_, List.mem_map.mpr ⟨d, hdd, rfl⟩, t', htt, (key d hdd t' htt).mp hl⟩

theorem Ready.inRange17 {last : Str} {b e lo hi d : Nat} (hr : KeptRange C F last b e) (hi : InRange F.inverted lo hi (b + 1) (e + 1) d) :
    ∃ c, (d, c) ∈ C ∧ ∃ x ∈ c, ReachesKept C last x := by
  obtain ⟨t, _, _, h3, h4, ht⟩ := hi
  obtain ⟨x, hx, rfl, c, hc, hxc⟩ := h.posted_iff.mp ht
  exact ⟨c, hc, x, hxc, (hr.rank hx).mp ⟨h3, h4⟩⟩

/-- the documents that are found have the complete terms that are kept, and a term for the incomplete one -/
theorem Index4.scores_kept (std : StdLib) {m : Nat} {x : BlkIdx} {docss : List (List Nat)} (hx : x.Rep F.univ m F.inverted docss) (hn : 16 ≤ F.terms.length)
    (hu : F.univ + 1 < 2 ^ 32) {complete : List Str} {last : Str} {r : Range} (hr : KeptRange C F last r.b r.e) {k : Nat} (hk : 1 ≤ k) (hk' : k ≤ MAX_K)
    {scores : List Nat} (hsl : scores.length = MAX_K) :
    ∃ scores' n, conjScores std x (keptPfx F complete) ⟨r.b + 1, r.e + 1⟩ k scores = .ok (scores', n) ∧
      scores'.length = scores.length ∧ n ≤ k ∧ ∀ d ∈ scores'.take n, ∃ c, (d, c) ∈ C ∧ ConjKept C complete last c := by
  have hlt := hr.lt
  have hle := hr.le
  by_cases hkn : keptPfx F complete = []
  · obtain ⟨scores', n, S, t1, t2, t3, t4, t5, t6⟩ := Index4.scores_union hx (by omega) std (r := ⟨r.b + 1, r.e + 1⟩) (by simp)
      (by simpa using hle) (by rw [h.files.numLists]; simp only; omega) hk (scores := scores) (by rw [hsl]; exact hk')
    refine ⟨scores', n, by rw [hkn]; exact t1, t2, t3, ?_⟩
    intro d hd
    rw [t4] at hd
    have hd := List.mem_of_mem_take hd
    have := List.count_pos_iff.mpr hd
    rw [t6, List.countP_pos_iff] at this
    obtain ⟨y, _, hy⟩ := this
    obtain ⟨c, hc, z, hz, hre⟩ := h.inRange17 hr (hasIn_inRange.mp hy)
    refine ⟨c, hc, ?_, z, hz, hre⟩
    intro t ht hkt
    have : rankOf F.terms t ∈ keptPfx F complete :=
      List.mem_map.mpr ⟨t, List.mem_filter.mpr ⟨ht, by simpa using (show t ∈ F.kept from (h.kept hn t).mp hkt)⟩, rfl⟩
    rw [hkn] at this
    simp at this
  · obtain ⟨scores', n, R, t1, t2, t3, t4, t5, t6, t7⟩ := Index4.scores_inter hx hu std hkn
      (fun t ht => by have := h.keptPfx_in t ht; exact this) (r := ⟨r.b + 1, r.e + 1⟩) (by simp) (by simpa using hle)
      (by rw [h.files.numLists]; simp only; omega) hk (scores := scores) (by rw [hsl]; exact hk')
    refine ⟨scores', n, t1, t2, t3, ?_⟩
    intro d hd
    rw [t4] at hd
    have hd := List.mem_of_mem_take hd
    obtain ⟨a1, _, y, _, hy⟩ := t6 d hd
    obtain ⟨c, hc, z, hz, hre⟩ := h.inRange17 hr hy
    refine ⟨c, hc, ?_, z, hz, hre⟩
    intro t ht hkt
    have hkt' : t ∈ F.kept := (h.kept hn t).mp hkt
    have hp := a1 _ (List.mem_map.mpr ⟨t, List.mem_filter.mpr ⟨ht, by simpa using hkt'⟩, rfl⟩)
    obtain ⟨w, hw, hwt, c', hc', hwc⟩ := h.posted_iff.mp hp
    rw [h.unique hc hc']
    have : w = t := rankOf_inj hw (Files.kept_sub hkt') hwt
    rw [← this]; exact hwc

/-- conjunctive search with type 4 -/
theorem Index4.conj_lossy (std : StdLib) {m : Nat} {x : Index4} {docss : List (List Nat)} (hx : x.Rep17 m F docss) (hids : ∀ r ∈ C, r.1 < 2 ^ 32 - 2)
    {q : Str} (hq : IsText q) {k : Nat} (hk : 1 ≤ k) (hk' : k ≤ MAX_K) {s : Scratch} (hs : s.WF) :
    Sound17 C F.terms (ConjKept C (completeTerms q) (lastTerm q)) k (x.conjTopk std q k s) := by
  have hn : 16 ≤ F.terms.length := by have := hx.dict.pos; have := hx.dict.mod; omega
  have hu : F.univ + 1 < 2 ^ 32 := by
    obtain ⟨r, hr, he⟩ := h.files.univ
    have := hids r hr
    omega
  have ha := analyse_lossy h hx.dict hq false hs.dbuf
  unfold Index4.conjTopk
  generalize analyse x.dict q false s = a at ha
  cases ha with
  | unknown buf hb hm hu => simp at hm
  | nothing buf hb hu => exact (outcome17_none (wf_init hs hb) (Pool.Holds.init _) hx.built (h.not_conjKept hu)).sound
  | some buf hb r hr hk2 =>
      rw [M.ok_bind]
      dsimp only
      have hlt := hr.lt
      have hle := hr.le
      have hsl := hs.scores
      have key := Index4.scores_kept h std hx.inverted hn hu (complete := completeTerms q) hr hk hk' (scores := s.pool.init.scores) hsl
      obtain ⟨scores', n, t1, t2, t3, t4⟩ := key
      unfold keptPfx at t1
      rw [t1, M.ok_bind]
      have hsn : n ≤ scores'.length := by rw [t2, Pool.init, hsl]; omega
      obtain ⟨s1, w1, w2⟩ := Base.extract_lossy hx.base hx.dict (fun d => F.forward.getD d []) (n := n) (wf_scores (wf_init hs hb) t2)
        (holds_scores (Pool.Holds.init _) _) (by dsimp only [Pool.init]; exact hsn) (by
          intro d hd
          obtain ⟨c, hc, _⟩ := t4 d hd
          exact ⟨h.mapped_mem hc, h.idsIn hc⟩)
      exact h.sound17 hn (by simp; omega) t4 w1 hx.built w2

end
end AC
