import Verif.Proofs.Beyond
/-!
# Conjunctive queries with type 4 and any positive `k`
-/
namespace AC
open Spec

/-- there are `B` results at most -/
def AtMostN (B : Nat) (o : M (List Nat × Nat)) : Prop := ∀ (sc : List Nat) (n' : Nat), o = .ok (sc, n') → n' ≤ B

namespace AtMostN
variable {B : Nat}

theorem error {f : Fault} : AtMostN B (.error f) := by
  intro sc n' h; cases h

theorem ok {sc : List Nat} {m : Nat} (h : m ≤ B) : AtMostN B (.ok (sc, m)) := by
  intro sc n' h; cases h; assumption

theorem bind {α : Type} {x : M α} {f : α → M (List Nat × Nat)} (h : ∀ a, AtMostN B (f a)) : AtMostN B (x >>= f) := by
  cases x with
  | error e => exact error
  | ok a => exact h a

theorem ite {p : Prop} [Decidable p] {x y : M (List Nat × Nat)} (hx : AtMostN B x) (hy : AtMostN B y) : AtMostN B (if p then x else y) := by
  split <;> assumption

theorem le {A : Nat} {o : M (List Nat × Nat)} (h : AtMostN A o) (hm : A ≤ B) : AtMostN B o :=
  fun sc n' e => Nat.le_trans (h sc n' e) hm

end AtMostN

namespace Index4

theorem unionLoop_bound {std : StdLib} {ii : BlkIdx} {r : Range} {k : Nat} : ∀ (fuel : Nat) (q : List Blk) (buf : List Nat) (n : Nat),
    AtMostN (n + fuel) (unionLoop std ii r k fuel q buf n) := by
  intro fuel
  induction fuel with
  | zero => intro q buf n; exact AtMostN.error
  | succ fuel ih =>
      intro q buf n
      unfold unionLoop
      cases q with
      | nil => exact .ok (by omega)
      | cons z zs =>
          refine .bind fun (found, z) => ?_
          dsimp only
          have hrec : ∀ m, m ≤ n + 1 → ∀ buf, AtMostN (n + (fuel + 1)) (if m = k then .ok (buf, m) else do
              let d ← z.docs.next ii.lists
              let q ← restore std d.hasNext ({ z with docs := d } :: zs)
              unionLoop std ii r k fuel q buf m) :=
            fun m hm buf => .ite (.ok (by omega)) (.bind fun d => .bind fun q => (ih q buf m).le (by omega))
          cases found with
          | false => exact hrec n (by omega) buf
          | true =>
              unfold record
              rw [if_pos rfl]
              cases hw : wr buf n (id32 z.docs.value) with
              | error f => exact AtMostN.error
              | ok buf' => exact hrec (n + 1) (by omega) buf'

theorem conjLoop_bound {std : StdLib} {ii : BlkIdx} {r : Range} {k : Nat} : ∀ (fuel : Nat) (it : BInter) (q : List Blk) (buf : List Nat) (n : Nat),
    AtMostN (n + fuel) (conjLoop std ii r k fuel it q buf n) := by
  intro fuel
  induction fuel with
  | zero => intro it q buf n; exact AtMostN.error
  | succ fuel ih =>
      intro it q buf n
      unfold conjLoop
      refine .ite (.bind fun (checked, found, q) => ?_) (.ok (by omega))
      dsimp only
      have hrec : ∀ m, m ≤ n + 1 → ∀ buf, AtMostN (n + (fuel + 1)) (if checked = true ∧ m = k then .ok (buf, m) else do
          let it ← it.inc ii
          conjLoop std ii r k fuel it q buf m) :=
        fun m hm buf => .ite (.ok (by omega)) (.bind fun it => (ih it q buf m).le (by omega))
      cases found with
      | false => exact hrec n (by omega) buf
      | true =>
          unfold record
          rw [if_pos rfl]
          cases hw : wr buf n (id32 it.candidate) with
          | error f => exact AtMostN.error
          | ok buf' => exact hrec (n + 1) (by omega) buf'

theorem conjScores_bound (std : StdLib) (ii : BlkIdx) (pfx : Ids) (r : Range) :
    ∃ B, ∀ (k : Nat) (scores : List Nat), AtMostN B (conjScores std ii pfx r k scores) := by
  unfold conjScores
  cases blocks std ii r with
  | error f => exact ⟨0, fun k scores => AtMostN.error⟩
  | ok q =>
      refine ⟨q.length * (ii.numDocs + 1) + 1 + (ii.numDocs + 1), fun k scores => ?_⟩
      rw [M.ok_bind]
      exact .ite ((unionLoop_bound _ _ _ _).le (by omega)) (.bind fun it => (conjLoop_bound _ _ _ _ _).le (by omega))

/-- from a run that is not stopped by its limit, every run -/
theorem conjScores_beyond {std : StdLib} {ii : BlkIdx} {pfx : Ids} {r : Range} {K n : Nat} {o sc : List Nat}
    (h : conjScores std ii pfx r K o = .ok (sc, n)) (hn : n < K) (hn' : n ≤ sc.length) {k : Nat} (hk : 1 ≤ k) {scores : List Nat} (hlen : scores.length ≤ o.length)
    (hsc : sc.length = o.length) :
    (min k n ≤ scores.length → ∃ scores', conjScores std ii pfx r k scores = .ok (scores', min k n) ∧ scores'.length = scores.length ∧
      scores'.take (min k n) = sc.take (min k n)) ∧
    (scores.length < min k n → conjScores std ii pfx r k scores = .error .oob) := by
  -- the contents of the buffer do not matter
  obtain ⟨x2, f1, f2, f3⟩ := Index4.conjScores_same (o2 := scores ++ List.replicate (o.length - scores.length) 0)
    (by rw [List.length_append, List.length_replicate]; omega) h
  -- the limit
  have hlim : ∃ y, conjScores std ii pfx r k (scores ++ List.replicate (o.length - scores.length) 0) = .ok (y, min k n) ∧ y.length = sc.length ∧
      y.take (min k n) = sc.take (min k n) := by
    rcases Nat.lt_or_ge n k with hc | hc
    · have := (conjScores_cut (K := K) (ext := []) hk (std := std) (ii := ii) (pfx := pfx) (r := r) x2 n (by rw [List.append_nil]; exact f1) (Or.inr ⟨hn, Or.inr hc⟩)).1
        (by rw [List.length_append, List.length_replicate]; omega)
      refine ⟨x2, ?_, f2, ?_⟩
      · rw [this, List.take_of_length_le (by rw [f2, List.length_append, List.length_replicate]; omega), Nat.min_eq_right (by omega)]
      · rw [Nat.min_eq_right (by omega), f3]
    · obtain ⟨⟨y, n'⟩, g1, g2, g3, g4⟩ := Index4.conjScores_fewer hk (by omega) f1
      dsimp only at g2 g3 g4
      rw [Nat.min_comm] at g3
      subst g3
      refine ⟨y, by rw [Nat.min_comm]; rw [Nat.min_comm] at g1; exact g1, by rw [g2, f2], ?_⟩
      rw [g4, Nat.min_eq_left hc]
      have := congrArg (List.take k) f3
      rwa [List.take_take, List.take_take, Nat.min_eq_left hc] at this
  obtain ⟨y, y1, y2, y3⟩ := hlim
  have := conjScores_cut hk (std := std) (ii := ii) (pfx := pfx) (r := r) y (min k n) y1 (Or.inl rfl)
  refine ⟨fun hle => ⟨y.take scores.length, this.1 hle, by rw [List.length_take]; omega, ?_⟩, this.2⟩
  rw [List.take_take, Nat.min_eq_left hle, y3]

end Index4

section
variable {C : Coll} {F : Files} (h : Ready C F)
include h

/-- what conjunctive search with type 4 returns, for every positive `k` -/
theorem Index4.conj_beyond (std : StdLib) {m : Nat} {x : Index4} {docss : List (List Nat)} (hx : x.Rep m F docss) (hids : ∀ r ∈ C, r.1 < 2 ^ 32 - 2)
    {q : Str} (hq : IsText q) :
    ∃ S, Result4 C (blocksOf F.terms x.inverted.blocks) (completeTerms q) (lastTerm q) S ∧
      ∀ k, 1 ≤ k → ∀ s : Scratch, s.WF → (min k S.length ≤ MAX_K → Shows F.terms (S.take k) (x.conjTopk std q k s)) ∧
        (MAX_K < min k S.length → x.conjTopk std q k s = .error .oob) := by
  have key : ∃ S : List Nat, Result4 C (blocksOf F.terms x.inverted.blocks) (completeTerms q) (lastTerm q) (S.map (rowOf F)) ∧ (∀ d ∈ S, ∃ c, (d, c) ∈ C) ∧
      ((∀ x, IsTerm C x → ¬ Reaches C (lastTerm q) x) → S = []) ∧ ∀ b e, LastRange C F (lastTerm q) b e →
      ∀ k, 1 ≤ k → ∀ scores : List Nat, scores.length = MAX_K →
        (min k S.length ≤ MAX_K → ∃ scores' n, conjScores std x.inverted (knownPfx F (completeTerms q)) ⟨b + 1, e + 1⟩ k scores = .ok (scores', n) ∧
          scores'.length = scores.length ∧ n ≤ MAX_K ∧ scores'.take n = S.take k) ∧
        (MAX_K < min k S.length → conjScores std x.inverted (knownPfx F (completeTerms q)) ⟨b + 1, e + 1⟩ k scores = .error .oob) := by
    by_cases hex : ∃ b e, LastRange C F (lastTerm q) b e
    · obtain ⟨b, e, hr⟩ := hex
      obtain ⟨B, hB⟩ := Index4.conjScores_bound std x.inverted (knownPfx F (completeTerms q)) ⟨b + 1, e + 1⟩
      obtain ⟨S, s1, s2, sc, n, t1, t2, t3, t4⟩ := Index4.scores_run h std hx.inverted hids (complete := completeTerms q) hr (K := B + 1) (by omega)
        (o := List.replicate (B + 1 + MAX_K) 0) (by simp)
      have hn := hB _ _ _ _ t1
      rw [List.length_replicate] at t2
      have hS : sc.take n = S := by
        have hl := congrArg List.length t4
        rw [List.length_take, List.length_take, t2] at hl
        rw [t4, List.take_of_length_le (by omega)]
      have hSl : S.length = n := by rw [← hS, List.length_take, t2]; omega
      refine ⟨S, s1, s2, ?_, ?_⟩
      · intro hu
        have hlt := hr.lt
        have hle := hr.le
        exact absurd ((hr.iff b (by omega)).mp ⟨Nat.le_refl _, hle⟩) (hu _ ((h.isTerm _).mpr (List.getElem_mem _)))
      · intro b' e' hr' k hk scores hsc
        obtain ⟨rfl, rfl⟩ := hr.unique hr'
        obtain ⟨g1, g2⟩ := Index4.conjScores_beyond t1 (by omega) (by omega) hk (scores := scores) (by simp [hsc]) (by simp [t2])
        rw [hSl, ← hsc]
        refine ⟨fun hle => ?_, g2⟩
        obtain ⟨scores', e1, e2, e3⟩ := g1 hle
        refine ⟨scores', _, e1, e2, hle, ?_⟩
        rw [e3, ← hS, List.take_take]
    · have hu : ∀ x, IsTerm C x → ¬ Reaches C (lastTerm q) x := by
        have ha := analyse_spec h hx.dict hq false Scratch.fresh_wf.dbuf
        generalize analyse x.dict q false Scratch.fresh = a at ha
        cases ha with
        | unknown buf hb hm hu => simp at hm
        | nothing buf hb hu => exact hu
        | some buf hb r hr hk2 => exact absurd ⟨_, _, hr⟩ hex
      exact ⟨[], h.result_none hu, by simp, fun _ => rfl, fun b e hr => absurd ⟨b, e, hr⟩ hex⟩
  obtain ⟨S, s1, s2, s3, s4⟩ := key
  refine ⟨_, s1, ?_⟩
  intro k hk s hs
  rw [List.length_map]
  have ha := analyse_spec h hx.dict hq false hs.dbuf
  unfold Index4.conjTopk
  generalize analyse x.dict q false s = a at ha
  cases ha with
  | unknown buf hb hm hu => simp at hm
  | nothing buf hb hu =>
      have hS := s3 hu
      subst hS
      refine ⟨fun _ => ?_, fun h => by simp at h⟩
      obtain ⟨E, b, hE⟩ := outcome_none (k := k) (wf_init hs hb) (Pool.Holds.init s.pool) hx.built (h.not_conjFound (complete := completeTerms q) hu)
      have : E = [] := by
        rw [List.eq_nil_iff_forall_not_mem]
        intro r hr
        exact h.not_conjFound hu r (b.sound r hr).1 (b.sound r hr).2
      rw [this] at hE
      rw [List.map_nil, List.take_nil]
      exact hE
  | some buf hb r hr hk2 =>
      rw [M.ok_bind]
      dsimp only
      obtain ⟨g1, g2⟩ := s4 _ _ hr k hk s.pool.init.scores hs.scores
      have hsl := hs.scores
      unfold knownPfx at g1 g2
      constructor
      · intro hle
        obtain ⟨scores', n, e0, e1, e2, e3⟩ := g1 hle
        rw [e0, M.ok_bind]
        have := Base.extract_shows h hx.base hx.dict hx.built (n := n) (wf_scores (wf_init hs hb) e1) (holds_scores (Pool.Holds.init _) _)
          (by dsimp only [Pool.init] at e1 ⊢; omega) (by
            intro d hd
            rw [show _ = scores'.take n from rfl, e3] at hd
            exact s2 d (List.mem_of_mem_take hd))
        rw [← List.map_take, ← e3]
        exact this
      · intro hlt
        rw [g2 hlt]
        rfl

end
end AC
