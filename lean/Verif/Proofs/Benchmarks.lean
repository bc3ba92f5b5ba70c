import Verif.Model.Benchmarks
import Verif.Spec.Benchmarks
import Verif.Props.Programs
import Verif.Props.Tools
/-!
# The loops of the benchmarks
-/
namespace AC
open Spec Props

theorem Pool.collect_length (p : Pool) : ∀ (n i : Nat) {res : List (Nat × Str)}, p.collect n i = .ok res → res.length = n
  | 0, _, res, h => by cases h; rfl
  | n + 1, i, res, h => by
      rw [Pool.collect] at h
      obtain ⟨r, _, h⟩ := bind_ok h
      obtain ⟨rs, h2, h⟩ := bind_ok h
      cases h
      rw [List.length_cons, collect_length p n (i + 1) h2]

theorem Pool.results_length {p : Pool} {res : List (Nat × Str)} (h : p.results = .ok res) : res.length = p.size := p.collect_length _ _ h

theorem All2.mem_left {α β : Type} {R : α → β → Prop} {as : List α} {bs : List β} (h : All2 R as bs) {a : α} (ha : a ∈ as) : ∃ b ∈ bs, R a b := by
  induction h with
  | nil => simp at ha
  | cons h _ ih =>
      rcases List.mem_cons.mp ha with rfl | ha
      · exact ⟨_, by simp, h⟩
      · obtain ⟨b, hb, hr⟩ := ih ha
        exact ⟨b, List.mem_cons_of_mem _ hb, hr⟩

theorem All2.unique {α β : Type} {R : α → β → Prop} (hR : ∀ a b b', R a b → R a b' → b = b') {as : List α} {bs bs' : List β} (h : All2 R as bs)
    (h' : All2 R as bs') : bs = bs' := by
  induction h generalizing bs' with
  | nil => cases h'; rfl
  | cons h _ ih =>
      cases h' with
      | cons g g' => rw [hR _ _ _ h g, ih g']

/-- queries whose answers do not depend on what was asked before -/
def Steady (run : StdLib → Ask → Scratch → M Scratch) (std : StdLib) : Prop :=
  ∀ a : Ask, a.Ok → ∀ s, Visited run s → SameAnswer (run std a s) (run std a Scratch.fresh)

section
variable {run : StdLib → Ask → Scratch → M Scratch} {std : StdLib} (h : Steady run std) (conj : Bool) {k : Nat} (hk : 1 ≤ k ∧ k ≤ 15)
include h hk

theorem Bench.pass_spec (qs : List Str) (hq : ∀ q ∈ qs, IsText q) {s : Scratch} (hs : Visited run s) :
    (Bench.pass (fun q s => run std ⟨conj, q, k⟩ s) qs s = .error .oob ∧ ∃ q ∈ qs, run std ⟨conj, q, k⟩ Scratch.fresh = .error .oob) ∨
    ∃ s' A, Bench.pass (fun q s => run std ⟨conj, q, k⟩ s) qs s = .ok (s', (A.map List.length).sum) ∧ Visited run s' ∧
      All2 (fun q res => Returns run std ⟨conj, q, k⟩ res) qs A := by
  induction qs generalizing s with
  | nil => exact .inr ⟨s, [], rfl, hs, .nil⟩
  | cons q qs ih =>
      have ha : Ask.Ok ⟨conj, q, k⟩ := ⟨hq q (by simp), hk⟩
      rw [Bench.pass]
      rcases h ⟨conj, q, k⟩ ha s hs with ⟨x, y⟩ | ⟨t, t', res, x, y, r, r'⟩
      · rw [x, M.error_bind]
        exact .inl ⟨rfl, q, by simp, y⟩
      · rw [x, M.ok_bind]
        rcases ih (fun q hm => hq q (List.mem_cons_of_mem _ hm)) (hs.step ha x) with ⟨e, q', hq', f⟩ | ⟨s', A, e, v, a⟩
        · rw [e, M.error_bind]
          exact .inl ⟨rfl, q', List.mem_cons_of_mem _ hq', f⟩
        · rw [e, M.ok_bind]
          refine .inr ⟨s', res :: A, ?_, v, .cons ⟨t', y, r'⟩ a⟩
          dsimp only
          rw [← Pool.results_length r, List.map_cons, List.sum_cons]

omit h hk in
theorem Returns.unique {a : Ask} {res res' : List (Nat × Str)} (h1 : Returns run std a res) (h2 : Returns run std a res') : res = res' := by
  obtain ⟨t, e1, e2⟩ := h1
  obtain ⟨t', f1, f2⟩ := h2
  rw [e1] at f1; cases f1
  rw [e2] at f2; cases f2
  rfl

theorem Bench.passes_spec (qs : List Str) (hq : ∀ q ∈ qs, IsText q) {A : List (List (Nat × Str))}
    (hA : All2 (fun q res => Returns run std ⟨conj, q, k⟩ res) qs A) : ∀ (n : Nat) {s : Scratch} (_ : Visited run s) (m : Nat),
    Bench.passes (fun q s => run std ⟨conj, q, k⟩ s) qs n s m = .ok (m + n * (A.map List.length).sum)
  | 0, s, _, m => by rw [Bench.passes]; simp
  | n + 1, s, hs, m => by
      rw [Bench.passes]
      rcases Bench.pass_spec h conj hk qs hq hs with ⟨_, q, hm, f⟩ | ⟨s', B, e, v, hB⟩
      · exfalso
        obtain ⟨_, _, t, y, _⟩ := hA.mem_left hm
        rw [f] at y; cases y
      · have : B = A := All2.unique (R := fun q res => Returns run std ⟨conj, q, k⟩ res) (fun _ _ _ h1 h2 => Returns.unique h1 h2) hB hA
        subst this
        rw [e, M.ok_bind]
        dsimp only
        rw [Bench.passes_spec qs hq hA n v]
        congr 1
        rw [Nat.succ_mul]; omega

/-- the whole program, given the queries -/
theorem Bench.queryBenchmark_spec {p n : Nat} {input : Stream} {qs : List Str} (hl : loadQueries p n input = .ok qs) (hq : ∀ q ∈ qs, IsText q)
    {s : Scratch} (hs : Visited run s) :
    (Bench.queryBenchmark (fun q s => run std ⟨conj, q, k⟩ s) p n input s = .error .oob ∧
      ∃ q ∈ qs, run std ⟨conj, q, k⟩ Scratch.fresh = .error .oob) ∨
    ∃ A, Bench.queryBenchmark (fun q s => run std ⟨conj, q, k⟩ s) p n input s = .ok (qs.length, (A.map List.length).sum) ∧
      All2 (fun q res => Returns run std ⟨conj, q, k⟩ res) qs A := by
  unfold Bench.queryBenchmark
  rw [hl, M.ok_bind]
  rcases Bench.pass_spec h conj hk qs hq hs with ⟨e, f⟩ | ⟨s', A, _, _, hA⟩
  · left
    refine ⟨?_, f⟩
    rw [Bench.runs, Bench.passes, e, M.error_bind, M.error_bind]
  · right
    refine ⟨A, ?_, hA⟩
    rw [Bench.passes_spec h conj hk qs hq hA Bench.runs hs, M.ok_bind, Nat.zero_add, Nat.mul_div_cancel_left _ (by decide)]

end

theorem Bench.cut_prefix {p : Nat} {l q : Str} (h : Bench.cut p l = .ok q) : q <+: l := by
  unfold Bench.cut at h
  split at h
  · cases h
  · obtain ⟨_, _, h⟩ := bind_ok h
    cases h
    exact List.take_prefix _ _

theorem mapM_from {α β : Type} {f : α → M β} : ∀ {l : List α} {r : List β}, l.mapM f = .ok r → ∀ b ∈ r, ∃ a ∈ l, f a = .ok b
  | [], r, h, b, hb => by rw [List.mapM_nil] at h; cases h; simp at hb
  | a :: l, r, h, b, hb => by
      rw [List.mapM_cons] at h
      obtain ⟨b0, h1, h⟩ := bind_ok h
      obtain ⟨r0, h2, h⟩ := bind_ok h
      cases h
      rcases List.mem_cons.mp hb with rfl | hb
      · exact ⟨a, by simp, h1⟩
      · obtain ⟨a', h3, h4⟩ := mapM_from h2 b hb
        exact ⟨a', List.mem_cons_of_mem _ h3, h4⟩

theorem Bench.loadQueries_text {p n : Nat} {text : Str} {ls qs : List Str} (h : Lines text ls) (ht : ∀ l ∈ ls.take n, IsText l)
    (hl : Bench.loadQueries p n (.ofText text) = .ok qs) : ∀ q ∈ qs, IsText q := by
  rw [Bench.loadQueries_eq h n] at hl
  intro q hq
  obtain ⟨l, h1, h2⟩ := mapM_from hl q hq
  exact fun c hc => ht l h1 c ((Bench.cut_prefix h2).subset hc)

/-! ## benchmark/benchmark_locate_prefix.cpp -/

/-- one lookup: what the dictionary gives for a query of known terms -/
structure LookupOf (C : Coll) (F : Files) (q : Str) (l : Ids × Range) : Prop where
  pfx : l.1 = (completeTerms q).map (rankOf F.terms)
  range : LastRange C F (lastTerm q) l.2.b l.2.e

/-- queries of known terms that have a term to look up -/
structure LooksUp (C : Coll) (q : Str) : Prop where
  text : IsText q
  known : ∀ t ∈ completeTerms q, IsTerm C t
  some : ∃ x, IsTerm C x ∧ Reaches C (lastTerm q) x

theorem Bench.lookupsOf_spec {C : Coll} {F : Files} (h : Ready C F) {d : FC} (R : FC.Rep Elem.byte MAX_CHARS d F.terms) :
    ∀ (qs : List Str) (_ : ∀ q ∈ qs, LooksUp C q) (buf : Str) (_ : buf.length = FcDict.bufSize),
      ∃ ls, Bench.lookupsOf d qs buf = .ok ls ∧ All2 (LookupOf C F) qs ls
  | [], _, _, _ => ⟨[], rfl, .nil⟩
  | q :: qs, hq, buf, hb => by
      have v := h.validTerms
      have hq0 := hq q (by simp)
      obtain ⟨ok, pfx, suffix, buf1, p1, p2, p3, p4⟩ := parse_spec v (Locates.of_rep v R (n := FcDict.bufSize) (by decide)) true hq0.text buf hb
      have hall : ∀ t ∈ completeTerms q, t ∈ F.terms := fun t ht => (h.isTerm t).mp (hq0.known t ht)
      obtain ⟨q1, q2⟩ := p4 (p3.mpr (fun _ => hall))
      rw [List.filter_eq_self.mpr (by simpa using hall)] at q1
      have ht : IsText (lastTerm q) := fun c hc => hq0.text c (lastTerm_subset q hc)
      obtain ⟨r, buf2, l1, l2, l3⟩ := FcDict.locatePrefix_exact v R ht buf1 (by rw [p2, hb]; decide)
      obtain ⟨ls, f1, f2⟩ := lookupsOf_spec h R qs (fun q hm => hq q (List.mem_cons_of_mem _ hm)) buf2 (by omega)
      refine ⟨(pfx, r) :: ls, ?_, .cons ⟨q1, ?_⟩ f2⟩
      · rw [Bench.lookupsOf, p1, M.ok_bind]
        dsimp only
        rw [q2, l1, M.ok_bind]
        dsimp only
        rw [f1, M.ok_bind]
      · rcases l3 with ⟨e1, e2⟩ | ⟨e1, e2, e3⟩
        · exfalso
          obtain ⟨x, hx, hr⟩ := hq0.some
          obtain ⟨i, hi, rfl⟩ := List.getElem_of_mem ((h.isTerm x).mp hx)
          obtain ⟨r1, r2⟩ := (h.reaches hi).mp hr
          exact r2 (e2 i hi r1)
        · exact ⟨e1, e2, fun i hi => by rw [e3 i hi, h.reaches hi]⟩

/-- the trie does not change the lookups -/
theorem Bench.lookupPass_trie {T : List Trie.CLevel} : ∀ {ls : List (Ids × Range)} {rs : List Range},
    All2 (fun l r => Trie.locatePrefix T l.1 l.2 = .ok r) ls rs → Bench.lookupPass (Bench.locTrie T) ls () = .ok (rs, ls, ())
  | _, _, .nil => rfl
  | _, _, .cons h hs => by
      rw [Bench.lookupPass, Bench.locTrie, h]
      simp only [M.ok_bind]
      rw [lookupPass_trie hs]
      rfl

theorem Bench.lookupRuns_trie {T : List Trie.CLevel} {ls : List (Ids × Range)} {rs : List Range}
    (h : All2 (fun l r => Trie.locatePrefix T l.1 l.2 = .ok r) ls rs) : ∀ n, Bench.lookupRuns (Bench.locTrie T) n ls () = .ok (List.replicate n rs)
  | 0 => rfl
  | n + 1 => by
      rw [Bench.lookupRuns, Bench.lookupPass_trie h, M.ok_bind]
      dsimp only
      rw [lookupRuns_trie h n, M.ok_bind, List.replicate_succ]

theorem Ready.follows {C : Coll} {F : Files} (h : Ready C F) {x y : Str} :
    Follows C x y ↔ x ∈ F.terms ∧ y ∈ F.terms ∧ rankOf F.terms y = rankOf F.terms x + 1 := by
  have hs := h.files.terms
  constructor
  · rintro ⟨h1, h2, h3, h4⟩
    have m1 := (h.isTerm x).mp h1
    have m2 := (h.isTerm y).mp h2
    refine ⟨m1, m2, ?_⟩
    have lt := (rankOf_lt hs m1 m2).mpr h3
    apply Classical.byContradiction
    intro hne
    have hle := rankOf_le m2
    have hi : rankOf F.terms x < F.terms.length := by omega
    have hr := rankOf_getElem hs hi
    have m3 : F.terms[rankOf F.terms x] ∈ F.terms := List.getElem_mem hi
    exact h4 _ ((h.isTerm _).mpr m3) ⟨(rankOf_lt hs m1 m3).mp (by omega), (rankOf_lt hs m3 m2).mp (by omega)⟩
  · rintro ⟨m1, m2, e⟩
    refine ⟨(h.isTerm x).mpr m1, (h.isTerm y).mpr m2, (rankOf_lt hs m1 m2).mp (by omega), ?_⟩
    rintro t ht ⟨h1, h2⟩
    have m3 := (h.isTerm t).mp ht
    have := (rankOf_lt hs m1 m3).mpr h1
    have := (rankOf_lt hs m3 m2).mpr h2
    omega

/-- matching with the numbers one less -/
theorem Ready.match_before {C : Coll} {F : Files} (h : Ready C F) {complete : List Str} (hc : ∀ t ∈ complete, t ∈ F.terms) {last : Str} {b e : Nat}
    (hr : LastRange C F last b e) {c : List Str} (hcc : ∀ t ∈ c, t ∈ F.terms) :
    MatchIds (complete.map (rankOf F.terms)) b e (c.map (rankOf F.terms)) ↔ PrefixBefore C complete last c := by
  have hs := h.files.terms
  have hlt := hr.lt
  constructor
  · rintro ⟨n, h1, h2, t, ht⟩
    obtain ⟨l12, l3, rfl, e1, e2⟩ := List.map_eq_append_iff.mp ht.symm
    obtain ⟨l1, l2, rfl, e3, e4⟩ := List.map_eq_append_iff.mp e1
    have hl1 : l1 = complete := map_rankOf_inj (fun t ht => hcc t (by simp [ht])) hc e3
    subst hl1
    obtain ⟨x, rfl, hx⟩ : ∃ x, l2 = [x] ∧ rankOf F.terms x = n := by
      cases l2 with
      | nil => simp at e4
      | cons x l2 =>
          simp only [List.map_cons, List.cons.injEq, List.map_eq_nil_iff] at e4
          exact ⟨x, by rw [e4.2], e4.1⟩
    have mx : x ∈ F.terms := hcc x (by simp)
    have hn : n < F.terms.length := by omega
    have my : F.terms[n] ∈ F.terms := List.getElem_mem hn
    have ry := rankOf_getElem hs hn
    refine ⟨x, F.terms[n], h.follows.mpr ⟨mx, my, by omega⟩, (hr.rank my).mp (by omega), l3, ?_⟩
    simp
  · rintro ⟨x, y, hf, hy, t, rfl⟩
    obtain ⟨mx, my, e'⟩ := h.follows.mp hf
    have := (hr.rank my).mpr hy
    exact ⟨rankOf F.terms x, by omega, by omega, t.map (rankOf F.terms), by simp⟩

/-- the range begins after the first term when the first term is not found -/
theorem LastRange.pos {C : Coll} {F : Files} (h : Ready C F) {last : Str} {b e : Nat} (hr : LastRange C F last b e)
    (hf : ∀ x, IsFirstTerm C x → ¬ Reaches C last x) : 0 < b := by
  rcases Nat.eq_zero_or_pos b with h0 | h0
  · exfalso
    subst h0
    have := hr.lt
    exact hf F.terms[0] ((h.isFirst (by omega)).mpr rfl) ((hr.iff 0 (by omega)).mp ⟨by omega, by omega⟩)
  · exact h0

end AC
