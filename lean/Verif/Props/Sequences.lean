import Verif.Proofs.EfRuns
import Verif.Proofs.SmallApi
/-!
# C17, C18, C19, C67: Elias-Fano sequences and searching
-/
namespace AC.Props

/-- a list that does not decrease -/
def Sorted (xs : List W) : Prop := xs.Pairwise (fun a b => a.toNat ≤ b.toNat)

instance (xs : List W) : Decidable (Sorted xs) := by unfold Sorted; infer_instance

/-- **C17**: a sequence built from any non-empty non-decreasing list of 64-bit values gives back every element by random
access, and pairs of consecutive elements by `operator[]`. -/
theorem C17_access (xs : List W) (hne : xs ≠ []) (hs : Sorted xs) :
    ∃ e, EF.build xs = .ok e ∧ e.size = xs.length ∧
      (∀ i (hi : i < xs.length), e.access i = .ok xs[i].toNat) ∧
      (∀ i (hi : i + 1 < xs.length), e.pair i = .ok ⟨xs[i].toNat, xs[i + 1].toNat⟩) := by
  obtain ⟨e, e1, e2⟩ := EF.build_spec xs hne hs
  refine ⟨e, e1, e2.size, fun i hi => EF.access_spec e2 i hi, ?_⟩
  intro i hi
  unfold EF.pair
  rw [EF.access_spec e2 i (by omega), EF.access_spec e2 (i + 1) hi]
  rfl

/-- **C18**: starting at any position and incrementing any number of times enumerates the following elements, without any
read outside of the bitmaps (which would be a fault); dereferencing again does not change anything; going past the last element
is harmless. -/
theorem C18_iterator (xs : List W) (hne : xs ≠ []) (hs : Sorted xs) :
    ∃ e, EF.build xs = .ok e ∧
      ∀ pos n, pos + n ≤ xs.length → pos < xs.length →
        ∃ it, e.at' pos = .ok it ∧ e.scan n it = .ok (((xs.drop pos).take n).map BitVec.toNat) := by
  obtain ⟨e, e1, e2⟩ := EF.build_spec xs hne hs
  refine ⟨e, e1, ?_⟩
  intro pos n hn hp
  obtain ⟨it, i1, i2⟩ := EF.at_spec e2 pos hp
  exact ⟨it, i1, EF.scan_spec e2 n pos it hn (fun _ => i2)⟩

/-- the hypotheses are met, with repetitions, gaps and large values -/
example : Sorted [0, 0, 3, 3, 70, 1000000, 0xffffffffffffffff] := by decide

/-- **C67**, exactly what repeated calls of `next()` of the iterator do: from any position, the elements in order as long as
one more element follows; the call that should return the last element reads outside of the bitmap of the high parts, since it
looks for the one of the following element. -/
theorem C67_next_exact (xs : List W) (hne : xs ≠ []) (hs : Sorted xs) :
    ∃ e, EF.build xs = .ok e ∧ ∀ pos n, pos < xs.length →
      ∃ it, e.at' pos = .ok it ∧
        e.walk n it = if pos + n < xs.length then .ok (((xs.drop pos).take n).map BitVec.toNat) else .error .oob := by
  obtain ⟨e, e1, e2⟩ := EF.build_spec xs hne hs
  refine ⟨e, e1, ?_⟩
  intro pos n hp
  obtain ⟨it, i1, i2⟩ := EF.at_spec e2 pos hp
  exact ⟨it, i1, EF.walk_spec e2 n pos it hp i2.walk⟩

/-- **C67**, the part that holds: all elements but the last are enumerated. Missing: the last one (`C67_false`). -/
theorem C67_next_partial (xs : List W) (hne : xs ≠ []) (hs : Sorted xs) :
    ∃ e, EF.build xs = .ok e ∧ ∀ pos n, pos + n < xs.length →
      ∃ it, e.at' pos = .ok it ∧ e.walk n it = .ok (((xs.drop pos).take n).map BitVec.toNat) := by
  obtain ⟨e, e1, e2⟩ := C67_next_exact xs hne hs
  refine ⟨e, e1, fun pos n hn => ?_⟩
  obtain ⟨it, i1, i2⟩ := e2 pos n (by omega)
  exact ⟨it, i1, by rw [i2, if_pos hn]⟩

/-- **C67** is false, for every list: enumerating all of it with `next()` reads outside of the bitmap -/
theorem C67_false (xs : List W) (hne : xs ≠ []) (hs : Sorted xs) :
    ∃ e it, EF.build xs = .ok e ∧ e.at' 0 = .ok it ∧ e.walk xs.length it = .error .oob := by
  obtain ⟨e, e1, e2⟩ := C67_next_exact xs hne hs
  obtain ⟨it, i1, i2⟩ := e2 0 xs.length (List.length_pos_iff.mpr hne)
  exact ⟨e, it, e1, i1, by rw [i2, if_neg (by omega)]⟩

/-- outside of the domain: the check that the input is sorted comes too late, a value greater than the last one is written
out of bounds before the exception can be thrown -/
theorem C17_unsorted : EF.build [5, 100, 3] = .error .oob := by decide +kernel

/-- The runs of a list: run `k` is at positions `ps[k] .. ps[k+1] - 1` -/
def runOf (ps : List Nat) (vs : List W) (k : Nat) : List Nat :=
  ((vs.drop (ps.getD k 0)).take (ps.getD (k + 1) 0 - ps.getD k 0)).map BitVec.toNat

theorem run_get (ps : List Nat) (vs : List W) (k : Nat) (hk : k + 1 < ps.length) (hm : ps[k] ≤ ps[k + 1])
    (hle : ps[k + 1] ≤ vs.length) :
    (runOf ps vs k).length = ps[k + 1] - ps[k] ∧
    ∀ i (hi : i < (runOf ps vs k).length), ∃ h : ps[k] + i < vs.length, (runOf ps vs k)[i] = vs[ps[k] + i].toNat := by
  have e1 : ps.getD k 0 = ps[k] := by rw [List.getD_eq_getElem?_getD, List.getElem?_eq_getElem (by omega)]; rfl
  have e2 : ps.getD (k + 1) 0 = ps[k + 1] := by rw [List.getD_eq_getElem?_getD, List.getElem?_eq_getElem hk]; rfl
  have hl : (runOf ps vs k).length = ps[k + 1] - ps[k] := by
    unfold runOf
    rw [e1, e2]
    simp only [List.length_map, List.length_take, List.length_drop]; omega
  refine ⟨hl, ?_⟩
  intro i hi
  rw [hl] at hi
  refine ⟨by omega, ?_⟩
  simp only [runOf, List.getElem_map, List.getElem_take, List.getElem_drop, e1]

theorem runAt_of_build {ps : List Nat} {vs xs : List W} (hlen : xs.length = vs.length)
    (hval : ∀ k (hk : k + 1 < ps.length) i (hi : i < vs.length), ps[k] ≤ i → i < ps[k + 1] →
        (xs.map BitVec.toNat)[i]? = some (Seq.upperOf (xs.map BitVec.toNat) ⟨ps[k], ps[k + 1]⟩ + vs[i].toNat))
    (k : Nat) (hk : k + 1 < ps.length) (hlt : ps[k] < ps[k + 1]) (hle : ps[k + 1] ≤ vs.length)
    (hinc : (runOf ps vs k).Pairwise (· < ·)) :
    Seq.RunAt (xs.map BitVec.toNat) ⟨ps[k], ps[k + 1]⟩ (runOf ps vs k) := by
  obtain ⟨r1, r2⟩ := run_get ps vs k hk (by omega) hle
  refine ⟨hlt, by simp only [List.length_map]; omega, r1, ?_, hinc⟩
  intro i hi
  obtain ⟨h1, h2⟩ := r2 i hi
  rw [hval k hk (ps[k] + i) h1 (by omega) (by omega), h2]

/-- all runs are increasing -/
def RunsOK (ps : List Nat) (vs : List W) : Prop := ∀ k, k + 1 < ps.length → (runOf ps vs k).Pairwise (· < ·)

theorem runsMono_of_ok {ps : List Nat} {vs : List W} (hp : Pointers ps vs.length) (hle : ∀ p ∈ ps, p ≤ vs.length)
    (h : RunsOK ps vs) : RunsMono ps (vs.map BitVec.toNat) := by
  intro k hk i j hij hj h1 h2
  rw [List.length_map] at hj
  have hm := hp.le (show k ≤ k + 1 by omega) hk
  obtain ⟨r1, r2⟩ := run_get ps vs k hk hm (hle _ (List.getElem_mem _))
  have := List.pairwise_iff_getElem.mp (h k hk) (i - ps[k]) (j - ps[k]) (by omega) (by omega) (by omega)
  obtain ⟨_, e1⟩ := r2 (i - ps[k]) (by omega)
  obtain ⟨_, e2⟩ := r2 (j - ps[k]) (by omega)
  rw [e1, e2] at this
  simp only [show ps[k] + (i - ps[k]) = i by omega, show ps[k] + (j - ps[k]) = j by omega] at this
  simp only [List.getElem_map]
  omega

/-- **C19**, for Elias-Fano sequences made of runs (delimited by `ps`; fewer than `2^32` elements of 32 bits each; every run
strictly increasing): in every non-empty run, `find(range, id)` returns the position of `id`, or not found when it does not
occur; `find(range, lex)` returns exactly the sub-range of the positions whose ids lie between the ends of `lex`, both
included; for the invalid range, an empty one. -/
theorem C19_find (ps : List Nat) (vs : List W) (hp : Pointers ps vs.length) (hle : ∀ p ∈ ps, p ≤ vs.length) (hne : vs ≠ [])
    (hn : vs.length < 2 ^ 32) (hv : ∀ v ∈ vs, v.toNat < 2 ^ 32) (hr : RunsOK ps vs) :
    ∃ e, EF.buildRuns vs ps = .ok e ∧
      ∀ k (hk : k + 1 < ps.length), ps[k] < ps[k + 1] →
        (∀ id, id < 2 ^ 32 →
          (∀ i (hi : i < (runOf ps vs k).length), (runOf ps vs k)[i] = id →
            e.seq.findIn ⟨ps[k], ps[k + 1]⟩ id = .ok (ps[k] + i)) ∧
          (id ∉ runOf ps vs k → e.seq.findIn ⟨ps[k], ps[k + 1]⟩ id = .ok NOT_FOUND)) ∧
        (∀ lex : Range, lex.b ≤ lex.e → lex.e < 2 ^ 32 →
          ∃ q, e.seq.findRange ⟨ps[k], ps[k + 1]⟩ lex = .ok q ∧ ps[k] ≤ q.b ∧ q.b ≤ q.e ∧ q.e ≤ ps[k + 1] ∧
            ∀ i (hi : i < (runOf ps vs k).length),
              (q.b ≤ ps[k] + i ∧ ps[k] + i < q.e) ↔ (lex.b ≤ (runOf ps vs k)[i] ∧ (runOf ps vs k)[i] ≤ lex.e)) ∧
        e.seq.findRange ⟨ps[k], ps[k + 1]⟩ Range.invalid = .ok ⟨ps[k + 1], ps[k + 1]⟩ := by
  have hB : (vs.length + 1) * (2 ^ 32 - 1) < 2 ^ 64 := by
    have : (vs.length + 1) * (2 ^ 32 - 1) ≤ 2 ^ 32 * (2 ^ 32 - 1) := Nat.mul_le_mul_right _ (by omega)
    omega
  obtain ⟨e, xs, e1, e2, e3, e4, e5⟩ := EF.buildRuns_spec hp hne (2 ^ 32 - 1) (fun v h => by have := hv v h; omega) hB
    (runsMono_of_ok hp hle hr)
  refine ⟨e, e1, ?_⟩
  intro k hk hlt
  have hrun := runAt_of_build e3 e5 k hk hlt (hle _ (List.getElem_mem _)) (hr k hk)
  have hrep := EF.seq_rep e2
  have hNF : (xs.map BitVec.toNat).length ≤ NOT_FOUND := by
    rw [List.length_map, e3]; unfold NOT_FOUND; omega
  have hle' := hle _ (List.getElem_mem hk)
  have hup : Seq.upperOf (xs.map BitVec.toNat) ⟨ps[k], ps[k + 1]⟩ + 2 ^ 32 ≤ 2 ^ 64 := by
    unfold Seq.upperOf
    simp only
    split
    · omega
    · rw [List.getD_eq_getElem?_getD, List.getElem?_map, List.getElem?_eq_getElem (by omega)]
      have h1 := e4 (ps[k] - 1) (by omega)
      have h2 : (ps[k] - 1 + 1) * (2 ^ 32 - 1) ≤ (2 ^ 32 - 1) * (2 ^ 32 - 1) := Nat.mul_le_mul_right _ (by omega)
      simp only [Option.map_some, Option.getD_some]
      omega
  refine ⟨?_, ?_, ?_⟩
  · intro id hid
    exact Seq.findIn_spec hrep hrun hNF id (by omega)
  · intro lex hl hle
    exact Seq.findRange_spec hrep hrun hNF lex hl (by omega)
  · refine Seq.findRange_invalid hrep hrun hNF (fun id hid => ?_) (by omega)
    obtain ⟨v, hm, rfl⟩ := List.mem_map.mp hid
    exact hv v (List.mem_of_mem_drop (List.mem_of_mem_take hm))

/-- **C19**, `next_geq` over any range of positions of a sequence where the elements increase: the first position whose value
is at least `x`, or not found when there is none -/
theorem C19_next_geq (xs : List W) (hne : xs ≠ []) (hs : Sorted xs) :
    ∃ e, EF.build xs = .ok e ∧ ∀ lo hi x, hi < xs.length →
      ((xs.drop lo).take (hi + 1 - lo)).Pairwise (fun a b => a.toNat < b.toNat) →
      ∃ r, e.seq.nextGeq x (hi + 2) lo hi = .ok r ∧
        ((∃ h : r < xs.length, lo ≤ r ∧ r ≤ hi ∧ x ≤ xs[r].toNat ∧ ∀ q (_ : q < xs.length), lo ≤ q → q < r → xs[q].toNat < x) ∨
         (r = NOT_FOUND ∧ ∀ q (_ : q < xs.length), lo ≤ q → q ≤ hi → xs[q].toNat < x)) := by
  obtain ⟨e, e1, e2⟩ := EF.build_spec xs hne hs
  refine ⟨e, e1, ?_⟩
  intro lo hi x hhi hinc
  have hrep := EF.seq_rep e2
  have hI : Seq.Incr (xs.map BitVec.toNat) lo hi := by
    intro i j h1 h2 h3 h4 h5
    rw [List.length_map] at h1 h2
    have := List.pairwise_iff_getElem.mp hinc (i - lo) (j - lo) (by simp; omega) (by simp; omega) (by omega)
    simp only [List.getElem_take, List.getElem_drop] at this
    simp only [List.getElem_map]
    simp only [show lo + (i - lo) = i by omega, show lo + (j - lo) = j by omega] at this
    exact this
  obtain ⟨r, r1, r2⟩ := Seq.nextGeq_spec hrep x (hi + 2) lo hi hI (by simpa using hhi) (by omega) (by omega)
  refine ⟨r, r1, ?_⟩
  simp only [List.length_map, List.getElem_map] at r2
  rcases r2 with ⟨a, b, ⟨c, d⟩, f⟩ | ⟨a, b⟩
  · exact Or.inl ⟨c, a, b, d, f⟩
  · exact Or.inr ⟨a, b⟩

/-- the hypotheses are met by runs with an empty one between them -/
example : Pointers [0, 3, 3, 5] [7, 9, 20, 1, 4].length ∧ RunsOK [0, 3, 3, 5] [7, 9, 20, 1, 4] := by
  refine ⟨⟨by decide, rfl, by decide, ?_⟩, ?_⟩
  · intro i hi; exact ⟨5, by decide, by simpa using hi⟩
  · intro k hk
    have : k = 0 ∨ k = 1 ∨ k = 2 := by simp at hk; omega
    rcases this with h | h | h <;> subst h <;> decide

theorem uvec_rep (xs : List Nat) : (UVec.seq xs).Rep xs := by
  refine ⟨fun i h => rd_ok h, fun it i => it = i, fun it i => it = i, ?_, ?_, ?_⟩
  · intro i _; exact ⟨i, rfl, rfl⟩
  · intro it i h e
    refine ⟨it, ?_, e⟩
    show (do let v ← rd xs it; .ok (v, it) : M (Nat × Nat)) = _
    rw [e, rd_ok h]; rfl
  · intro it i _ e
    have e : it = i := e
    subst e
    exact ⟨Nat.succ it, rfl, fun _ => rfl⟩

/-- **C19**, uncompressed vectors (`uint_vec`): `find(range, id)` as above; `find(range, lex)` as above when `lex` has at least
two ids. Missing: `lex` with a single id, where the claim is false (`C19_uint_vec_singleton`). No instantiated index type uses
`find(range, lex)` of `uint_vec`. -/
theorem C19_uint_vec_partial (xs : List Nat) (r : Range) (ids : List Nat) (hr : Seq.RunAt xs r ids) (hx : xs.length ≤ NOT_FOUND)
    (lex : Range) (hl : lex.b < lex.e) (hid : lex.e + Seq.upperOf xs r < 2 ^ 64) :
    ∃ q, UVec.findRange xs r lex = .ok q ∧ r.b ≤ q.b ∧ q.b ≤ q.e ∧ q.e ≤ r.e ∧
      ∀ i (hi : i < ids.length), (q.b ≤ r.b + i ∧ r.b + i < q.e) ↔ (lex.b ≤ ids[i] ∧ ids[i] ≤ lex.e) := by
  obtain ⟨q, q1, q2, q3, q4, q5⟩ := Seq.findRange_spec (uvec_rep xs) hr hx lex (by omega) hid
  have hlt := hr.lt
  have hle := hr.le
  have hlen := hr.len
  unfold Seq.findRange at q1
  unfold UVec.findRange
  dsimp only
  rw [Seq.prevUpper_spec (uvec_rep xs) r (by omega), Seq.lastIn_ok (by omega)] at q1 ⊢
  simp only [M.ok_bind] at q1 ⊢
  obtain ⟨p, p1, p2⟩ := Seq.nextGeq_spec (uvec_rep xs) ((lex.b + Seq.upperOf xs r) % 2 ^ 64) (r.e + 1) r.b (r.e - 1) hr.incr'
    (by omega) (by omega) (by omega)
  rw [p1] at q1 ⊢
  simp only [M.ok_bind] at q1 ⊢
  rcases p2 with ⟨a, b, ⟨hp, c⟩, d⟩ | ⟨a, b⟩
  · rw [if_neg (show p ≠ NOT_FOUND by omega)] at q1 ⊢
    rw [(uvec_rep xs).access p hp] at q1
    simp only [M.ok_bind] at q1
    rw [if_neg (show ¬ lex.b = lex.e by omega)] at q1 ⊢
    split at q1
    · -- the shortcut of the other version: here the end is found to be the beginning
      rename_i hgt
      rw [Nat.mod_eq_of_lt hid] at hgt ⊢
      unfold Seq.findRangeEnd
      obtain ⟨e, e1, e2⟩ := Seq.nextGeq_spec (uvec_rep xs) (lex.e + Seq.upperOf xs r) (r.e + 1) p (r.e - 1)
        (fun i j hi' hj' x y z => hr.incr' i j hi' hj' (by omega) y z) (by omega) (by omega) (by omega)
      have hpe : e = p := by
        rcases e2 with ⟨a', b', _, d'⟩ | ⟨a', b'⟩
        · rcases Nat.lt_or_ge p e with h1 | h1
          · have := d' p hp (by omega) h1; omega
          · omega
        · have := b' p hp (by omega) b; omega
      subst hpe
      rw [e1]
      simp only [M.ok_bind]
      rw [if_neg (show e ≠ NOT_FOUND by omega), (uvec_rep xs).access e hp]
      simp only [M.ok_bind]
      rw [if_pos (by omega)]
      refine ⟨_, rfl, a, Nat.le_refl _, by simp only; omega, ?_⟩
      cases q1
      intro i hi
      have := q5 i hi
      simp only at this ⊢
      omega
    · exact ⟨q, q1, q2, q3, q4, q5⟩
  · rw [if_pos a] at q1 ⊢
    exact ⟨q, q1, q2, q3, q4, q5⟩

/-- with a single id that does not occur, `find(range, lex)` of `uint_vec` returns the position of the next greater id instead
of an empty range -/
theorem C19_uint_vec_singleton : Seq.RunAt [3, 5, 9] ⟨0, 3⟩ [3, 5, 9] ∧ UVec.findRange [3, 5, 9] ⟨0, 3⟩ ⟨4, 4⟩ = .ok ⟨1, 2⟩ := by
  refine ⟨⟨by decide, by decide, by decide, ?_, by decide⟩, by decide +kernel⟩
  intro i hi
  have : i = 0 ∨ i = 1 ∨ i = 2 := by simp at hi; omega
  rcases this with h | h | h <;> subst h <;> rfl

example : ∃ q, UVec.findRange [3, 5, 9] ⟨0, 3⟩ ⟨4, 5⟩ = .ok q := by
  obtain ⟨q, h, _⟩ := C19_uint_vec_partial [3, 5, 9] ⟨0, 3⟩ [3, 5, 9] C19_uint_vec_singleton.1 (by unfold NOT_FOUND; simp) ⟨4, 5⟩
    (by decide) (by decide)
  exact ⟨q, h⟩

end AC.Props
