import Verif.Proofs.Parse
import Verif.Props.Dictionary
/-!
# C29: parsing of queries
-/
namespace AC.Props
open AC Spec

/-- the terms that the dictionary built from `L` can find: all of them, or all but the last 16 (see `C10_false_terms`) -/
def findable (L : List Str) : List Str := if L.length % 17 = 0 then L.take (L.length - 16) else L

theorem findable_valid {L : List Str} (v : ValidTerms L) : ValidTerms (findable L) := by
  unfold findable
  split
  · exact ⟨v.sorted.sublist (List.take_sublist _ _), fun s hs => v.text s (List.mem_of_mem_take hs),
      fun s hs => v.len s (List.mem_of_mem_take hs), by have := v.count; simp; omega, Nat.lt_of_le_of_lt (sum_take_le ..) v.room⟩
  · exact v

theorem findable_locates {L : List Str} (v : ValidTerms L) (hne : L ≠ []) :
    ∃ d, FcDict.build L = .ok d ∧ Locates d (findable L) FcDict.bufSize := by
  have hpos : 0 < L.length := List.length_pos_iff.mpr hne
  by_cases hn : L.length % 17 = 0
  · have v' := findable_valid v
    have hlen : (findable L).length = L.length - 16 := by simp [findable, hn]
    obtain ⟨d, h, R⟩ := FcDict.build_rep v' (Nat.le_refl _) v'.len (by rw [hlen]; omega)
    refine ⟨{ d with size := L.length }, ?_, ?_⟩
    · rw [FcDict.build, FC.build_mod17 hn hne]
      rw [FcDict.build] at h
      rw [findable, if_pos hn] at h
      rw [h]; rfl
    · intro t ht buf hb
      rw [FcDict.locate_size (by
        rw [R.size, hlen]; simp only [FC.tail]; (repeat' split) <;> omega)]
      exact Locates.of_rep v' R (by decide) t ht buf hb
  · obtain ⟨d, h, R⟩ := FcDict.build_rep v (Nat.le_refl _) v.len hn
    refine ⟨d, h, ?_⟩
    rw [findable, if_neg hn]
    exact Locates.of_rep v R (by decide)

/-- the ids (from 1) of the terms of `ts` that are in `L`, in the order of `ts` -/
def knownIds (L : List Str) (ts : List Str) : Ids :=
  ts.filterMap (fun t => if t ∈ L then some (L.idxOf t + 1) else none)

theorem knownIds_eq (L ts : List Str) : (ts.filter (fun t => decide (t ∈ L))).map (rankOf L) = knownIds L ts := by
  induction ts with
  | nil => rfl
  | cons t ts ih =>
      unfold knownIds at ih ⊢
      by_cases h : t ∈ L
      · simp [h, rankOf]; exact ih
      · simp [h]; exact ih

/-- **C29**: for every dictionary, every query without NUL bytes and every content of the static array: `parse` gives the last term
of the query as the incomplete one, and the ids of the known complete terms in their order; with `must_find_prefix` it fails
exactly when a complete term is not known to the dictionary. -/
theorem C29_parse {L : List Str} (v : ValidTerms L) (hne : L ≠ []) {q : Str} (hq : IsText q) :
    ∃ d, FcDict.build L = .ok d ∧ ∀ buf, buf.length = FcDict.bufSize →
      (∃ buf', parse d q false buf = .ok (true, knownIds (findable L) (completeTerms q), lastTerm q, buf') ∧
        buf'.length = buf.length) ∧
      ((∀ t ∈ completeTerms q, t ∈ findable L) → ∃ buf' ids, parse d q true buf = .ok (true, ids, lastTerm q, buf') ∧
        buf'.length = buf.length ∧ ids.map (fun i => (findable L)[i - 1]?) = (completeTerms q).map some) ∧
      ((∃ t ∈ completeTerms q, t ∉ findable L) → ∃ r, parse d q true buf = .ok (false, r)) := by
  obtain ⟨d, h, R⟩ := findable_locates v hne
  have v' := findable_valid v
  refine ⟨d, h, fun buf hb => ⟨?_, ?_, ?_⟩⟩
  · obtain ⟨ok, pfx, suffix, buf', p1, p2, p3, p4⟩ := parse_spec v' R false hq buf hb
    have hok : ok = true := p3.mpr (by simp)
    subst hok
    obtain ⟨q1, q2⟩ := p4 rfl
    rw [knownIds_eq] at q1
    subst q1 q2
    exact ⟨buf', p1, p2⟩
  · intro hall
    obtain ⟨ok, pfx, suffix, buf', p1, p2, p3, p4⟩ := parse_spec v' R true hq buf hb
    have hok : ok = true := p3.mpr (fun _ => hall)
    subst hok
    obtain ⟨q1, q2⟩ := p4 rfl
    subst q2
    refine ⟨buf', pfx, p1, p2, ?_⟩
    rw [q1, List.filter_eq_self.mpr (by simpa using hall), List.map_map]
    apply List.map_congr_left
    intro t ht
    have hi : (findable L).idxOf t < (findable L).length := List.idxOf_lt_length_iff.mpr (hall t ht)
    simp [rankOf, hi]
  · rintro ⟨t, ht, hne'⟩
    obtain ⟨ok, pfx, suffix, buf', p1, p2, p3, p4⟩ := parse_spec v' R true hq buf hb
    have hok : ok = false := by
      cases ok with
      | false => rfl
      | true => exact absurd (p3.mp rfl rfl t ht) hne'
    subst hok
    exact ⟨_, p1⟩

/-- what the specification says of the query `"  b  xx c"`, and of the query `"b "` -/
example : completeTerms [32, 32, 98, 32, 32, 120, 120, 32, 99] = [[98], [120, 120]] ∧
    lastTerm [32, 32, 98, 32, 32, 120, 120, 32, 99] = [99] ∧
    completeTerms [98, 32] = [[98]] ∧ lastTerm [98, 32] = [] ∧
    IsText [32, 32, 98, 32, 32, 120, 120, 32, 99] ∧ knownIds (findable sampleTerms) [[98], [120, 120]] = [4] := by
  decide

/-- `deduplicate` gives the distinct ids in increasing order -/
theorem C29_deduplicate (std : StdLib) (c : Ids) :
    (deduplicate std c).Pairwise (· < ·) ∧ (∀ x, x ∈ deduplicate std c ↔ x ∈ c) := deduplicate_spec std c

end AC.Props
