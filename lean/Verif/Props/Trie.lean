import Verif.Proofs.TrieLocate
import Verif.Props.Completions
/-!
# C13: the trie of completions
-/
namespace AC.Props
open AC

/-- **C13**. For every list of completions (`ValidIds`: strictly sorted, positive 32-bit term ids), none empty, and the number
of levels `preprocess` computes for it (the length of the longest completion, plus one for the terminator): building the trie
succeeds; `locate_prefix(prefix, [b, e])` returns the half-open range of the positions of the completions starting with
`prefix` and a term between `b` and `e`, and an invalid range when there is none; `is_member(c)` tells whether `c` (with the
terminator appended) is one of the completions. -/
theorem C13_trie (L : List Ids) (v : ValidIds L) (hne : ∀ s ∈ L, s ≠ []) (levels : Nat)
    (hmax : ∃ c ∈ L, c.length + 1 = levels) (hlt : ∀ c ∈ L, c.length < levels) :
    ∃ T, Trie.build levels L = .ok T ∧
      (∀ (pfx : Ids) (b e : Nat), (∀ x ∈ pfx, 0 < x ∧ x < 2 ^ 32) → 0 < b → b ≤ e → e < 2 ^ 32 →
        ∃ r, Trie.locatePrefix T pfx ⟨b, e⟩ = .ok r ∧ CompletionRange L pfx b e r) ∧
      (∀ c : Ids, (∀ x ∈ c, 0 < x ∧ x < 2 ^ 32) → ∃ m, Trie.isMember T (c ++ [0]) = .ok m ∧ (m = true ↔ c ∈ L)) := by
  have hL : Trie.Compl L := ⟨v.sorted, fun s hs x hx => (v.elems s hs x hx).1, hne⟩
  have hn := v.count
  obtain ⟨T, t1, t2⟩ := Trie.build_spec hL ⟨hlt, hmax⟩ (fun s hs x hx => by have := (v.elems s hs x hx).2; omega) (by omega)
  refine ⟨T, t1, ?_, fun c hc => Trie.member_spec t2 hc⟩
  intro pfx b e hp hb hbe he
  exact Trie.locate_spec t2 hL ⟨hlt, hmax⟩ hp hb hbe he

/-- The same for ranges that begin with the terminator: `locate_prefix(prefix, [b, e])` returns the interval of the completions that, with their terminator 0, start with
`prefix` and a number between `b` and `e`. With `b = 0` the completion `prefix` itself is among them. -/
theorem C13_trie_all (L : List Ids) (v : ValidIds L) (hne : ∀ s ∈ L, s ≠ []) (levels : Nat)
    (hmax : ∃ c ∈ L, c.length + 1 = levels) (hlt : ∀ c ∈ L, c.length < levels) :
    ∃ T, Trie.build levels L = .ok T ∧ ∀ (pfx : Ids) (b e : Nat), (∀ x ∈ pfx, 0 < x ∧ x < 2 ^ 32) → b ≤ e → e < 2 ^ 32 →
      ∃ r, Trie.locatePrefix T pfx ⟨b, e⟩ = .ok r ∧ CompletionRange (L.map (· ++ [0])) pfx b e r := by
  have hL : Trie.Compl L := ⟨v.sorted, fun s hs x hx => (v.elems s hs x hx).1, hne⟩
  have hn := v.count
  obtain ⟨T, t1, t2⟩ := Trie.build_spec hL ⟨hlt, hmax⟩ (fun s hs x hx => by have := (v.elems s hs x hx).2; omega) (by omega)
  refine ⟨T, t1, fun pfx b e hp hbe he => ?_⟩
  obtain ⟨r, r1, r2⟩ := Trie.locate_all t2 hL ⟨hlt, hmax⟩ hp hbe he
  refine ⟨r, r1, r2.imp (fun ⟨h1, h2⟩ => ⟨h1, fun s hs => ?_⟩) (fun ⟨h1, h2, h3⟩ => ⟨h1, by simpa using h2, fun i hi => ?_⟩)⟩
  · obtain ⟨c, hc, rfl⟩ := List.mem_map.mp hs
    exact h2 c hc
  · rw [List.length_map] at hi
    rw [h3 i hi, List.getElem_map]

/-- the hypotheses are met by twenty completions of up to three terms -/
example : ValidIds (sampleRecords.map (·.2)) ∧ (∀ s ∈ sampleRecords.map (·.2), s ≠ []) ∧
    (∃ c ∈ sampleRecords.map (·.2), c.length + 1 = 4) ∧ (∀ c ∈ sampleRecords.map (·.2), c.length < 4) := by
  exact ⟨sampleRecords_ok.1, by decide, ⟨[1, 2, 3], by decide⟩, by decide⟩

/-- without the hypothesis that no completion is empty the claim is false: the node of an empty completion is never closed, and
the range found for the single completion `[1]` also contains `[2]` -/
theorem C13_empty_completion : ValidIds [[], [1], [2]] ∧
    (do let T ← Trie.build 2 [[], [1], [2]]
        Trie.locatePrefix T [] ⟨1, 1⟩) = .ok ⟨1, 3⟩ := by
  exact ⟨by decide, by decide +kernel⟩

end AC.Props
