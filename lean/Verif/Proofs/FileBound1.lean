import Verif.Proofs.FileBound
/-!
# A bound on the size of indexes of type 1
-/
namespace AC
open Spec

namespace Trie

/-- the completions that reach level `i`, with their terminators -/
def reach (i : Nat) (cs : List Ids) : Nat := (cs.filter fun c => i ≤ c.length).length

/-- at most `n` nodes and `m` sizes -/
structure Level.Short (n m : Nat) (t : Level) : Prop where
  nodes : t.nodes.length ≤ n
  left : t.left.length ≤ n
  sizes : t.sizes.length ≤ m
  ptrs : t.ptrs.length ≤ m + 1

theorem Level.step_short {n m levels l prevS k i : Nat} {c : Ids} {t : Level} (h : t.Short n m) :
    (t.step levels l prevS c k i).Short (n + if i ≤ c.length then 1 else 0) (m + if 0 < prevS ∧ i ≤ prevS then 1 else 0) := by
  obtain ⟨h1, h2, h3, h4⟩ := h
  unfold Level.step
  dsimp only
  constructor <;> (repeat' split) <;> (try simp only [List.length_append, List.length_cons, List.length_nil]) <;> omega

theorem reach_cons (i : Nat) (c : Ids) (cs : List Ids) : reach i (c :: cs) = (if i ≤ c.length then 1 else 0) + reach i cs := by
  unfold reach
  by_cases h : i ≤ c.length
  · rw [List.filter_cons_of_pos (by simpa using h), if_pos h, List.length_cons, Nat.add_comm]
  · rw [List.filter_cons_of_neg (by simpa using h), if_neg h, Nat.zero_add]

theorem loop_short {levels : Nat} : ∀ (cs : List Ids) (prev : Ids) (k : Nat) (ts : List Level) (n m : Nat → Nat) (r : Ids × Nat × List Level),
    loop levels prev k cs ts = .ok r → (∀ (i : Nat) (t : Level), ts[i]? = some t → t.Short (n i) (m i)) →
    ∀ (i : Nat) (t : Level), r.2.2[i]? = some t → t.Short (n i + reach i cs) (m i + (if 0 < prev.length ∧ i ≤ prev.length then 1 else 0) + reach i cs)
  | [], prev, _, _, n, m, _, h, hs => by
      cases h
      intro i t ht
      obtain ⟨h1, h2, h3, h4⟩ := hs i t ht
      exact ⟨by omega, by omega, by omega, by omega⟩
  | c :: cs, prev, k, ts, n, m, r, h, hs => by
      unfold loop at h
      split at h
      · intro i t ht
        have := loop_short cs _ _ _ (fun i => n i + if i ≤ c.length then 1 else 0) (fun i => m i + if 0 < prev.length ∧ i ≤ prev.length then 1 else 0) r h (by
          intro i t ht
          rw [List.getElem?_mapIdx] at ht
          obtain ⟨t', e1, e2⟩ := Option.map_eq_some_iff.mp ht
          subst e2
          exact Level.step_short (hs i t' e1)) i t ht
        obtain ⟨h1, h2, h3, h4⟩ := this
        rw [reach_cons]
        have : (if 0 < c.length ∧ i ≤ c.length then 1 else 0) ≤ (if i ≤ c.length then 1 else 0) := by
          repeat' split
          all_goals omega
        exact ⟨by omega, by omega, by omega, by omega⟩
      · cases h

theorem finish_short {levels prevS k next i n m : Nat} {t : Level} (h : t.Short n m) : (t.finish levels prevS k next i).Short n (m + 1) := by
  obtain ⟨h1, h2, h3, h4⟩ := h
  unfold Level.finish
  dsimp only
  constructor <;> (repeat' split) <;> simp [sumLoop_length] <;> omega

theorem collect_short {levels : Nat} {cs : List Ids} {ts : List Level} (h : collect levels cs = .ok ts) :
    ∀ (i : Nat) (t : Level), ts[i]? = some t → t.Short (reach i cs) (reach i cs + 1) := by
  unfold collect at h
  obtain ⟨⟨prev, n, ts'⟩, e, h⟩ := bind_ok h
  dsimp only at h
  split at h
  · cases h
  cases h
  intro i t ht
  rw [List.getElem?_mapIdx] at ht
  obtain ⟨t', e1, e2⟩ := Option.map_eq_some_iff.mp ht
  subst e2
  have := loop_short cs _ _ _ (fun _ => 0) (fun _ => 0) _ e (by
    intro i t ht
    rw [List.eq_of_mem_replicate (List.mem_of_getElem? ht)]
    constructor <;> simp [Level.init]) i t' e1
  simp only [List.length_nil, Nat.lt_irrefl, false_and, if_false, Nat.zero_add] at this
  exact finish_short this

theorem buildNodes_bound {ts : List Level} {i : Nat} {t : Level} {x : EF} (h : buildNodes ts i t = .ok x) : x.bytes ≤ 9 * t.nodes.length + 200 := by
  unfold buildNodes at h
  split at h
  · obtain ⟨q, _, h⟩ := bind_ok h
    unfold EF.buildRuns at h
    obtain ⟨_, _, h⟩ := bind_ok h
    obtain ⟨_, _, h⟩ := bind_ok h
    obtain ⟨values, e, h⟩ := bind_ok h
    have h1 := EF.sumLoop_len _ _ _ _ _ _ _ _ e
    have h2 := EF.build_bound h
    simp [words] at h1
    omega
  · have := EF.build_bound h
    simpa [words] using this

theorem buildLevel_bound {levels : Nat} {cs : List Ids} {ts : List Level} (h : collect levels cs = .ok ts) {i : Nat} {t : CLevel}
    (ht : buildLevel levels ts i = .ok t) : ∀ p, ptrBytesIf levels i t = .ok p → t.nodes.bytes + t.left.bytes + t.sizes.bytes + p ≤ 36 * reach i cs + 900 := by
  unfold buildLevel at ht
  obtain ⟨l, e0, ht⟩ := bind_ok ht
  obtain ⟨p, e1, ht⟩ := bind_ok ht
  obtain ⟨lf, e2, ht⟩ := bind_ok ht
  obtain ⟨sz, e3, ht⟩ := bind_ok ht
  obtain ⟨nd, e4, ht⟩ := bind_ok ht
  cases ht
  have hl : ts[i]? = some l := by
    unfold rd at e0
    split at e0
    · rename_i z hz
      cases e0
      exact hz
    · cases e0
  obtain ⟨s1, s2, s3, s4⟩ := collect_short h i l hl
  have b1 := EF.build_bound e2
  have b2 := EF.build_bound e3
  have b3 := buildNodes_bound e4
  simp only [words, List.length_map] at b1 b2
  intro q hq
  have hq' : q ≤ 9 * l.ptrs.length + 200 := by
    unfold ptrBytesIf at hq
    split at hq
    · rename_i hne
      unfold buildPtrs at e1
      rw [if_pos hne] at e1
      obtain ⟨p', e5, e1⟩ := bind_ok e1
      cases e1
      cases hq
      have := EF.build_bound e5
      simpa [words] using this
    · cases hq
      omega
  dsimp only
  omega

theorem bytesLoop_bound {levels : Nat} {g : Nat → Nat} : ∀ (x : List CLevel) (i b n : Nat),
    (∀ j t, x[j]? = some t → ∀ p, ptrBytesIf levels (i + j) t = .ok p → t.nodes.bytes + t.left.bytes + t.sizes.bytes + p ≤ g (i + j)) →
    bytesLoop levels i x b = .ok n → n ≤ b + ((List.range x.length).map fun j => g (i + j)).sum
  | [], _, _, _, _, h => by cases h; simp
  | t :: x, i, b, n, hg, h => by
      unfold bytesLoop at h
      obtain ⟨p, e, h⟩ := bind_ok h
      have h0 := hg 0 t rfl p e
      have ih := bytesLoop_bound x (i + 1) _ n (fun j t' hj q hq => by
        have := hg (j + 1) t' (by simpa using hj)
        rw [show i + (j + 1) = i + 1 + j by omega] at this
        exact this q hq) h
      rw [List.length_cons, List.range_succ_eq_map, List.map_cons, List.map_map, List.sum_cons]
      have e2 : ((fun j => g (i + j)) ∘ Nat.succ) = fun j => g (i + 1 + j) := by
        funext j
        show g (i + (j + 1)) = _
        rw [show i + (j + 1) = i + 1 + j by omega]
      rw [e2]
      rw [Nat.add_zero] at h0 ⊢
      omega

/-- each completion reaches as many levels as it has terms, and one more -/
theorem reach_sum (cs : List Ids) (levels : Nat) : ((List.range levels).map fun i => reach i cs).sum ≤ (cs.map fun c => c.length + 1).sum := by
  have one : ∀ (n : Nat) (k : Nat), ((List.range k).map fun i => if i ≤ n then 1 else 0).sum ≤ min k (n + 1) := by
    intro n k
    induction k with
    | zero => simp
    | succ k ih =>
        rw [List.range_succ, List.map_append, List.sum_append]
        simp only [List.map_cons, List.map_nil, List.sum_cons, List.sum_nil]
        split <;> omega
  induction cs with
  | nil =>
      have : ∀ k : Nat, ((List.range k).map fun i => reach i ([] : List Ids)).sum = 0 := by
        intro k
        induction k with
        | zero => rfl
        | succ k ih => rw [List.range_succ, List.map_append, List.sum_append, ih]; rfl
      rw [this]
      exact Nat.zero_le _
  | cons c cs ih =>
      have split : ∀ k : Nat, ((List.range k).map fun i => reach i (c :: cs)).sum =
          ((List.range k).map fun i => if i ≤ c.length then 1 else 0).sum + ((List.range k).map fun i => reach i cs).sum := by
        intro k
        induction k with
        | zero => rfl
        | succ k ih =>
            rw [List.range_succ, List.map_append, List.sum_append, ih, List.map_append, List.sum_append, List.map_append, List.sum_append]
            simp only [List.map_cons, List.map_nil, List.sum_cons, List.sum_nil, reach_cons]
            omega
      have := one c.length levels
      rw [split, List.map_cons, List.sum_cons]
      omega

theorem build_bound {levels : Nat} {cs : List Ids} {x : List CLevel} (h : build levels cs = .ok x) {n : Nat} (hn : bytes x = .ok n) :
    n ≤ 36 + 36 * (cs.map fun c => c.length + 1).sum + 900 * levels := by
  unfold build at h
  obtain ⟨ts, e, h⟩ := bind_ok h
  obtain ⟨hlen, hget⟩ := tabM_get h
  unfold bytes at hn
  rw [hlen] at hn
  have := bytesLoop_bound (g := fun i => 36 * reach i cs + 900) x 0 _ n (fun j t hj p hp => by
    rw [Nat.zero_add] at hp ⊢
    exact buildLevel_bound e (hget j t hj) p hp) hn
  have hs := reach_sum cs levels
  have lin : ∀ k : Nat, ((List.range k).map fun j => 36 * reach (0 + j) cs + 900).sum = 36 * ((List.range k).map fun i => reach i cs).sum + 900 * k := by
    intro k
    induction k with
    | zero => rfl
    | succ k ih =>
        rw [List.range_succ, List.map_append, List.sum_append, ih, List.map_append, List.sum_append]
        simp only [List.map_cons, List.map_nil, List.sum_cons, List.sum_nil, Nat.zero_add]
        omega
  rw [hlen, lin] at this
  omega

end Trie

theorem FwdIdx.build_bound {n : Nat} {lists : List (List Nat)} {a : W} {x : FwdIdx} (hx : FwdIdx.build n lists a = .ok x) :
    x.bytes ≤ 9 * lists.length + 8 * (lists.map List.length).sum + 300 := by
  unfold FwdIdx.build at hx
  rw [readLists_eq] at hx
  dsimp only at hx
  obtain ⟨d, e1, hx⟩ := bind_ok hx
  obtain ⟨p, e2, hx⟩ := bind_ok hx
  cases hx
  have h1 := CV.build_bound e1
  have h2 := EF.build_bound e2
  simp only [toWords, List.length_map, List.length_append, List.length_cons, List.length_nil, ends_length, List.nil_append, List.length_flatten] at h1 h2
  unfold FwdIdx.bytes
  dsimp only
  omega

namespace Ready
variable {C : Coll} {F : Files} (h : Ready C F)
include h

/-- every term of a completion is once in the forward index -/
theorem forward_le : (F.forward.map List.length).sum ≤ (C.flatMap (·.2)).length := by
  have key : ∀ u, ((List.range u).map fun d => (F.forward.getD d []).length).sum ≤ ((C.filter fun r => r.1 < u).flatMap (·.2)).length := by
    intro u
    induction u with
    | zero => simp
    | succ u ih =>
        rw [List.range_succ, List.map_append, List.sum_append]
        simp only [List.map_cons, List.map_nil, List.sum_cons, List.sum_nil]
        have split : ∀ C : Coll, ((C.filter fun r => r.1 < u + 1).flatMap (·.2)).length =
            ((C.filter fun r => r.1 < u).flatMap (·.2)).length + ((C.filter fun r => r.1 == u).flatMap (·.2)).length := by
          intro C
          induction C with
          | nil => rfl
          | cons r C ih' =>
              rcases Nat.lt_trichotomy r.1 u with hr | hr | hr
              · rw [List.filter_cons_of_pos (by simp; omega), List.filter_cons_of_pos (by simp; omega), List.filter_cons_of_neg (by simp; omega)]
                simp only [List.flatMap_cons, List.length_append]
                omega
              · rw [List.filter_cons_of_pos (by simp; omega), List.filter_cons_of_neg (by simp; omega), List.filter_cons_of_pos (by simp; omega)]
                simp only [List.flatMap_cons, List.length_append]
                omega
              · rw [List.filter_cons_of_neg (by simp; omega), List.filter_cons_of_neg (by simp; omega), List.filter_cons_of_neg (by simp; omega)]
                exact ih'
        rw [split C]
        have : (F.forward.getD u []).length ≤ ((C.filter fun r => r.1 == u).flatMap (·.2)).length := by
          rcases h.forward_cases u with he | ⟨c, hc, he⟩
          · rw [he]; simp
          · rw [he, List.length_map]
            have hm : (u, c) ∈ C.filter fun r => r.1 == u := List.mem_filter.mpr ⟨hc, by simp⟩
            generalize C.filter (fun r => r.1 == u) = l at hm
            clear split ih he
            induction l with
            | nil => simp at hm
            | cons r l ih =>
                rw [List.flatMap_cons, List.length_append]
                rcases List.mem_cons.mp hm with rfl | hm
                · exact Nat.le_add_right _ _
                · have := ih hm
                  omega
        omega
  have e : F.forward.map List.length = (List.range F.forward.length).map fun d => (F.forward.getD d []).length := by
    apply List.ext_getElem (by simp)
    intro i h1 h2
    rw [List.length_map] at h1
    simp [h1]
  have hf : ∀ C : Coll, ((C.filter fun r => r.1 < F.forward.length).flatMap (·.2)).length ≤ (C.flatMap (·.2)).length := by
    intro C
    induction C with
    | nil => simp
    | cons r C ih =>
        rw [List.filter_cons, List.flatMap_cons, List.length_append]
        split
        · rw [List.flatMap_cons, List.length_append]
          omega
        · omega
  rw [e]
  exact Nat.le_trans (key _) (hf C)

theorem words_succ : ((F.mapped.map (·.2)).map fun c => c.length + 1).sum ≤ 2 * (C.flatMap (·.2)).length := by
  rw [h.snd_mapped]
  have hne := h.coll.nonempty
  generalize rankOf F.terms = f
  clear h
  induction C with
  | nil => simp
  | cons r C ih =>
      have := ih (fun r hr => hne r (by simp [hr]))
      have h1 := List.length_pos_iff.mpr (hne r (by simp))
      simp only [List.map_cons, List.sum_cons, List.length_map, List.flatMap_cons, List.length_append] at this ⊢
      omega

end Ready

/-- a collection of less than 2^26 terms (with repetitions) with document ids below 2^28 -/
theorem Index1.build_bound {C : Coll} {F : Files} (h : Ready C F) {mem : Nat → W} {x : Index1} (hx : Index1.build F mem = .ok x)
    (hw : (C.flatMap (·.2)).length < 2 ^ 26) (hd : ∀ r ∈ C, r.1 < 2 ^ 28) {n : Nat} (hn : x.bytes = .ok n) : n < 2 ^ 35 := by
  unfold Index1.build at hx
  obtain ⟨ib, e1, hx⟩ := bind_ok hx
  obtain ⟨docs, e2, hx⟩ := bind_ok hx
  obtain ⟨minimal, e3, hx⟩ := bind_ok hx
  obtain ⟨compl, e4, hx⟩ := bind_ok hx
  obtain ⟨dict, e5, hx⟩ := bind_ok hx
  obtain ⟨inv, e6, hx⟩ := bind_ok hx
  obtain ⟨fwd, e7, hx⟩ := bind_ok hx
  cases hx
  unfold Index1.bytes at hn
  obtain ⟨c, e8, hn⟩ := bind_ok hn
  cases hn
  have hm := h.mapped_lt
  have hml := h.length_mapped
  have hcl := h.count_le
  have htc := h.termCount_le
  have b1 := Trie.build_bound e4 e8
  have w1 := h.words_succ
  have hlev : F.levels ≤ 64 := by
    obtain ⟨r, hr, he⟩ := h.files.levels
    have := h.coll.short r hr
    omega
  have b2 := UL.build_bound e2 (by rw [List.length_map]; exact hm)
  rw [List.length_map] at b2
  obtain ⟨ib', c1, c2, c3⟩ := InvBuilder.build_spec h.invLists
  rw [e1] at c1
  cases c1
  have hl : ib.minimal.length = F.terms.length := by rw [c2, List.length_map, h.files.numLists]
  have b3 := UL.build_bound e3 (by omega)
  have b4 : dict.bytes 4 1 ≤ F.terms.length + max 1 1 * FC.cost F.terms + Elem.byte.cap * Elem.byte.width + 200 := by
    refine FC.build_bound FC.plain_byte (by decide) (by decide) (by decide) e5 (fun s hs x hx => ?_)
    have := h.validTerms.text s hs x hx
    omega
  have k2 : Elem.byte.cap * Elem.byte.width ≤ 1000 := by decide
  have hct := h.cost_terms
  rw [show max 1 1 = 1 from rfl] at b4
  have b5 := InvIdx.build_bound h.invLists e1 e6
  have hp := h.postings_le
  have b6 := FwdIdx.build_bound e7
  have hfl : F.forward.length ≤ 2 ^ 28 := by
    obtain ⟨r, hr, he⟩ := h.files.univ
    have := hd r hr
    rw [h.files.numDocs]
    omega
  have hfs := h.forward_le
  dsimp only
  omega

end AC
