import Verif.Proofs.Preprocess
import Verif.Proofs.Results
/-!
# The files of a valid collection are valid inputs of the constructors
-/
namespace AC
open Spec

theorem nodup_subset_sum {α : Type} [DecidableEq α] (f : α → Nat) {A B : List α} (hA : A.Nodup) (h : ∀ x ∈ A, x ∈ B) :
    (A.map f).sum ≤ (B.map f).sum := by
  induction A generalizing B with
  | nil => simp
  | cons a A ih =>
      rw [List.nodup_cons] at hA
      have ha := h a (List.mem_cons_self ..)
      have h1 := ih (B := B.erase a) hA.2 (by
        intro x hx
        have hne : x ≠ a := by rintro rfl; exact hA.1 hx
        exact (List.mem_erase_of_ne hne).mpr (h x (List.mem_cons_of_mem _ hx)))
      have h2 := ((List.perm_cons_erase ha).map f).sum_nat
      simp only [List.map_cons, List.sum_cons] at h2 ⊢
      omega

theorem nodup_subset_length' {α : Type} [DecidableEq α] {A B : List α} (hA : A.Nodup) (h : ∀ x ∈ A, x ∈ B) : A.length ≤ B.length := by
  induction A generalizing B with
  | nil => simp
  | cons a A ih =>
      rw [List.nodup_cons] at hA
      have ha := h a (List.mem_cons_self ..)
      have := ih (B := B.erase a) hA.2 (by
        intro x hx
        have hne : x ≠ a := by rintro rfl; exact hA.1 hx
        exact (List.mem_erase_of_ne hne).mpr (h x (List.mem_cons_of_mem _ hx)))
      rw [List.length_erase_of_mem ha] at this
      have := List.length_pos_of_mem ha
      simp; omega

theorem le_sum_of_mem' {n : Nat} : ∀ {l : List Nat}, n ∈ l → n ≤ l.sum
  | x :: xs, h => by
      rw [List.sum_cons]
      rcases List.mem_cons.mp h with rfl | h
      · omega
      · have := le_sum_of_mem' h; omega

theorem nodup_of_strict {L : List Str} (h : StrictSorted L) : L.Nodup :=
  h.imp (fun h => by intro he; subst he; exact List.lt_irrefl _ h)

section rank
variable {L : List Str} (hs : StrictSorted L)

theorem getElem_rankOf {t : Str} (h : t ∈ L) : L[rankOf L t - 1]? = some t := by
  have hx := List.idxOf_lt_length_iff.mpr h
  unfold rankOf
  rw [Nat.add_sub_cancel, List.getElem?_eq_getElem hx, List.getElem_idxOf]

theorem getD_rankOf {t : Str} (h : t ∈ L) : L.getD (rankOf L t - 1) [] = t := by
  rw [List.getD_eq_getElem?_getD, getElem_rankOf h]; rfl

theorem rankOf_le {t : Str} (h : t ∈ L) : rankOf L t ≤ L.length := by
  have := List.idxOf_lt_length_iff.mpr h
  unfold rankOf; omega

theorem rankOf_pos (t : Str) : 0 < rankOf L t := Nat.succ_pos _

theorem rankOf_inj {a b : Str} (ha : a ∈ L) (hb : b ∈ L) (h : rankOf L a = rankOf L b) : a = b := by
  have h1 := getElem_rankOf ha
  have h2 := getElem_rankOf hb
  rw [h, h2] at h1
  exact (Option.some.inj h1).symm

include hs in
theorem rankOf_getElem {i : Nat} (hi : i < L.length) : rankOf L L[i] = i + 1 := by
  unfold rankOf; rw [(nodup_of_strict hs).idxOf_getElem]

include hs in
theorem rankOf_lt {a b : Str} (ha : a ∈ L) (hb : b ∈ L) : rankOf L a < rankOf L b ↔ a < b := by
  have h1 := getElem_rankOf ha
  have h2 := getElem_rankOf hb
  have p1 := rankOf_pos (L := L) a
  have p2 := rankOf_pos (L := L) b
  obtain ⟨g1, g1'⟩ := List.getElem?_eq_some_iff.mp h1
  obtain ⟨g2, g2'⟩ := List.getElem?_eq_some_iff.mp h2
  have hp := List.pairwise_iff_getElem.mp hs
  constructor
  · intro h
    have := hp _ _ g1 g2 (by omega)
    rw [g1', g2'] at this; exact this
  · intro h
    rcases Nat.lt_trichotomy (rankOf L a) (rankOf L b) with h' | h' | h'
    · exact h'
    · rw [rankOf_inj ha hb h'] at h; exact absurd h (List.lt_irrefl _)
    · have := hp _ _ g2 g1 (by omega)
      rw [g1', g2'] at this
      exact absurd (List.lt_trans this h) (List.lt_irrefl _)

include hs in
theorem map_rankOf_lt : ∀ {a b : List Str}, (∀ t ∈ a, t ∈ L) → (∀ t ∈ b, t ∈ L) → (a.map (rankOf L) < b.map (rankOf L) ↔ a < b)
  | [], [], _, _ => by simp
  | [], b :: bs, _, _ => by simp
  | a :: as, [], _, _ => by simp
  | a :: as, b :: bs, ha, hb => by
      simp only [List.map_cons, List.cons_lt_cons_iff]
      rw [rankOf_lt hs (ha a (by simp)) (hb b (by simp)),
        map_rankOf_lt (fun t ht => ha t (by simp [ht])) (fun t ht => hb t (by simp [ht]))]
      constructor
      · rintro (h | ⟨h, h'⟩)
        · exact Or.inl h
        · exact Or.inr ⟨rankOf_inj (ha a (by simp)) (hb b (by simp)) h, h'⟩
      · rintro (h | ⟨h, h'⟩)
        · exact Or.inl h
        · exact Or.inr ⟨by rw [h], h'⟩

theorem map_rankOf_inj : ∀ {a b : List Str}, (∀ t ∈ a, t ∈ L) → (∀ t ∈ b, t ∈ L) → a.map (rankOf L) = b.map (rankOf L) → a = b
  | [], [], _, _, _ => rfl
  | [], b :: bs, _, _, h => by simp at h
  | a :: as, [], _, _, h => by simp at h
  | a :: as, b :: bs, ha, hb, h => by
      simp only [List.map_cons, List.cons.injEq] at h
      rw [rankOf_inj (ha a (by simp)) (hb b (by simp)) h.1,
        map_rankOf_inj (fun t ht => ha t (by simp [ht])) (fun t ht => hb t (by simp [ht])) h.2]

theorem textOf_map {c : List Str} (hc : ∀ t ∈ c, t ∈ L) : textOf L (c.map (rankOf L)) = joined c := by
  unfold textOf
  rw [List.map_map]
  congr 1
  conv => rhs; rw [← List.map_id c]
  apply List.map_congr_left
  intro t ht
  exact getD_rankOf (hc t ht)

end rank

/-- a valid collection with its files -/
structure Ready (C : Coll) (F : Files) : Prop where
  coll : ValidColl C
  files : FilesOf C F

namespace Ready
variable {C : Coll} {F : Files} (h : Ready C F)
include h

theorem mem {r : Nat × List Str} (hr : r ∈ C) : ∀ t ∈ r.2, t ∈ F.terms :=
  fun t ht => (h.files.memTerms t).mpr ⟨r, hr, ht⟩

theorem count_le : C.length ≤ (C.flatMap (·.2)).length := by
  have hne := h.coll.nonempty
  clear h
  induction C with
  | nil => simp
  | cons r C ih =>
      have := ih (fun r hr => hne r (by simp [hr]))
      have h1 := List.length_pos_iff.mpr (hne r (by simp))
      simp only [List.flatMap_cons, List.length_append, List.length_cons]
      omega

theorem termCount_le : F.terms.length ≤ (C.flatMap (·.2)).length := by
  apply nodup_subset_length' (nodup_of_strict h.files.terms)
  intro t ht
  rw [List.mem_flatMap]
  exact (h.files.memTerms t).mp ht

theorem validTerms : ValidTerms F.terms := by
  refine ⟨h.files.terms, ?_, ?_, ?_, ?_⟩
  · intro t ht
    obtain ⟨r, hr, ht⟩ := (h.files.memTerms t).mp ht
    exact (h.coll.words r hr t ht).2.1
  · intro t ht
    obtain ⟨r, hr, ht⟩ := (h.files.memTerms t).mp ht
    have h1 := h.coll.chars r hr
    have h2 : t.length ≤ (r.2.map List.length).sum := le_sum_of_mem' (List.mem_map.mpr ⟨t, ht, rfl⟩)
    omega
  · have := h.termCount_le
    have := h.coll.size
    omega
  · have h1 := nodup_subset_sum (fun t : Str => t.length + 2) (nodup_of_strict h.files.terms) (B := C.flatMap (·.2)) (fun t ht => by
      rw [List.mem_flatMap]
      exact (h.files.memTerms t).mp ht)
    have := h.coll.room
    omega

theorem snd_mapped : F.mapped.map (·.2) = C.map (fun r => r.2.map (rankOf F.terms)) := by
  rw [h.files.mapped, List.map_map]; rfl

theorem fst_mapped : F.mapped.map (·.1) = C.map (·.1) := by
  rw [h.files.mapped, List.map_map]; rfl

theorem length_mapped : F.mapped.length = C.length := by rw [h.files.mapped, List.length_map]

theorem validIds : ValidIds (F.mapped.map (·.2)) := by
  have hlen := h.termCount_le
  have hc := h.count_le
  have hsz := h.coll.size
  rw [h.snd_mapped]
  refine ⟨?_, ?_, ?_, ?_⟩
  · have hs := h.coll.sorted
    have hm : ∀ r ∈ C, ∀ t ∈ r.2, t ∈ F.terms := fun r hr => h.mem hr
    unfold StrictSorted
    rw [List.pairwise_map] at hs ⊢
    exact List.Pairwise.imp_of_mem (fun {a b} ha hb hab =>
      (map_rankOf_lt h.files.terms (hm a ha) (hm b hb)).mpr hab) hs
  · intro s hs x hx
    obtain ⟨r, hr, rfl⟩ := List.mem_map.mp hs
    obtain ⟨t, ht, rfl⟩ := List.mem_map.mp hx
    have := rankOf_le (h.mem hr t ht)
    exact ⟨rankOf_pos t, by omega⟩
  · intro s hs
    obtain ⟨r, hr, rfl⟩ := List.mem_map.mp hs
    simpa using h.coll.short r hr
  · rw [List.length_map]; omega

theorem nonempty_mapped : ∀ s ∈ F.mapped.map (·.2), s ≠ [] := by
  rw [h.snd_mapped]
  intro s hs
  obtain ⟨r, hr, rfl⟩ := List.mem_map.mp hs
  simpa using h.coll.nonempty r hr

theorem univ_lt : F.univ < 2 ^ 32 := by
  obtain ⟨r, hr, he⟩ := h.files.univ
  have := h.coll.ids r hr
  omega

theorem terms_ne : F.terms ≠ [] := by
  intro he
  obtain ⟨r, hr⟩ := List.exists_mem_of_ne_nil C h.coll.ne
  obtain ⟨t, ht⟩ := List.exists_mem_of_ne_nil r.2 (h.coll.nonempty r hr)
  have := h.mem hr t ht
  rw [he] at this; simp at this

theorem getD_terms {i : Nat} (hi : i < F.terms.length) : F.terms.getD i [] = F.terms[i] := by
  rw [List.getD_eq_getElem?_getD, List.getElem?_eq_getElem hi]; rfl

theorem mem_inverted {l : List Nat} (hl : l ∈ F.inverted) : ∃ i, i < F.terms.length ∧ l = F.inverted.getD i [] := by
  obtain ⟨i, hi, rfl⟩ := List.getElem_of_mem hl
  refine ⟨i, by rw [← h.files.numLists]; exact hi, ?_⟩
  rw [List.getD_eq_getElem?_getD, List.getElem?_eq_getElem hi]; rfl

/-- the number of postings -/
theorem postings_le : (F.inverted.map List.length).sum ≤ (C.flatMap (·.2)).length := by
  have hA : (F.inverted.map List.length).sum = ((F.inverted.zipIdx.map (fun p => p.1.map (fun d => (p.2, d))))).flatten.length := by
    rw [List.length_flatten, List.map_map]
    have : (List.length ∘ fun p : List Nat × Nat => p.1.map (fun d => (p.2, d))) = fun p : List Nat × Nat => p.1.length := by
      funext p; simp
    rw [this, show (fun p : List Nat × Nat => p.1.length) = List.length ∘ Prod.fst from rfl, ← List.map_map, List.zipIdx_map_fst]
  have hB : (C.flatMap (·.2)).length = (C.flatMap (fun r => r.2.map (fun t => (F.terms.idxOf t, r.1)))).length := by
    simp [List.length_flatMap]
  rw [hA, hB]
  apply nodup_subset_length'
  · rw [List.Nodup, List.pairwise_flatten]
    constructor
    · intro l hl
      obtain ⟨p, hp, rfl⟩ := List.mem_map.mp hl
      have hp' := List.mem_zipIdx' hp
      have : p.1.Pairwise (· < ·) := by
        obtain ⟨i, hi, he⟩ := h.mem_inverted (List.mem_of_getElem hp'.2.symm)
        rw [he]; exact h.files.sortedList i hi
      rw [List.pairwise_map]
      exact this.imp (fun hlt he => by simp at he; omega)
    · rw [List.pairwise_map, List.pairwise_iff_getElem]
      intro i j hi hj hij
      rw [List.length_zipIdx] at hi hj
      intro x hx y hy hxy
      simp only [List.getElem_zipIdx, List.mem_map] at hx hy
      obtain ⟨a, _, rfl⟩ := hx
      obtain ⟨b, _, rfl⟩ := hy
      simp at hxy; omega
  · intro x hx
    obtain ⟨l, hl, hx⟩ := List.mem_flatten.mp hx
    obtain ⟨p, hp, rfl⟩ := List.mem_map.mp hl
    obtain ⟨d, hd, rfl⟩ := List.mem_map.mp hx
    have hp' := List.mem_zipIdx' hp
    have hi : p.2 < F.terms.length := by rw [← h.files.numLists]; exact hp'.1
    have hd' : d ∈ F.inverted.getD p.2 [] := by
      rw [List.getD_eq_getElem?_getD, List.getElem?_eq_getElem hp'.1, ← hp'.2]; exact hd
    obtain ⟨c, hc, ht⟩ := (h.files.memList p.2 d hi).mp hd'
    rw [List.mem_flatMap]
    refine ⟨(d, c), hc, List.mem_map.mpr ⟨_, ht, ?_⟩⟩
    rw [h.getD_terms hi, (nodup_of_strict h.files.terms).idxOf_getElem]

theorem invLists : InvLists F.univ F.inverted := by
  refine ⟨?_, ?_, h.univ_lt, ?_⟩
  · intro he
    have := h.files.numLists
    rw [he] at this
    exact h.terms_ne (List.length_eq_zero_iff.mp this.symm)
  · intro l hl
    obtain ⟨i, hi, rfl⟩ := h.mem_inverted hl
    refine ⟨?_, h.files.sortedList i hi, ?_⟩
    · have ht : F.terms.getD i [] ∈ F.terms := by rw [h.getD_terms hi]; exact List.getElem_mem hi
      obtain ⟨r, hr, ht⟩ := (h.files.memTerms _).mp ht
      exact List.ne_nil_of_mem ((h.files.memList i r.1 hi).mpr ⟨r.2, hr, ht⟩)
    · intro d hd
      obtain ⟨c, hc, _⟩ := (h.files.memList i d hi).mp hd
      exact h.files.lt_univ _ hc
  · have := h.postings_le
    have := h.coll.size
    omega

theorem forward_cases (d : Nat) : F.forward.getD d [] = [] ∨ ∃ c, (d, c) ∈ C ∧ F.forward.getD d [] = c.map (rankOf F.terms) := by
  by_cases hd : d ∈ C.map (·.1)
  · obtain ⟨r, hr, rfl⟩ := List.mem_map.mp hd
    exact Or.inr ⟨r.2, hr, h.files.forward r hr⟩
  · exact Or.inl (h.files.noDoc d hd)

theorem mem_forward {l : List Nat} (hl : l ∈ F.forward) : l = [] ∨ ∃ r ∈ C, l = r.2.map (rankOf F.terms) := by
  obtain ⟨d, hd, rfl⟩ := List.getElem_of_mem hl
  have hget : F.forward.getD d [] = F.forward[d] := by rw [List.getD_eq_getElem?_getD, List.getElem?_eq_getElem hd]; rfl
  rw [← hget]
  rcases h.forward_cases d with he | ⟨c, hc, he⟩
  · exact Or.inl he
  · exact Or.inr ⟨_, hc, he⟩

theorem sum_le_mul : ∀ (l : List (List Nat)) (n : Nat), (∀ x ∈ l, x.length ≤ n) → (l.map List.length).sum ≤ l.length * n
  | [], n, _ => by simp
  | x :: xs, n, hx => by
      have := sum_le_mul xs n (fun y hy => hx y (by simp [hy]))
      have h1 := hx x (by simp)
      simp only [List.map_cons, List.sum_cons, List.length_cons, Nat.add_mul]
      omega

theorem fwdLists : FwdLists F.terms.length F.forward := by
  have hc := h.termCount_le
  have hsz := h.coll.size
  refine ⟨List.length_pos_iff.mpr h.terms_ne, by omega, ?_, ?_⟩
  · intro l hl x hx
    rcases h.mem_forward hl with rfl | ⟨r, hr, rfl⟩
    · simp at hx
    · obtain ⟨t, ht, rfl⟩ := List.mem_map.mp hx
      exact rankOf_le (h.mem hr t ht)
  · have := h.sum_le_mul F.forward 64 (by
      intro l hl
      rcases h.mem_forward hl with rfl | ⟨r, hr, rfl⟩
      · simp
      · have := h.coll.short r hr; simp; omega)
    rw [h.files.numDocs] at this
    have := h.univ_lt
    omega

end Ready

theorem Spec.ValidColl.ready {C : Coll} (h : ValidColl C) : Ready C (Pre.run C) := ⟨h, Pre.run_spec h.ne h.docs⟩

end AC
