import Verif.Model.Autocomplete
import Verif.Proofs.UnionTopK
import Verif.Proofs.Parse
import Verif.Proofs.Intersection
/-!
# The iterators of the conjunctive queries enumerate the documents that contain all the complete terms
-/
namespace AC

/-- from the state `it` the iterator gives the documents `R`, and then stops -/
def DocIter.Enum {σ : Type} (I : DocIter σ) : σ → List Nat → Prop
  | it, [] => I.hasNext it = false
  | it, d :: R => I.hasNext it = true ∧ I.value it = d ∧ ∃ it', I.next it = .ok it' ∧ DocIter.Enum I it' R

theorem DocIter.list_enum {ii : InvIdx} {u : Nat} {xs : List Nat} (hu : u < 2 ^ 32) (n : Nat) :
    ∀ (it : CEI) (p : Nat), ii.ItAt u xs it p → xs.length - p = n → (DocIter.list ii).Enum it (xs.drop p) := by
  induction n with
  | zero =>
      intro it p h hn
      rw [List.drop_of_length_le (by omega)]
      show it.hasNext = false
      rw [h.hasNext]; simp; omega
  | succ n ih =>
      intro it p h hn
      have hp : p < xs.length := by omega
      rw [List.drop_eq_getElem_cons hp]
      obtain ⟨it', e1, e2⟩ := h.next hp
      refine ⟨?_, ?_, it', e1, ih it' (p + 1) e2 (by omega)⟩
      · show it.hasNext = true
        rw [h.hasNext]; simpa using hp
      · show id32 it.value = _
        have := h.lt_of_value hp
        rw [id32, Nat.mod_eq_of_lt (by omega), h.value, List.getElem?_eq_getElem hp]; rfl

theorem DocIter.inter_enum {ii : InvIdx} {u : Nat} {ls : List (List Nat)} (R : List Nat) :
    ∀ (s : Inter), Inter.Enum ii u s ls R → (DocIter.inter ii).Enum s R := by
  induction R with
  | nil => intro s h; exact h.step.1 rfl
  | cons d R ih =>
      intro s h
      obtain ⟨h1, h2, s', h3, h4⟩ := h.step.2 d R rfl
      exact ⟨h1, h2, s', h3, ih s' h4⟩

theorem rd_zero_of_length_one {c : List Nat} (h : c.length = 1) : ∃ t, c = [t] ∧ rd c 0 = .ok t := by
  match c, h with
  | [t], _ => exact ⟨t, rfl, rfl⟩

/-- whatever the loop does with an iterator over the documents that contain all the terms, `withDocs` does -/
theorem withDocs_spec {β : Type} {std : StdLib} {ii : InvIdx} {u : Nat} {lists : List (List Nat)} (h : ii.Rep u lists)
    {pfx : Ids} (hne : pfx ≠ []) (hin : ∀ t ∈ pfx, 0 < t ∧ t ≤ lists.length) {R : List Nat} (hR : R.Pairwise (· < ·))
    (hmem : ∀ d, d ∈ R ↔ ∀ t ∈ pfx, d ∈ lists.getD (t - 1) []) (run : {σ : Type} → DocIter σ → σ → M β) (Q : M β → Prop)
    (hrun : ∀ {σ : Type} (I : DocIter σ) (it : σ), I.Enum it R → Q (run I it)) : Q (withDocs std ii pfx run) := by
  obtain ⟨d1, d2⟩ := deduplicate_spec std pfx
  have hdne : deduplicate std pfx ≠ [] := by
    intro he
    cases pfx with
    | nil => exact hne rfl
    | cons t ts => have := (d2 t).mpr (by simp); rw [he] at this; simp at this
  have hdin : ∀ t ∈ deduplicate std pfx, 0 < t ∧ t ≤ lists.length := fun t ht => hin t ((d2 t).mp ht)
  have hdmem : ∀ d, d ∈ R ↔ ∀ t ∈ deduplicate std pfx, d ∈ lists.getD (t - 1) [] := by
    intro d; rw [hmem]
    exact ⟨fun H t ht => H t ((d2 t).mp ht), fun H t ht => H t ((d2 t).mpr ht)⟩
  unfold withDocs
  generalize deduplicate std pfx = c at *
  dsimp only
  split
  · rename_i hc
    obtain ⟨t, rfl, hrd⟩ := rd_zero_of_length_one hc
    have ht := hdin t (by simp)
    have htl : t - 1 < lists.length := by omega
    obtain ⟨it, e1, e2⟩ := InvIdx.iterator_spec h (t - 1) htl
    have hRt : R = lists[t - 1] := by
      apply strict_ext hR e2.sorted
      intro d; rw [hdmem]
      simp [List.getElem?_eq_getElem htl]
    rw [hrd, M.ok_bind, InvIdx.iteratorOf_pos ht.1, e1, M.ok_bind]
    apply hrun
    rw [hRt]
    exact DocIter.list_enum h.valid.univ _ it 0 e2 rfl
  · obtain ⟨s, ls, e1, e2⟩ := Inter.mk'_spec std h c hdne hdin R hR hdmem
    rw [e1, M.ok_bind]
    exact hrun _ _ (DocIter.inter_enum R s e2)

end AC
