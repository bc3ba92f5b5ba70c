import Verif.Proofs.TestsCommon
import Verif.Proofs.ForwardIndex
import Verif.Props.Trie
import Verif.Proofs.Visit
/-!
# The tests of the trie and of the forward index
-/
namespace AC

/-- an access beyond the last value is out of bounds -/
theorem EF.access_past {e : EF} {vs : List W} (h : e.Rep vs) : e.access vs.length = .error .oob := by
  have := DA.select_past h.d1 h.highLen (fun i hi _ => by
    rw [seen_false]
    cases hq : bitAt e.high.bits i with
    | false => rfl
    | true => exact absurd (h.pad i hq) (by omega))
  rw [seen_false, h.total] at this
  unfold EF.access
  rw [this]
  rfl

theorem toWords_sorted {l : List Nat} (hs : l.Pairwise (· ≤ ·)) (hx : ∀ x ∈ l, x < 2 ^ 64) :
    (toWords l).Pairwise (fun a b => a.toNat ≤ b.toNat) := by
  unfold toWords
  rw [List.pairwise_map]
  refine List.Pairwise.imp_of_mem ?_ hs
  intro a b ha hb hab
  simp only [BitVec.toNat_ofNat]
  rw [Nat.mod_eq_of_lt (hx a ha), Nat.mod_eq_of_lt (hx b hb)]
  exact hab

/-- there is no list after the last one -/
theorem FwdIdx.iterator_past {numTerms : Nat} {lists : List (List Nat)} (h : FwdLists numTerms lists) {after : W} {fi : FwdIdx}
    (hb : FwdIdx.build numTerms lists after = .ok fi) : fi.iterator lists.length = .error .oob := by
  unfold FwdIdx.build at hb
  rw [readLists_eq] at hb
  dsimp only at hb
  obtain ⟨c, hc, hb⟩ := bind_ok hb
  obtain ⟨e, he, hb⟩ := bind_ok hb
  cases hb
  obtain ⟨e', e1, R⟩ := EF.build_spec (toWords ([0] ++ ends 0 lists)) (by simp [toWords])
    (toWords_sorted (ends_sorted 0 lists) (by
      intro x hx
      rcases List.mem_cons.mp hx with hx | hx
      · omega
      · have := ends_le 0 lists x hx; have := h.total; omega))
  rw [e1] at he
  cases he
  have hlen : (toWords ([0] ++ ends 0 lists)).length = lists.length + 1 := by simp [toWords, ends_length]
  unfold FwdIdx.iterator
  dsimp only
  have hp := EF.access_past R
  rw [hlen] at hp
  rw [EF.access_spec R _ (by omega), M.ok_bind, hp, M.error_bind]

namespace Tests

theorem membersOk_spec {T : List Trie.CLevel} {L : List Ids}
    (hT : ∀ c : Ids, (∀ x ∈ c, 0 < x ∧ x < 2 ^ 32) → ∃ m, Trie.isMember T (c ++ [0]) = .ok m ∧ (m = true ↔ c ∈ L)) :
    ∀ cs : List Ids, (∀ c ∈ cs, c ∈ L ∧ ∀ x ∈ c, 0 < x ∧ x < 2 ^ 32) → membersOk T cs = .ok true
  | [], _ => rfl
  | c :: cs, h => by
      obtain ⟨h1, h2⟩ := h c (List.mem_cons_self ..)
      obtain ⟨m, e1, e2⟩ := hT c h2
      unfold membersOk
      rw [e1, M.ok_bind, if_pos (e2.mpr h1)]
      exact membersOk_spec hT cs fun c hc => h c (List.mem_cons_of_mem _ hc)

theorem docOk_spec {fi : FwdIdx} {l : List Nat} {p n : Nat}
    (h : ∀ j (hj : j < l.length), ∃ x, fi.data.get (p + j) = .ok x ∧ x.toNat = l[j]) (hs : ∀ x ∈ l, x < 2 ^ 32) :
    ∀ (xs : List Nat) (i : Nat), i + xs.length = l.length → docOk fi xs ⟨p, n, i⟩ = .ok (decide (xs = l.drop i))
  | [], i, hi => by
      rw [List.drop_eq_nil_of_le (by simp at hi; omega)]
      simp [docOk]
  | x :: xs, i, hi => by
      have hi' : i < l.length := by simp at hi; omega
      obtain ⟨w, w1, w2⟩ := h i hi'
      have hd : FwdIt.deref fi ⟨p, n, i⟩ = .ok l[i] := by
        unfold FwdIt.deref
        dsimp only
        rw [w1, M.ok_bind, w2, id32, Nat.mod_eq_of_lt (hs _ (List.getElem_mem hi'))]
      unfold docOk
      rw [hd, M.ok_bind, List.drop_eq_getElem_cons hi']
      by_cases hx : l[i] = x
      · rw [if_neg (by simpa using hx), FwdIt.inc, docOk_spec h hs xs (i + 1) (by simp at hi; omega)]
        subst hx
        simp only [List.cons.injEq, true_and]
      · rw [if_pos hx]
        have : ¬ x :: xs = l[i] :: l.drop (i + 1) := by
          intro h; injection h with h1 _; exact hx h1.symm
        rw [decide_eq_false this]

section
variable {fi : FwdIdx} {numTerms : Nat} {A : List (List Nat)} (R : fi.Rep numTerms A) (lists : List (List Nat))

theorem getD_drop_take (l : List (List Nat)) (i k : Nat) (hi : i < l.length) :
    (l.drop i).take (k + 1) = l.getD i [] :: (l.drop (i + 1)).take k := by
  rw [List.drop_eq_getElem_cons hi, List.take_succ_cons]
  simp [hi]

include R in
/-- the comparison of the lists of the index with those of the file, `k` of them from list `i` on -/
theorem docsOk_spec (hlen : lists.length = A.length) : ∀ (k i : Nat), i + k ≤ A.length →
    docsOk fi lists k i = .ok (decide ((lists.drop i).take k = (A.drop i).take k))
  | 0, i, _ => by simp [docsOk]
  | k + 1, i, hi => by
      have hiA : i < A.length := by omega
      obtain ⟨p, p1, p2⟩ := R.at' i hiA
      have hs : ∀ x ∈ A[i], x < 2 ^ 32 := fun x hx => by
        have := R.valid.each _ (List.getElem_mem hiA) x hx
        have := R.valid.small
        omega
      unfold docsOk
      rw [p1, M.ok_bind, getD_drop_take lists i k (by omega), getD_drop_take A i k hiA]
      have hA : A.getD i [] = A[i] := by simp [hiA]
      rw [hA]
      dsimp only
      generalize lists.getD i [] = l
      by_cases hl : l.length = A[i].length
      · rw [if_neg (by simpa using hl), docOk_spec p2 hs l 0 (by omega), M.ok_bind, List.drop_zero]
        by_cases he : l = A[i]
        · simp only [he, decide_true, if_true, List.cons.injEq, true_and]
          exact docsOk_spec hlen k (i + 1) (by omega)
        · simp [he]
      · rw [if_pos hl]
        have : l ≠ A[i] := fun h => hl (by rw [h])
        simp [this]

include R in
/-- beyond the last list the index is read out of bounds -/
theorem docsOk_past (hlen : lists = A) (hp : fi.iterator A.length = .error .oob) : ∀ (k i : Nat), i ≤ A.length → A.length < i + k →
    docsOk fi lists k i = .error .oob
  | 0, i, _, _ => by omega
  | k + 1, i, h1, h2 => by
      by_cases hi : i < A.length
      · obtain ⟨p, p1, p2⟩ := R.at' i hi
        have hs : ∀ x ∈ A[i], x < 2 ^ 32 := fun x hx => by
          have := R.valid.each _ (List.getElem_mem hi) x hx
          have := R.valid.small
          omega
        unfold docsOk
        rw [p1, M.ok_bind]
        have hl : lists.getD i [] = A[i] := by subst hlen; simp [hi]
        dsimp only
        rw [hl, if_neg (by simp), docOk_spec p2 hs A[i] 0 (by omega), M.ok_bind, List.drop_zero]
        simp only [decide_true, if_true]
        exact docsOk_past hlen hp k (i + 1) (by omega) (by omega)
      · have : i = A.length := by omega
        subst this
        unfold docsOk
        rw [hp, M.error_bind]

end

/-- the comparison of an index of the lists `A` with a file that holds `lists` -/
theorem forwardOk_spec {fi : FwdIdx} {numTerms : Nat} {A : List (List Nat)} (R : fi.Rep numTerms A) (lists : List (List Nat))
    (hlen : lists.length = A.length) (hn : numTerms ≤ A.length) :
    forwardOk fi numTerms lists = .ok (decide (lists.take numTerms = A.take numTerms)) := by
  unfold forwardOk
  rw [if_neg (by rw [R.docs, R.terms]; simp [hlen]), R.terms]
  have := docsOk_spec R lists hlen numTerms 0 (by omega)
  simpa using this

theorem forward_past {numTerms : Nat} {lists : List (List Nat)} (h : FwdLists numTerms lists) (after : W)
    (hn : lists.length < numTerms) : forward numTerms lists after = .error .oob := by
  obtain ⟨fi, f1, R⟩ := FwdIdx.build_spec h after
  unfold forward
  rw [f1, M.ok_bind]
  unfold forwardOk
  rw [if_neg (by rw [R.docs, R.terms]; simp), R.terms]
  exact docsOk_past R lists rfl (FwdIdx.iterator_past h f1) numTerms 0 (by omega) (by omega)

end Tests
end AC
