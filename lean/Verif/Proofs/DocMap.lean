import Verif.Proofs.IntDictionary
/-!
# The map from documents to completions built with the dictionary of completions
-/
namespace AC.IntDict
open FC

/-- the assignments for a list of records -/
def lexAll : List (Nat × Ids) → Nat → List Nat → M (List Nat)
  | [], _, v => .ok v
  | r :: rs, lex, v => do
      let v ← wr v r.1 lex
      lexAll rs (lex + 1) v

theorem lexAll_append : ∀ (A B : List (Nat × Ids)) (lex : Nat) (v : List Nat),
    lexAll (A ++ B) lex v = (lexAll A lex v >>= fun v => lexAll B (lex + A.length) v)
  | [], B, lex, v => by simp [lexAll]
  | r :: A, B, lex, v => by
      simp only [List.cons_append, lexAll, List.length_cons]
      cases wr v r.1 lex with
      | error e => rfl
      | ok v' =>
          simp only [M.ok_bind, lexAll_append A B (lex + 1) v']
          congr 1; funext x; congr 1; omega

theorem lexBucket_eq : ∀ (n : Nat) (input : List (Nat × Ids)) (lex : Nat) (v : List Nat), n ≤ input.length →
    lexBucket n input lex v = (lexAll (input.take n) lex v >>= fun v => .ok (input.drop n, lex + n, v))
  | 0, input, lex, v, _ => by simp [lexBucket, lexAll]
  | n + 1, [], lex, v, h => by simp at h
  | n + 1, r :: input, lex, v, h => by
      simp only [lexBucket, List.take_succ_cons, lexAll, List.drop_succ_cons]
      cases wr v r.1 lex with
      | error e => rfl
      | ok v' =>
          simp only [M.ok_bind, lexBucket_eq n input (lex + 1) v' (by simpa using h)]
          congr 1; funext x; congr 3; omega

theorem lexLoop_eq (tl : Nat) : ∀ (nb : Nat) (input : List (Nat × Ids)) (lex : Nat) (v : List Nat),
    (nb ≠ 0 → 17 * (nb - 1) + 1 + tl ≤ input.length) →
    lexLoop tl nb input lex v = lexAll (input.take (if nb = 0 then 0 else 17 * (nb - 1) + 1 + tl)) lex v
  | 0, input, lex, v, _ => by simp [lexLoop, lexAll]
  | nb + 1, [], lex, v, h => by simp at h
  | nb + 1, r :: input, lex, v, h => by
      have h' := h (by omega)
      simp only [List.length_cons, Nat.add_sub_cancel] at h'
      have e : (if nb + 1 = 0 then 0 else 17 * (nb + 1 - 1) + 1 + tl) = (17 * nb + tl) + 1 := by
        rw [if_neg (by omega)]; omega
      rw [e, List.take_succ_cons]
      simp only [lexLoop, lexAll]
      cases wr v r.1 lex with
      | error e => rfl
      | ok v' =>
          simp only [M.ok_bind]
          have hsz : (if nb ≠ 0 then 16 else tl) ≤ input.length := by split <;> omega
          rw [lexBucket_eq _ _ _ _ hsz]
          have hsplit : input.take (17 * nb + tl) = input.take (if nb ≠ 0 then 16 else tl) ++
              (input.drop (if nb ≠ 0 then 16 else tl)).take (if nb = 0 then 0 else 17 * (nb - 1) + 1 + tl) := by
            by_cases h0 : nb = 0
            · subst h0; simp
            · rw [if_pos h0, if_neg h0, ← List.take_add]
              congr 1; omega
          rw [hsplit, lexAll_append]
          cases lexAll (input.take (if nb ≠ 0 then 16 else tl)) (lex + 1) v' with
          | error e => rfl
          | ok v'' =>
              simp only [M.ok_bind]
              rw [lexLoop_eq tl nb _ _ _ (by intro h0; rw [if_pos h0]; simp; omega)]
              congr 1
              rw [List.length_take, Nat.min_eq_left hsz]

/-- assignments to distinct places -/
theorem lexAll_spec : ∀ (rs : List (Nat × Ids)) (lex : Nat) (v : List Nat), (∀ r ∈ rs, r.1 < v.length) →
    (rs.map (·.1)).Nodup →
    ∃ v', lexAll rs lex v = .ok v' ∧ v'.length = v.length ∧
      (∀ i (hi : i < rs.length), v'[rs[i].1]? = some (lex + i)) ∧
      (∀ j, j ∉ rs.map (·.1) → v'[j]? = v[j]?)
  | [], lex, v, _, _ => ⟨v, rfl, rfl, by simp, by simp⟩
  | r :: rs, lex, v, hr, hn => by
      simp only [List.map_cons, List.nodup_cons] at hn
      have hr0 := hr r (by simp)
      obtain ⟨v', e1, e2, e3, e4⟩ := lexAll_spec rs (lex + 1) (v.set r.1 lex)
        (fun x hx => by simpa using hr x (by simp [hx])) hn.2
      refine ⟨v', by simp [lexAll, wr_ok hr0, e1], by simpa using e2, ?_, ?_⟩
      · intro i hi
        rcases i with _ | i
        · simp only [List.getElem_cons_zero, Nat.add_zero]
          rw [e4 r.1 hn.1]
          simp [hr0]
        · simp only [List.getElem_cons_succ]
          rw [e3 i (by simpa using hi)]
          congr 1; omega
      · intro j hj
        simp only [List.map_cons, List.mem_cons, not_or] at hj
        rw [e4 j hj.2]
        rw [List.getElem?_set_ne (by omega)]

/-- What the builder produces when the number of completions is not a multiple of 17 -/
theorem build_spec {univ : Nat} {rs : List (Nat × Ids)} (v : ValidIds (rs.map (·.2)))
    (hu : ∀ r ∈ rs, r.1 < univ) (hd : (rs.map (·.1)).Nodup) (hn : rs.length % 17 ≠ 0) :
    ∃ d m, build univ rs = .ok (d, m) ∧ Rep Elem.u32 64 d (rs.map (·.2)) ∧ m.length = univ ∧
      (∀ i (hi : i < rs.length), m[rs[i].1]? = some i) ∧
      (∀ j, j < univ → j ∉ rs.map (·.1) → m[j]? = some INVALID_TERM) := by
  obtain ⟨d, hd1, R⟩ := build_fc_rep v (by simpa using hn)
  have htl := FC.tail_eq hn
  obtain ⟨m, e1, e2, e3, e4⟩ := lexAll_spec rs 0 (List.replicate univ INVALID_TERM)
    (by simpa using hu) hd
  have hloop : lexLoop (FC.tail rs.length) ((rs.length + 16) / 17) rs 0 (List.replicate univ INVALID_TERM)
      = .ok m := by
    rw [lexLoop_eq _ _ _ _ _ (by rw [htl]; omega)]
    rw [List.take_of_length_le (by rw [htl, if_neg (by omega)]; omega), e1]
  refine ⟨d, m, ?_, R, by simpa using e2, ?_, ?_⟩
  · simp only [build, hloop, M.ok_bind, hd1]
  · intro i hi; rw [e3 i hi]; simp
  · intro j hj hjn
    rw [e4 j hjn]; simp [hj]

end AC.IntDict
