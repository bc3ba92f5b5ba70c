import Verif.Model.Parse
import Verif.Spec.Query
import Verif.Proofs.FcDictionary
/-!
# Parsing
-/
namespace AC
open Spec

theorem pieces_ne_nil : ∀ s : Str, pieces s ≠ []
  | [] => by simp [pieces]
  | c :: s => by
      unfold pieces
      split
      · simp
      · split <;> simp

theorem pieces_space (s : Str) : pieces (32 :: s) = [] :: pieces s := by
  simp [pieces, space]

theorem pieces_token : ∀ (t : Str), (∀ c ∈ t, c ≠ 32) → ∀ s : Str,
    pieces t = [t] ∧ pieces (t ++ 32 :: s) = t :: pieces s
  | [], _, s => by simp [pieces, space]
  | c :: t, h, s => by
      obtain ⟨h1, h2⟩ := pieces_token t (fun x hx => h x (List.mem_cons_of_mem _ hx)) s
      have hc : c ≠ space := h c (List.mem_cons_self ..)
      constructor
      · rw [pieces, if_neg hc, h1]
      · rw [List.cons_append, pieces, if_neg hc, h2]

theorem completeTerms_space (s : Str) : completeTerms (32 :: s) = completeTerms s ∧ lastTerm (32 :: s) = lastTerm s := by
  have := pieces_ne_nil s
  unfold completeTerms lastTerm
  rw [pieces_space]
  obtain ⟨p, ps, hp⟩ := List.exists_cons_of_ne_nil this
  rw [hp]
  constructor
  · rw [List.dropLast_cons_of_ne_nil (by simp)]
    rfl
  · simp

theorem completeTerms_token {t : Str} (h : ∀ c ∈ t, c ≠ 32) : completeTerms t = [] ∧ lastTerm t = t := by
  unfold completeTerms lastTerm
  rw [(pieces_token t h []).1]
  simp

theorem completeTerms_cons {t : Str} (h : ∀ c ∈ t, c ≠ 32) (hne : t ≠ []) (s : Str) :
    completeTerms (t ++ 32 :: s) = t :: completeTerms s ∧ lastTerm (t ++ 32 :: s) = lastTerm s := by
  have := pieces_ne_nil s
  unfold completeTerms lastTerm
  rw [(pieces_token t h s).2]
  obtain ⟨p, ps, hp⟩ := List.exists_cons_of_ne_nil this
  rw [hp]
  constructor
  · rw [List.dropLast_cons_of_ne_nil (by simp), List.filter_cons_of_pos (by simpa using hne)]
  · simp

theorem completeTerms_dropWhile : ∀ s : Str,
    completeTerms (s.dropWhile (· == 32)) = completeTerms s ∧ lastTerm (s.dropWhile (· == 32)) = lastTerm s
  | [] => ⟨rfl, rfl⟩
  | c :: s => by
      by_cases hc : c = 32
      · subst hc
        simp only [List.dropWhile_cons, beq_self_eq_true, if_true]
        rw [(completeTerms_space s).1, (completeTerms_space s).2]
        exact completeTerms_dropWhile s
      · simp only [List.dropWhile_cons, beq_iff_eq, hc, if_false]
        exact ⟨trivial, trivial⟩

/-- the head of what `dropWhile` leaves -/
theorem dropWhile_head {p : Nat → Bool} : ∀ (s : Str) {c : Nat} {r : Str}, s.dropWhile p = c :: r → p c = false
  | [], c, r, h => by simp at h
  | a :: s, c, r, h => by
      rw [List.dropWhile_cons] at h
      split at h
      · exact dropWhile_head s h
      · rename_i hp
        cases h
        simpa using hp

theorem takeWhile_all {p : Nat → Bool} : ∀ (s : Str), ∀ c ∈ s.takeWhile p, p c = true
  | [], c, h => by simp at h
  | a :: s, c, h => by
      rw [List.takeWhile_cons] at h
      split at h
      · rename_i hp
        rcases List.mem_cons.mp h with h | h
        · subst h; exact hp
        · exact takeWhile_all s c h
      · simp at h

theorem dropWhile_length_le (p : Nat → Bool) (s : Str) : (s.dropWhile p).length ≤ s.length := (List.dropWhile_sublist p).length_le

/-- one step of the tokenizer -/
theorem nextToken_spec (r : Str) :
    (nextToken r).1 ⊆ r ∧ (nextToken r).2 ⊆ r ∧
    ((nextToken r).2 = [] → completeTerms r = [] ∧ lastTerm r = (nextToken r).1) ∧
    ((nextToken r).2 ≠ [] → completeTerms r = (nextToken r).1 :: completeTerms (nextToken r).2 ∧
      lastTerm r = lastTerm (nextToken r).2 ∧ (nextToken r).2.length < r.length) := by
  obtain ⟨e1, e2⟩ := completeTerms_dropWhile r
  have hlen := dropWhile_length_le (· == 32) r
  have hsub : r.dropWhile (· == 32) ⊆ r := (List.dropWhile_sublist _).subset
  have hno : (r.dropWhile (· == 32)).takeWhile (· != 32) = [] → r.dropWhile (· == 32) = [] := by
    intro h
    cases hr : r.dropWhile (· == 32) with
    | nil => rfl
    | cons c s =>
        have hc := dropWhile_head r hr
        rw [hr, List.takeWhile_cons] at h
        simp only [beq_eq_false_iff_ne, ne_eq] at hc
        simp [hc] at h
  unfold nextToken
  simp only
  rw [← e1, ← e2]
  generalize r.dropWhile (· == 32) = s at *
  have hsplit : s.takeWhile (· != 32) ++ s.dropWhile (· != 32) = s := List.takeWhile_append_dropWhile
  have htok : ∀ c ∈ s.takeWhile (· != 32), c ≠ 32 := fun c hc => by simpa using takeWhile_all s c hc
  refine ⟨fun c hc => hsub ((List.takeWhile_sublist _).subset hc), fun c hc => hsub ((List.dropWhile_sublist _).subset hc), ?_, ?_⟩
  · intro h
    rw [h, List.append_nil] at hsplit
    rw [hsplit] at htok ⊢
    exact completeTerms_token htok
  · intro h
    obtain ⟨c, s', hs'⟩ := List.exists_cons_of_ne_nil h
    have hc := dropWhile_head s hs'
    have hc : c = 32 := by simpa using hc
    subst hc
    have hne : s.takeWhile (· != 32) ≠ [] := by
      intro h0
      have := hno h0
      rw [this] at h
      simp at h
    have hl : 0 < (s.takeWhile (· != 32)).length := List.length_pos_iff.mpr hne
    have hl2 := congrArg List.length hsplit
    rw [List.length_append] at hl2
    rw [hs'] at hsplit hl2 ⊢
    rw [(completeTerms_space s').1, (completeTerms_space s').2]
    have := completeTerms_cons htok hne s'
    rw [hsplit] at this
    exact ⟨this.1, this.2, by omega⟩

/-- the id of a term, from 1 -/
def rankOf (L : List Str) (t : Str) : Nat := L.idxOf t + 1

theorem FcDict.locate_spec {L : List Str} (v : ValidTerms L) {m : Nat} {d : FC} (R : FC.Rep Elem.byte m d L)
    {t : Str} (ht : IsText t) (buf : Str) (hbuf : m + MAX_CHARS ≤ buf.length) :
    ∃ buf', locate d t buf = .ok (if t ∈ L then rankOf L t else INVALID_TERM, buf') ∧ buf'.length = buf.length := by
  by_cases h : t ∈ L
  · rw [if_pos h]
    have hi : L.idxOf t < L.length := List.idxOf_lt_length_iff.mpr h
    exact locate_mem v R ht hi (by simp) buf hbuf
  · rw [if_neg h]
    exact locate_not_mem v R ht h buf hbuf

theorem rankOf_ne {L : List Str} (v : ValidTerms L) {t : Str} (h : t ∈ L) : rankOf L t ≠ INVALID_TERM := by
  have hi : L.idxOf t < L.length := List.idxOf_lt_length_iff.mpr h
  have := v.count
  unfold rankOf INVALID_TERM
  omega

/-- `locate` of the dictionary `d` finds the terms of `L` (and no other), given a static array of `n` bytes -/
def Locates (d : FC) (L : List Str) (n : Nat) : Prop :=
  ∀ t, IsText t → ∀ buf : Str, buf.length = n →
    ∃ buf', FcDict.locate d t buf = .ok (if t ∈ L then rankOf L t else INVALID_TERM, buf') ∧ buf'.length = buf.length

theorem Locates.of_rep {L : List Str} (v : ValidTerms L) {m n : Nat} {d : FC} (R : FC.Rep Elem.byte m d L)
    (hn : m + MAX_CHARS ≤ n) : Locates d L n := fun _ ht buf hb => FcDict.locate_spec v R ht buf (by omega)

theorem parseLoop_spec {L : List Str} (v : ValidTerms L) {n : Nat} {d : FC} (R : Locates d L n) (must : Bool) :
    ∀ (fuel : Nat) (r : Str) (pfx : Ids) (buf : Str), IsText r → buf.length = n → r.length < fuel →
      ∃ ok pfx' suffix buf', parseLoop d must fuel r pfx buf = .ok (ok, pfx', suffix, buf') ∧ buf'.length = buf.length ∧
        (ok = true ↔ must = true → ∀ t ∈ completeTerms r, t ∈ L) ∧
        (ok = true → pfx' = pfx ++ ((completeTerms r).filter (fun t => decide (t ∈ L))).map (rankOf L) ∧ suffix = lastTerm r) := by
  intro fuel
  induction fuel with
  | zero => intro r pfx buf _ _ h; omega
  | succ fuel ih =>
      intro r pfx buf hr hb hf
      obtain ⟨s1, s2, n1, n2⟩ := nextToken_spec r
      unfold parseLoop
      rcases hn : nextToken r with ⟨tok, rest⟩
      rw [hn] at s1 s2 n1 n2
      simp only at s1 s2 n1 n2
      cases rest with
      | nil =>
          obtain ⟨e1, e2⟩ := n1 rfl
          exact ⟨true, pfx, tok, buf, rfl, rfl, by simp [e1], fun _ => ⟨by simp [e1], e2.symm⟩⟩
      | cons c rest =>
          obtain ⟨e1, e2, e3⟩ := n2 (by simp)
          have htok : IsText tok := fun c hc => hr c (s1 hc)
          have hrest : IsText (c :: rest) := fun c hc => hr c (s2 hc)
          obtain ⟨buf1, l1, l2⟩ := R tok htok buf hb
          simp only [l1, M.ok_bind]
          by_cases hm : tok ∈ L
          · simp only [if_pos hm]
            rw [if_pos (rankOf_ne v hm)]
            obtain ⟨ok, pfx', suffix, buf', p1, p2, p3, p4⟩ := ih (c :: rest) (pfx ++ [rankOf L tok]) buf1 hrest (by omega) (by omega)
            refine ⟨ok, pfx', suffix, buf', p1, by omega, ?_, ?_⟩
            · rw [p3, e1]; simp [hm]
            · intro h
              obtain ⟨q1, q2⟩ := p4 h
              refine ⟨?_, by rw [q2, e2]⟩
              rw [q1, e1, List.filter_cons_of_pos (by simpa using hm), List.map_cons]
              simp
          · simp only [if_neg hm]
            rw [if_neg (by simp)]
            cases must with
            | true =>
                refine ⟨false, pfx, tok, buf1, rfl, l2, ?_, by simp⟩
                rw [e1]; simp [hm]
            | false =>
                obtain ⟨ok, pfx', suffix, buf', p1, p2, p3, p4⟩ := ih (c :: rest) pfx buf1 hrest (by omega) (by omega)
                refine ⟨ok, pfx', suffix, buf', by simpa using p1, by omega, by rw [p3]; simp, ?_⟩
                intro h
                obtain ⟨q1, q2⟩ := p4 h
                refine ⟨?_, by rw [q2, e2]⟩
                rw [q1, e1, List.filter_cons_of_neg (by simpa using hm)]

theorem parse_spec {L : List Str} (v : ValidTerms L) {n : Nat} {d : FC} (R : Locates d L n) (must : Bool)
    {q : Str} (hq : IsText q) (buf : Str) (hb : buf.length = n) :
      ∃ ok pfx suffix buf', parse d q must buf = .ok (ok, pfx, suffix, buf') ∧ buf'.length = buf.length ∧
        (ok = true ↔ must = true → ∀ t ∈ completeTerms q, t ∈ L) ∧
        (ok = true → pfx = ((completeTerms q).filter (fun t => decide (t ∈ L))).map (rankOf L) ∧ suffix = lastTerm q) := by
  have := parseLoop_spec v R must (q.length + 1) q [] buf hq hb (by omega)
  simpa [parse] using this

theorem lastTerm_subset (q : Str) : lastTerm q ⊆ q := by
  have key : ∀ s : Str, ∀ p ∈ pieces s, p ⊆ s := by
    intro s
    induction s with
    | nil => intro p hp; simp [pieces] at hp; subst hp; simp
    | cons c s ih =>
        intro p hp
        unfold pieces at hp
        split at hp
        · rcases List.mem_cons.mp hp with h | h
          · subst h; simp
          · exact fun x hx => List.mem_cons_of_mem _ (ih p h hx)
        · split at hp
          · simp at hp; subst hp; simp
          · rename_i p0 ps he
            rw [he] at ih
            rcases List.mem_cons.mp hp with h | h
            · subst h
              intro x hx
              rcases List.mem_cons.mp hx with hx | hx
              · subst hx; exact List.mem_cons_self ..
              · exact List.mem_cons_of_mem _ (ih p0 (List.mem_cons_self ..) hx)
            · exact fun x hx => List.mem_cons_of_mem _ (ih p (List.mem_cons_of_mem _ h) hx)
  unfold lastTerm
  obtain ⟨l, hl⟩ : ∃ l, (pieces q).getLast? = some l := by
    rw [List.getLast?_eq_some_getLast (pieces_ne_nil q)]; exact ⟨_, rfl⟩
  rw [List.getLastD_eq_getLast?, hl, Option.getD_some]
  exact key q l (List.mem_of_getLast? hl)

theorem IsText.last {q : Str} (h : IsText q) : IsText (lastTerm q) := fun c hc => h c (lastTerm_subset q hc)

theorem unique_spec : ∀ (l : Ids), l.Pairwise (· ≤ ·) →
    (unique l).Pairwise (· < ·) ∧ (∀ x, x ∈ unique l ↔ x ∈ l) ∧ (unique l).head? = l.head?
  | [], _ => by simp [unique]
  | [x], _ => by simp [unique, uniqueFrom]
  | x :: y :: l, h => by
      obtain ⟨h1, h2⟩ := List.pairwise_cons.mp h
      obtain ⟨h3, h4⟩ := List.pairwise_cons.mp h2
      by_cases hxy : x = y
      · subst hxy
        rw [show unique (x :: x :: l) = unique (x :: l) by simp only [unique, uniqueFrom, if_true]]
        obtain ⟨u1, u2, u3⟩ := unique_spec (x :: l) h2
        refine ⟨u1, fun z => ?_, u3⟩
        rw [u2 z]; simp
      · rw [show unique (x :: y :: l) = x :: unique (y :: l) by simp only [unique, uniqueFrom, if_neg hxy]]
        obtain ⟨u1, u2, u3⟩ := unique_spec (y :: l) h2
        refine ⟨List.pairwise_cons.mpr ⟨fun z hz => ?_, u1⟩, fun z => ?_, rfl⟩
        · have := (u2 z).mp hz
          have hxy' := h1 y (List.mem_cons_self ..)
          rcases List.mem_cons.mp this with hz | hz
          · omega
          · have := h3 z hz; omega
        · simp only [List.mem_cons, u2 z]
termination_by l => l.length

theorem deduplicate_spec (std : StdLib) (c : Ids) :
    (deduplicate std c).Pairwise (· < ·) ∧ (∀ x, x ∈ deduplicate std c ↔ x ∈ c) := by
  obtain ⟨u1, u2, _⟩ := unique_spec (std.sort id c) (std.sort_sorted id c)
  exact ⟨u1, fun x => by rw [deduplicate, u2 x, (std.sort_perm id c).mem_iff]⟩

end AC
