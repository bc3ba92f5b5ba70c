import Verif.Spec.TextPrefix
import Verif.Proofs.Parse
import Verif.Proofs.Tools
/-!
# Terms against texts
-/
namespace AC
open Spec

theorem joined_pieces : ∀ q : Str, joined (pieces q) = q
  | [] => rfl
  | c :: q => by
      have ih := joined_pieces q
      unfold pieces
      split
      · rename_i h
        subst h
        cases hp : pieces q with
        | nil => exact absurd hp (pieces_ne_nil q)
        | cons p ps => rw [joined, ← hp, ih]; rfl
      · cases hp : pieces q with
        | nil => exact absurd hp (pieces_ne_nil q)
        | cons p ps =>
            rw [hp] at ih
            dsimp only
            cases ps with
            | nil => rw [joined] at ih ⊢; rw [ih]
            | cons p' ps => rw [joined] at ih ⊢; rw [List.cons_append, ih]

theorem pieces_no_space : ∀ (q : Str), ∀ p ∈ pieces q, space ∉ p
  | [], p, h => by
      rw [pieces, List.mem_singleton] at h
      subst h; simp
  | c :: q, p, h => by
      have ih := pieces_no_space q
      unfold pieces at h
      split at h
      · rcases List.mem_cons.mp h with rfl | h
        · simp
        · exact ih p h
      · rename_i hc
        cases hp : pieces q with
        | nil => exact absurd hp (pieces_ne_nil q)
        | cons p' ps =>
            rw [hp] at h ih
            dsimp only at h
            rcases List.mem_cons.mp h with rfl | h
            · intro hm
              rcases List.mem_cons.mp hm with e | hm
              · exact hc e.symm
              · exact ih p' (by simp) hm
            · exact ih p (by simp [h])

/-- the first piece is empty exactly when the text is empty or begins with a space -/
theorem pieces_head_nil {q : Str} {ps : List Str} (h : pieces q = [] :: ps) : q = [] ∨ q.head? = some space := by
  cases q with
  | nil => exact .inl rfl
  | cons c q =>
      unfold pieces at h
      split at h
      · rename_i hc; subst hc; exact .inr rfl
      · cases hp : pieces q with
        | nil => exact absurd hp (pieces_ne_nil q)
        | cons p ps => rw [hp] at h; cases h

theorem Spec.Tidy.pieces_ne {q : Str} (h : Tidy q) : ∀ p ∈ (pieces q).dropLast, p ≠ [] := by
  have key : ∀ q : Str, (∀ a b : Str, q ≠ a ++ space :: space :: b) → ∀ p ∈ ((pieces q).drop 1).dropLast, p ≠ [] := by
    intro q
    induction q with
    | nil => intro _ p hp; simp [pieces] at hp
    | cons c q ih =>
        intro h2 p hp
        have ih' := ih (fun a b he => h2 (c :: a) b (by rw [he]; rfl))
        unfold pieces at hp
        split at hp
        · rename_i hc
          rw [List.drop_succ_cons, List.drop_zero] at hp
          cases hq : pieces q with
          | nil => exact absurd hq (pieces_ne_nil q)
          | cons p' ps =>
              rw [hq] at hp ih'
              rw [List.drop_succ_cons, List.drop_zero] at ih'
              cases ps with
              | nil => simp at hp
              | cons p'' ps =>
                  rw [List.dropLast_cons₂] at hp
                  rcases List.mem_cons.mp hp with rfl | hp
                  · intro he
                    subst he
                    rcases pieces_head_nil hq with he | he
                    · subst he; simp [pieces] at hq
                    · cases q with
                      | nil => simp at he
                      | cons d q =>
                          have : d = space := by simpa using he
                          subst this
                          exact h2 [] q (by rw [hc]; rfl)
                  · exact ih' p hp
        · cases hq : pieces q with
          | nil => exact absurd hq (pieces_ne_nil q)
          | cons p' ps =>
              rw [hq] at hp ih'
              exact ih' p hp
  intro p hp
  cases hq : pieces q with
  | nil => exact absurd hq (pieces_ne_nil q)
  | cons p' ps =>
      have hk := key q h.single
      rw [hq] at hp hk
      rw [List.drop_succ_cons, List.drop_zero] at hk
      cases ps with
      | nil => simp at hp
      | cons p'' ps =>
          rw [List.dropLast_cons₂] at hp
          rcases List.mem_cons.mp hp with rfl | hp
          · intro he
            subst he
            rcases pieces_head_nil hq with he | he
            · subst he; simp [pieces] at hq
            · exact h.first he
          · exact hk p hp

theorem Spec.Tidy.complete {q : Str} (h : Tidy q) : completeTerms q = (pieces q).dropLast := by
  unfold completeTerms
  rw [List.filter_eq_self]
  intro p hp
  have := h.pieces_ne p hp
  cases p with
  | nil => exact absurd rfl this
  | cons a p => rfl

theorem pieces_split (q : Str) : (pieces q).dropLast ++ [lastTerm q] = pieces q := by
  unfold lastTerm
  have h := pieces_ne_nil q
  rw [List.getLastD_eq_getLast?, List.getLast?_eq_some_getLast h, Option.getD_some]
  exact List.dropLast_concat_getLast h

/-- up to their first space -/
theorem prefix_at_space {p t A B : Str} (hp : space ∉ p) (ht : space ∉ t) : (p ++ space :: A <+: t ++ space :: B) ↔ (p = t ∧ A <+: B) := by
  induction p generalizing t with
  | nil =>
      cases t with
      | nil => simp [List.cons_prefix_cons]
      | cons b t =>
          constructor
          · intro h
            rw [List.nil_append, List.cons_append, List.cons_prefix_cons] at h
            exact absurd (h.1 ▸ List.mem_cons_self ..) ht
          · rintro ⟨h, _⟩; cases h
  | cons a p ih =>
      cases t with
      | nil =>
          constructor
          · intro h
            rw [List.nil_append, List.cons_append, List.cons_prefix_cons] at h
            exact absurd (h.1 ▸ List.mem_cons_self ..) hp
          · rintro ⟨h, _⟩; cases h
      | cons b t =>
          rw [List.cons_append, List.cons_append, List.cons_prefix_cons, ih (fun h => hp (List.mem_cons_of_mem _ h)) (fun h => ht (List.mem_cons_of_mem _ h)),
            List.cons.injEq]
          constructor
          · rintro ⟨h1, h2, h3⟩; exact ⟨⟨h1, h2⟩, h3⟩
          · rintro ⟨⟨h1, h2⟩, h3⟩; exact ⟨h1, h2, h3⟩

theorem prefix_word {s t B : Str} (hs : space ∉ s) : (s <+: t ++ space :: B) ↔ s <+: t := by
  induction s generalizing t with
  | nil => simp
  | cons a s ih =>
      cases t with
      | nil =>
          rw [List.nil_append, List.cons_prefix_cons]
          constructor
          · rintro ⟨h, _⟩; exact absurd (h ▸ List.mem_cons_self ..) hs
          · intro h; simp at h
      | cons b t => rw [List.cons_append, List.cons_prefix_cons, ih (fun h => hs (List.mem_cons_of_mem _ h)), List.cons_prefix_cons]

theorem joined_prefix : ∀ {P : List Str} {s : Str} {c : List Str}, (∀ p ∈ P, space ∉ p) → space ∉ s → (∀ t ∈ c, space ∉ t) → c ≠ [] →
    ((joined (P ++ [s]) <+: joined c) ↔ ∃ x, s <+: x ∧ (P ++ [x]) <+: c)
  | _, _, [], _, _, _, h => absurd rfl h
  | [], s, [t], _, hs, _, _ => by
      rw [List.nil_append, joined, joined]
      constructor
      · intro h; exact ⟨t, h, List.prefix_refl _⟩
      · rintro ⟨x, h, h2⟩
        rw [List.nil_append, List.cons_prefix_cons] at h2
        rw [← h2.1]; exact h
  | [], s, t :: t' :: ts, _, hs, _, _ => by
      rw [List.nil_append, joined, joined, prefix_word hs]
      constructor
      · intro h; exact ⟨t, h, by simp [List.cons_prefix_cons]⟩
      · rintro ⟨x, h, h2⟩
        rw [List.nil_append, List.cons_prefix_cons] at h2
        rw [← h2.1]; exact h
  | p :: P, s, [t], _, _, hc, _ => by
      constructor
      · intro h
        exfalso
        have : ∃ p' ps, P ++ [s] = p' :: ps := by cases P <;> exact ⟨_, _, rfl⟩
        obtain ⟨p', ps, he⟩ := this
        rw [List.cons_append, he, joined, joined] at h
        exact hc t (by simp) (h.subset (by simp))
      · rintro ⟨x, _, h⟩
        exfalso
        have := h.length_le
        simp at this
  | p :: P, s, t :: t' :: ts, hp, hs, hc, _ => by
      have ih := joined_prefix (P := P) (s := s) (c := t' :: ts) (fun p h => hp p (by simp [h])) hs (fun t h => hc t (by simp [List.mem_cons.mp h]))
        (by simp)
      have : ∃ p' ps, P ++ [s] = p' :: ps := by cases P <;> exact ⟨_, _, rfl⟩
      obtain ⟨p', ps, he⟩ := this
      rw [he] at ih
      rw [List.cons_append, he, joined, joined, prefix_at_space (hp p (by simp)) (hc t (by simp)), ih]
      constructor
      · rintro ⟨rfl, x, h1, h2⟩
        exact ⟨x, h1, by rw [List.cons_append, List.cons_prefix_cons]; exact ⟨rfl, h2⟩⟩
      · rintro ⟨x, h1, h2⟩
        rw [List.cons_append, List.cons_prefix_cons] at h2
        exact ⟨h2.1, x, h1, h2.2⟩

/-- the completions that a query stands for are those whose text begins with the query -/
theorem prefixMatch_text {q : Str} (h : Tidy q) {c : List Str} (hc : ∀ t ∈ c, space ∉ t) (hne : c ≠ []) :
    PrefixMatch (completeTerms q) (lastTerm q) c ↔ q <+: joined c := by
  have hsplit := pieces_split q
  have hns := pieces_no_space q
  rw [← hsplit] at hns
  conv => rhs; rw [← joined_pieces q, ← hsplit]
  rw [joined_prefix (fun p hp => hns p (by simp [hp])) (hns _ (by simp)) hc hne, h.complete]
  rfl

theorem pieces_squeeze (q : Str) : pieces (squeezeFrom true q) = (pieces q).dropLast.filter (fun p => !p.isEmpty) ++ [(pieces q).getLastD []] ∧
    ∀ p ps, pieces q = p :: ps → pieces (squeezeFrom false q) = p :: (if ps = [] then [] else ps.dropLast.filter (fun p => !p.isEmpty) ++ [ps.getLastD []]) := by
  induction q with
  | nil =>
      refine ⟨by simp [squeezeFrom, pieces], ?_⟩
      intro p ps h
      simp only [pieces, List.cons.injEq] at h
      obtain ⟨rfl, rfl⟩ := h
      simp [squeezeFrom, pieces]
  | cons c q ih =>
      obtain ⟨ih1, ih2⟩ := ih
      obtain ⟨p, ps, hq⟩ : ∃ p ps, pieces q = p :: ps := by
        cases h : pieces q with
        | nil => exact absurd h (pieces_ne_nil q)
        | cons p ps => exact ⟨p, ps, rfl⟩
      by_cases hc : c = space
      · subst hc
        have e : pieces (space :: q) = [] :: pieces q := by rw [pieces, if_pos rfl]
        constructor
        · rw [squeezeFrom, if_pos rfl, if_pos rfl, ih1, e, hq]
          simp
        · intro p' ps' h
          rw [e, List.cons.injEq] at h
          obtain ⟨rfl, rfl⟩ := h
          rw [squeezeFrom, if_pos rfl, if_neg (by simp), pieces, if_pos rfl, ih1, if_neg (pieces_ne_nil q)]
      · have e : pieces (c :: q) = (c :: p) :: ps := by rw [pieces, if_neg hc, hq]
        have e2 : ∀ b, pieces (squeezeFrom b (c :: q)) = (c :: p) :: (if ps = [] then [] else ps.dropLast.filter (fun p => !p.isEmpty) ++ [ps.getLastD []]) := by
          intro b
          rw [squeezeFrom, if_neg hc, pieces, if_neg hc, ih2 p ps hq]
        constructor
        · rw [e2, e]
          cases ps with
          | nil => simp
          | cons p' ps => simp
        · intro p' ps' h
          rw [e, List.cons.injEq] at h
          obtain ⟨rfl, rfl⟩ := h
          exact e2 false

theorem squeeze_joined (q : Str) : squeeze q = joined (completeTerms q ++ [lastTerm q]) := by
  rw [← joined_pieces (squeeze q)]
  exact congrArg joined (pieces_squeeze q).1

theorem squeeze_tidy {q : Str} (h : Tidy q) : squeeze q = q := by
  rw [squeeze_joined, h.complete, pieces_split, joined_pieces]

/-- the completions that a query stands for are those whose text begins with the query, whatever its spaces -/
theorem prefixMatch_squeeze (q : Str) {c : List Str} (hc : ∀ t ∈ c, space ∉ t) (hne : c ≠ []) :
    PrefixMatch (completeTerms q) (lastTerm q) c ↔ TextMatch q c := by
  have hns := pieces_no_space q
  rw [← pieces_split q] at hns
  unfold TextMatch
  rw [squeeze_joined, joined_prefix (P := completeTerms q) (fun p hp => hns p (List.mem_append_left _ (List.mem_filter.mp hp).1)) (hns _ (by simp)) hc hne]
  rfl

theorem word_lt : ∀ {t t' r r' : Str}, AfterSpace t' → (r = [] ∨ r.head? = some space) → t < t' → t ++ r < t' ++ r'
  | [], [], _, _, _, _, h => absurd h (by simp)
  | _ :: _, [], _, _, _, _, h => absurd h (by simp)
  | [], b :: t', r, r', hb, hr, _ => by
      rcases hr with rfl | hr
      · rw [List.nil_append, List.cons_append]; exact List.nil_lt_cons ..
      · cases r with
        | nil => simp at hr
        | cons c r =>
            have : c = space := by simpa using hr
            rw [List.nil_append, List.cons_append, List.cons_lt_cons_iff, this]
            exact .inl (hb b (by simp))
  | a :: t, b :: t', r, r', hb, hr, h => by
      rw [List.cons_lt_cons_iff] at h
      rw [List.cons_append, List.cons_append, List.cons_lt_cons_iff]
      rcases h with h | ⟨h1, h2⟩
      · exact .inl h
      · exact .inr ⟨h1, word_lt (fun c hc => hb c (List.mem_cons_of_mem _ hc)) hr h2⟩

theorem append_lt {t A B : Str} (h : A < B) : t ++ A < t ++ B := by
  induction t with
  | nil => exact h
  | cons a t ih => rw [List.cons_append, List.cons_append, List.cons_lt_cons_iff]; exact .inr ⟨rfl, ih⟩

theorem joined_cons (t : Str) (ts : List Str) : ∃ r, joined (t :: ts) = t ++ r ∧ (r = [] ∨ r.head? = some space) := by
  cases ts with
  | nil => exact ⟨[], by simp [joined], .inl rfl⟩
  | cons t' ts => exact ⟨_, by rw [joined], .inr rfl⟩

/-- the order of the terms is that of the texts -/
theorem joined_lt : ∀ {c c' : List Str}, c ≠ [] → (∀ t ∈ c', AfterSpace t) → c < c' → joined c < joined c'
  | [], _, h, _, _ => absurd rfl h
  | _ :: _, [], _, _, h => absurd h (by simp)
  | t :: ts, t' :: ts', _, hc', h => by
      rw [List.cons_lt_cons_iff] at h
      rcases h with h | ⟨rfl, h⟩
      · obtain ⟨r, e1, e2⟩ := joined_cons t ts
        obtain ⟨r', e1', _⟩ := joined_cons t' ts'
        rw [e1, e1']
        exact word_lt (hc' t' (by simp)) e2 h
      · cases ts' with
        | nil => exact absurd h (by simp)
        | cons u' us' =>
            cases ts with
            | nil =>
                rw [joined, joined]
                conv => lhs; rw [← List.append_nil t]
                exact append_lt (List.nil_lt_cons ..)
            | cons u us =>
                rw [joined, joined]
                apply append_lt
                rw [List.cons_lt_cons_iff]
                exact .inr ⟨rfl, joined_lt (by simp) (fun t h => hc' t (List.mem_cons_of_mem _ h)) h⟩

end AC
