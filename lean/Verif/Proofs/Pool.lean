import Verif.Model.Pool
import Verif.Spec.Query
import Verif.Proofs.FcSearch
/-!
# The pool of results holds the texts of the results
-/
namespace AC
open FC

/-- the text of a list of term ids -/
def textOf (L : List Str) (ts : Ids) : Str := Spec.joined (ts.map fun t => L.getD (t - 1) [])

theorem joined_cons_cons (a b : Str) (l : List Str) :
    Spec.joined (a :: b :: l) = a ++ Spec.space :: Spec.joined (b :: l) := by
  simp [Spec.joined]

/-- the ids denote strings of `L` -/
def IdsIn (L : List Str) (ts : Ids) : Prop := ∀ t ∈ ts, 0 < t ∧ t ≤ L.length

/-- Decoding the terms of one result: either the copies leave the array, in which case there was not enough room, or the text is written. -/
theorem writeTerms_spec {m : Nat} {d : FC} {L : List Str} (R : FC.Rep Elem.byte m d L) {term : Nat → M Nat} :
    ∀ (ts : Ids) (j : Nat) (data : Str) (off : Nat), IdsIn L ts →
    (∀ i (h : i < ts.length), term (j + i) = .ok ts[i]) → off ≤ data.length →
    (writeTerms d term ts.length j data off = .error .oob ∧
      data.length < off + (textOf L ts).length + (m + Elem.byte.cap)) ∨
    ∃ data', writeTerms d term ts.length j data off = .ok (data', off + (textOf L ts).length) ∧
      data'.length = data.length ∧ off + (textOf L ts).length ≤ data.length ∧ data'.take off = data.take off ∧
      (data'.drop off).take (textOf L ts).length = textOf L ts
  | [], j, data, off, hin, hterm, hoff => by
      right
      exact ⟨data, by simp [writeTerms, textOf, Spec.joined], rfl, by simpa [textOf, Spec.joined] using hoff, rfl,
        by simp [textOf, Spec.joined]⟩
  | t :: ts, j, data, off, hin, hterm, hoff => by
      obtain ⟨ht0, htl⟩ := hin t (by simp)
      have hi : t - 1 < L.length := by omega
      have h0 : term j = .ok t := hterm 0 (by simp)
      have hg : L[t - 1]?.getD [] = L[t - 1] := by simp [hi]
      rw [List.length_cons, writeTerms, h0, M.ok_bind]
      simp only [FcDict.extract, if_neg (show ¬ t = 0 by omega)]
      have hlen : L[t - 1].length ≤ (textOf L (t :: ts)).length := by
        cases ts with
        | nil => simp [textOf, Spec.joined, hg]
        | cons u ts => simp [textOf, joined_cons_cons, hg]
      have key : (extractAt Elem.byte d ((t - 1) % 17) ((t - 1) / 17) data off = .error .oob ∧
            data.length < off + (m + Elem.byte.cap)) ∨
          ∃ out', extractAt Elem.byte d ((t - 1) % 17) ((t - 1) / 17) data off = .ok (out', L[t - 1].length) ∧
            out'.length = data.length ∧ out'.take off = data.take off ∧
            (out'.drop off).take L[t - 1].length = L[t - 1] := by
        by_cases hc : off + m + Elem.byte.cap ≤ data.length
        · exact Or.inr (R.extract _ hi data off hc)
        · rcases R.extractAny _ hi data off with h | ⟨out', h1, h2, h3, h4, h5⟩
          · exact Or.inl ⟨h, by omega⟩
          · exact Or.inr ⟨out', h1, h3, h4, h5⟩
      rcases key with ⟨k1, k2⟩ | ⟨out', k1, k2, k3, k4⟩
      · left
        rw [k1, M.error_bind]
        exact ⟨rfl, by omega⟩
      · rw [k1, M.ok_bind]
        have hfit : off + L[t - 1].length ≤ data.length := by
          have := congrArg List.length k4
          simp at this; omega
        cases ts with
        | nil =>
            right
            have htx : textOf L [t] = L[t - 1] := by simp [textOf, Spec.joined, hg]
            refine ⟨out', ?_, k2, by rw [htx]; exact hfit, k3, by rw [htx]; exact k4⟩
            simp [writeSpace, writeTerms, htx]
        | cons u us =>
            have htx : textOf L (t :: u :: us) = L[t - 1] ++ 32 :: textOf L (u :: us) := by
              simp [textOf, Spec.joined, hg, Spec.space]
            have htl' : (textOf L (t :: u :: us)).length = L[t - 1].length + 1 + (textOf L (u :: us)).length := by
              rw [htx]; simp; omega
            simp only [writeSpace, List.length_cons]
            rw [show ((us.length + 1 == 0) = false) by simp, if_neg (by simp)]
            by_cases hw : off + L[t - 1].length < out'.length
            · rw [wr_ok hw]
              simp only [M.ok_bind]
              rcases writeTerms_spec R (u :: us) (j + 1) (out'.set (off + L[t - 1].length) 32) (off + L[t - 1].length + 1)
                (fun x hx => hin x (List.mem_cons_of_mem _ hx))
                (fun i h => by
                  have := hterm (i + 1) (by simpa using h)
                  rw [show j + 1 + i = j + (i + 1) by omega]; simpa using this)
                (by simp; omega) with ⟨f1, f2⟩ | ⟨o2, f1, f2, f3, f4, f5⟩
              · left
                refine ⟨f1, ?_⟩
                simp at f2; omega
              · right
                refine ⟨o2, ?_, by simpa [k2] using f2, ?_, ?_, ?_⟩
                · rw [show (u :: us).length = us.length + 1 from rfl] at f1
                  rw [f1, htl']; congr 2; omega
                · simp at f3; omega
                · have := congrArg (List.take off) f4
                  rw [List.take_take, List.take_take, Nat.min_eq_left (by omega)] at this
                  rw [this, List.take_set_of_le (by omega), k3]
                · have e1 : o2.drop off = (o2.take (off + L[t - 1].length + 1)).drop off ++
                      o2.drop (off + L[t - 1].length + 1) := by
                    conv => lhs; rw [← List.take_append_drop (off + L[t - 1].length + 1) o2]
                    rw [List.drop_append_of_le_length (by simp at f2 f3; simp; omega)]
                  have e2 : (o2.take (off + L[t - 1].length + 1)).drop off = L[t - 1] ++ [32] := by
                    rw [f4, List.drop_take, show off + L[t - 1].length + 1 - off = L[t - 1].length + 1 by omega]
                    rw [List.drop_set]
                    rw [if_neg (by omega), show off + L[t - 1].length - off = L[t - 1].length by omega]
                    rw [List.take_succ, List.take_set_of_le (by omega), k4]
                    rw [List.getElem?_set_self (by simp; omega)]
                    simp
                  rw [e1, e2, htl', htx]
                  rw [List.take_append, List.length_append (as := L[t - 1]), List.length_singleton]
                  rw [List.take_of_length_le (by simp)]
                  rw [show L[t - 1].length + 1 + (textOf L (u :: us)).length - (L[t - 1].length + 1) =
                    (textOf L (u :: us)).length by omega, f5]
                  simp
            · left
              have : wr out' (off + L[t - 1].length) 32 = .error .oob := by
                simp [wr, hw]
              rw [this]
              refine ⟨M.error_bind _ _, by omega⟩

/-- The pool holds the given texts, one after the other. -/
structure Pool.Holds (p : Pool) (texts : List Str) : Prop where
  offsets : p.offsets = (List.range (texts.length + 1)).map (fun i => (texts.take i).flatten.length)
  fits : texts.flatten.length ≤ p.data.length
  data : p.data.take texts.flatten.length = texts.flatten

theorem Pool.Holds.init (p : Pool) : (p.init).Holds [] :=
  ⟨by simp [Pool.init, List.range_succ], by simp, by simp⟩

theorem Pool.Holds.bytes {p : Pool} {texts : List Str} (h : p.Holds texts) : p.bytes = .ok texts.flatten.length := by
  unfold Pool.bytes
  rw [h.offsets, List.range_succ, List.map_append, List.map_singleton, List.getLast?_concat]
  simp

theorem Pool.Holds.push {p : Pool} {texts : List Str} (h : p.Holds texts) {data : Str} {x : Str}
    (hl : data.length = p.data.length) (hf : texts.flatten.length + x.length ≤ p.data.length)
    (ht : data.take texts.flatten.length = p.data.take texts.flatten.length)
    (hx : (data.drop texts.flatten.length).take x.length = x) :
    Pool.Holds { p with data := data, offsets := p.offsets ++ [texts.flatten.length + x.length] } (texts ++ [x]) := by
  constructor
  · simp only [h.offsets, List.length_append, List.length_singleton]
    rw [List.range_succ (n := texts.length + 1), List.map_append, List.map_singleton]
    congr 1
    · apply List.map_congr_left
      intro i hi
      have hi' := List.mem_range.mp hi
      rw [List.take_append_of_le_length (by omega)]
    · rw [List.take_of_length_le (by simp)]; simp
  · rw [List.flatten_append, List.length_append]; simpa [hl] using hf
  · simp only [List.flatten_append, List.flatten_singleton, List.length_append]
    rw [List.take_add, ht, h.data, hx]

/-- `extract_strings`: either the copies leave the array of the pool, in which case there was not enough room, or the texts are in
the pool. -/
theorem extractStrings_spec {m : Nat} {d : FC} {L : List Str} (R : FC.Rep Elem.byte m d L)
    {src : Nat → M (Nat × (Nat → M Nat))} :
    ∀ (tss : List Ids) (i : Nat) (p : Pool) (texts : List Str), p.Holds texts → (∀ ts ∈ tss, IdsIn L ts) →
    (∀ j (h : j < tss.length), ∃ term, src (i + j) = .ok ((tss[j]).length, term) ∧
      ∀ u (hu : u < (tss[j]).length), term u = .ok (tss[j])[u]) →
    (extractStrings d src tss.length i p = .error .oob ∧
      p.data.length < (texts ++ tss.map (textOf L)).flatten.length + (m + Elem.byte.cap)) ∨
    ∃ p', extractStrings d src tss.length i p = .ok p' ∧ p'.scores = p.scores ∧ p'.data.length = p.data.length ∧
      p'.Holds (texts ++ tss.map (textOf L))
  | [], i, p, texts, hp, hin, hsrc => by
      right
      exact ⟨p, rfl, rfl, rfl, by simpa using hp⟩
  | ts :: tss, i, p, texts, hp, hin, hsrc => by
      obtain ⟨term, s1, s2⟩ := hsrc 0 (by simp)
      simp only [Nat.add_zero, List.getElem_cons_zero] at s1 s2
      rw [List.length_cons, extractStrings, s1, M.ok_bind]
      simp only [hp.bytes, M.ok_bind]
      rcases writeTerms_spec R ts 0 p.data texts.flatten.length (hin ts (by simp)) (by simpa using s2) hp.fits with
        ⟨f1, f2⟩ | ⟨data, f1, f2, f3, f4, f5⟩
      · left
        rw [f1, M.error_bind]
        refine ⟨rfl, ?_⟩
        simp at f2 ⊢; omega
      · rw [f1, M.ok_bind]
        have hp' := hp.push (data := data) (x := textOf L ts) f2 f3 f4 f5
        rcases extractStrings_spec R tss (i + 1) _ _ hp' (fun x hx => hin x (List.mem_cons_of_mem _ hx))
          (fun j h => by
            have := hsrc (j + 1) (by simpa using h)
            rw [show i + 1 + j = i + (j + 1) by omega]; simpa using this) with ⟨g1, g2⟩ | ⟨p', g1, g2, g3, g4⟩
        · left
          refine ⟨g1, ?_⟩
          simp [f2] at g2 ⊢; omega
        · right
          refine ⟨p', g1, g2, by rw [g3]; exact f2, by simpa using g4⟩

theorem Pool.Holds.get {p : Pool} {texts : List Str} (h : p.Holds texts) (hs : texts.length ≤ p.scores.length) (i : Nat)
    (hi : i < texts.length) : p.get i = .ok (p.scores[i], texts[i]) := by
  have e1 : p.offsets[i]? = some (texts.take i).flatten.length := by
    rw [h.offsets, List.getElem?_map, List.getElem?_range (by omega)]; rfl
  have e2 : p.offsets[i + 1]? = some (texts.take (i + 1)).flatten.length := by
    rw [h.offsets, List.getElem?_map, List.getElem?_range (by omega)]; rfl
  have e3 : (texts.take (i + 1)).flatten = (texts.take i).flatten ++ texts[i] := by
    rw [List.take_succ_eq_append_getElem hi, List.flatten_append]; simp
  have e4 : texts.flatten = (texts.take i).flatten ++ (texts[i] ++ (texts.drop (i + 1)).flatten) := by
    conv => lhs; rw [← List.take_append_drop i texts, List.flatten_append, List.drop_eq_getElem_cons hi, List.flatten_cons]
  have hf := h.fits
  have hd := h.data
  unfold Pool.get
  rw [rd_of_getElem? e1, M.ok_bind, rd_of_getElem? e2, M.ok_bind, rd_ok (by omega), M.ok_bind]
  have e5 : texts.flatten.length = (texts.take i).flatten.length + (texts[i].length + (texts.drop (i + 1)).flatten.length) := by
    rw [e4]; simp
  rw [e3, List.length_append, if_pos (by omega)]
  congr 2
  rw [show (texts.take i).flatten.length + texts[i].length - (texts.take i).flatten.length = texts[i].length by omega]
  have e6 : (p.data.take texts.flatten.length).drop (texts.take i).flatten.length =
      texts[i] ++ (texts.drop (i + 1)).flatten := by
    rw [hd]
    conv => lhs; rw [e4]
    simp
  rw [List.drop_take] at e6
  have e7 := congrArg (List.take texts[i].length) e6
  rw [List.take_take, Nat.min_eq_left (by omega)] at e7
  rw [e7]; simp

theorem Pool.Holds.collect {p : Pool} {texts : List Str} (h : p.Holds texts) (hs : texts.length ≤ p.scores.length) :
    ∀ (n i : Nat), i + n = texts.length → p.collect n i = .ok ((p.scores.zip texts).drop i)
  | 0, i, hi => by
      rw [Pool.collect, List.drop_eq_nil_of_le]
      simp; omega
  | n + 1, i, hi => by
      rw [Pool.collect, h.get hs i (by omega), M.ok_bind, h.collect hs n (i + 1) (by omega), M.ok_bind]
      rw [List.drop_eq_getElem_cons (i := i) (by simp; omega)]
      simp

/-- what a client reads -/
theorem Pool.Holds.results {p : Pool} {texts : List Str} (h : p.Holds texts) (hs : texts.length ≤ p.scores.length) :
    p.results = .ok (p.scores.zip texts) := by
  unfold Pool.results Pool.size
  have : p.offsets.length - 1 = texts.length := by rw [h.offsets]; simp
  rw [this, h.collect hs _ 0 (by omega)]
  simp

end AC
