import Verif.Proofs.UnicodeText
import Verif.Proofs.Suits
import Verif.Proofs.Visit
/-!
# Terms of more than 256 bytes
-/
namespace AC
open Spec

/-! ## The dictionary -/

namespace FcDict
open FC

/-- a dictionary of at most 16 strings has one bucket, whose header is the first string -/
theorem build_one {h : Str} {ss : List Str} (hn : ss.length < 16) (hl : h.length < 2 ^ 32) :
    ∃ d, build (h :: ss) = .ok d ∧ d.nBuckets = 1 ∧ d.header 0 = .ok h := by
  have hnb : ((h :: ss).length + 16) / 17 = 1 := by rw [List.length_cons]; omega
  have ht : tail (h :: ss).length = ss.length := by
    unfold tail
    rw [List.length_cons]
    have : (ss.length + 1) / 17 = 0 := by omega
    rw [this]
    simp
  unfold build FC.build
  dsimp only
  rw [hnb, ht]
  simp only [buildLoop]
  rw [if_neg (by simp), buildBucket_eq _ _ _ _ _ _ (Nat.le_refl _), M.ok_bind]
  simp only [M.ok_bind]
  refine ⟨_, rfl, ?_, ?_⟩
  · rfl
  · have e : Elem.byte.ptr = 2 ^ 32 := rfl
    simp only [header, List.nil_append, e]
    rw [Nat.mod_eq_of_lt hl]
    simp [rd]

theorem scan_long {ρ : Type} {d : FC} (stop : Nat → List Nat → Option ρ) {h buf : Str} (hb : buf.length < h.length) (b : Nat) :
    scan Elem.byte d stop h b buf = .error .oob := by
  unfold scan memcpy
  rw [if_neg (by omega), M.error_bind]

theorem bucketsLoop_one {d : FC} {h : Str} (hh : d.header 0 = .ok h) (p : Str) (g : Int → Bool) :
    bucketsLoop d p g 2 0 0 = .ok (if g (byteCompareN h p p.length) then 0 else 1) := by
  unfold bucketsLoop
  rw [if_pos (Int.le_refl _)]
  have : ((0 + 0 : Int) / 2).toNat = 0 := rfl
  dsimp only
  rw [this, hh, M.ok_bind]
  split
  · unfold bucketsLoop
    rw [if_neg (by decide)]
  · unfold bucketsLoop
    rw [if_neg (by decide)]
    rfl

theorem locateBuckets_one {d : FC} {h : Str} (hn : d.nBuckets = 1) (hh : d.header 0 = .ok h) (p : Str) : locateBuckets d p = .ok (0, 0) := by
  unfold locateBuckets
  rw [hn]
  dsimp only
  have := bucketsLoop_one hh p (fun cmp => decide (cmp ≥ 0))
  rw [show ((1 : Nat) : Int) - 1 = 0 from rfl, this, M.ok_bind]
  split
  · rw [if_neg (by decide)]
    unfold leftBucket
    rw [if_pos (by decide), M.ok_bind, if_pos (by decide)]
  · rw [if_pos (by decide)]
    rfl

/-- the first string does not fit in the static array: every lookup of the beginning of a string writes out of bounds -/
theorem locatePrefix_long {d : FC} {h : Str} (hn : d.nBuckets = 1) (hh : d.header 0 = .ok h) {p buf : Str} (hp : p ≠ []) (hb : buf.length < h.length) :
    locatePrefix d p buf = .error .oob := by
  unfold locatePrefix
  rw [if_neg (by rw [List.length_eq_zero_iff]; exact hp), locateBuckets_one hn hh, M.ok_bind]
  dsimp only
  rw [hh, M.ok_bind, M.ok_bind]
  by_cases hc : byteCompare h p ≠ 0
  · unfold beginOffset
    rw [if_pos hc]
    unfold leftLocate
    rw [scan_long _ hb]
    simp only [M.error_bind]
  · unfold beginOffset
    rw [if_neg hc, M.ok_bind]
    dsimp only
    unfold rightLocate
    rw [scan_long _ hb]
    simp only [M.error_bind]

end FcDict

theorem takeWhile_eq_self {p : Nat → Bool} : ∀ {q : Str}, (∀ a ∈ q, p a = true) → q.takeWhile p = q
  | [], _ => rfl
  | a :: q, h => by rw [List.takeWhile_cons, if_pos (h a (by simp)), takeWhile_eq_self (fun b hb => h b (by simp [hb]))]

theorem dropWhile_eq_none {p : Nat → Bool} : ∀ {q : Str}, (∀ a ∈ q, p a = true) → q.dropWhile p = []
  | [], _ => rfl
  | a :: q, h => by rw [List.dropWhile_cons, if_pos (h a (by simp)), dropWhile_eq_none (fun b hb => h b (by simp [hb]))]

/-- a query of one word does not get further than the dictionary -/
theorem analyse_long {d : FC} {h : Str} (hn : d.nBuckets = 1) (hh : d.header 0 = .ok h) (hl : FcDict.bufSize < h.length) {q : Str} (hq : q ≠ []) (h32 : 32 ∉ q)
    (must : Bool) {s : Scratch} (hs : s.WF) : analyse d q must s = .error .oob := by
  have hd : q.dropWhile (· == 32) = q := by
    cases q with
    | nil => rfl
    | cons a q =>
        rw [List.dropWhile_cons_of_neg]
        intro e
        apply h32
        rw [beq_iff_eq] at e
        rw [e]
        exact List.mem_cons_self ..
  have hnt : nextToken q = (q, []) := by
    unfold nextToken
    dsimp only
    rw [hd]
    have hall : ∀ a ∈ q, (a != 32) = true := by
      intro a ha
      rw [bne_iff_ne]
      intro e
      exact h32 (e ▸ ha)
    rw [takeWhile_eq_self hall, dropWhile_eq_none hall]
  unfold analyse parse parseLoop
  rw [hnt]
  simp only [M.ok_bind]
  rw [if_pos trivial, FcDict.locatePrefix_long hn hh hq (by rw [hs.dbuf]; exact hl)]
  simp only [M.error_bind]

/-! ## The shape of a collection -/

namespace Pre

theorem map_lt {S : List Str} {f : Str → Str} (h : Mono S f) : ∀ {c c' : List Str}, (∀ t ∈ c, t ∈ S) → (∀ t ∈ c', t ∈ S) → c < c' → c.map f < c'.map f
  | _, [], _, _, hlt => absurd hlt (List.not_lt_nil _)
  | [], t :: c', _, _, _ => List.nil_lt_cons _ _
  | s :: c, t :: c', hc, hc', hlt => by
      rw [List.map_cons, List.map_cons, List.cons_lt_cons_iff]
      rcases List.cons_lt_cons_iff.mp hlt with h' | ⟨rfl, h'⟩
      · exact Or.inl (h s (hc s (by simp)) t (hc' t (by simp)) h')
      · exact Or.inr ⟨rfl, map_lt h (fun x hx => hc x (by simp [hx])) (fun x hx => hc' x (by simp [hx])) h'⟩

/-- a letter for each term -/
def letter (S : List Str) (t : Str) : Str := [97 + S.idxOf t]

theorem letter_mono {S : List Str} (hs : StrictSorted S) : Mono S (letter S) := by
  intro s hs' t ht hlt
  have h1 := List.idxOf_lt_length_of_mem hs'
  have h2 := List.idxOf_lt_length_of_mem ht
  have e1 := List.getElem_idxOf h1
  have e2 := List.getElem_idxOf h2
  have : S.idxOf s < S.idxOf t := by
    rcases Nat.lt_trichotomy (S.idxOf s) (S.idxOf t) with h | h | h
    · exact h
    · have : s = t := by rw [← e1, ← e2]; congr 1
      subst this
      exact absurd hlt (List.lt_irrefl _)
    · have := List.pairwise_iff_getElem.mp hs _ _ h2 h1 h
      rw [e1, e2] at this
      exact absurd (List.lt_trans this hlt) (List.lt_irrefl _)
  unfold letter
  rw [List.cons_lt_cons_iff]
  left
  omega

theorem flatMap_renamed (f : Str → Str) (C : Coll) : (renamed f C).flatMap (·.2) = (C.flatMap (·.2)).map f := by
  unfold renamed
  rw [List.flatMap_map, List.map_flatMap]

/-- with letters for the terms, the collection is valid -/
theorem letters_valid {C : Coll} (h : ValidShape C) (hn : (extractDict C).length ≤ 16) : ValidColl (renamed (letter (extractDict C)) C) := by
  have hm := letter_mono (extractDict_sorted C)
  have hmem : ∀ {r : Nat × List Str}, r ∈ renamed (letter (extractDict C)) C → ∃ q ∈ C, r = (q.1, q.2.map (letter (extractDict C))) := by
    intro r hr
    obtain ⟨q, hq, e⟩ := List.mem_map.mp hr
    exact ⟨q, hq, e.symm⟩
  refine ⟨?_, ?_, ?_, ?_, ?_, ?_, ?_, ?_, ?_, ?_⟩
  · simpa [renamed] using h.ne
  · have : (renamed (letter (extractDict C)) C).map (·.1) = C.map (·.1) := by
      unfold renamed
      rw [List.map_map]
      rfl
    rw [this]
    exact h.docs
  · have : (renamed (letter (extractDict C)) C).map (·.2) = (C.map (·.2)).map (List.map (letter (extractDict C))) := by
      unfold renamed
      rw [List.map_map, List.map_map]
      rfl
    rw [this, List.pairwise_map]
    refine h.sorted.imp_of_mem ?_
    intro a b ha hb hlt
    obtain ⟨r, hr, rfl⟩ := List.mem_map.mp ha
    obtain ⟨r', hr', rfl⟩ := List.mem_map.mp hb
    exact map_lt hm (mem_dict r hr) (mem_dict r' hr') hlt
  · intro r hr
    obtain ⟨q, hq, rfl⟩ := hmem hr
    simpa using h.nonempty q hq
  · intro r hr t ht
    obtain ⟨q, hq, rfl⟩ := hmem hr
    obtain ⟨w, hw, rfl⟩ := List.mem_map.mp ht
    have := List.idxOf_lt_length_of_mem (mem_dict q hq w hw)
    refine ⟨by simp [letter], ?_, ?_⟩
    · intro b hb
      simp only [letter, List.mem_cons, List.not_mem_nil, or_false] at hb
      omega
    · simp only [letter, space, List.mem_cons, List.not_mem_nil, or_false]
      omega
  · intro r hr
    obtain ⟨q, hq, rfl⟩ := hmem hr
    rw [List.length_map]
    exact h.short q hq
  · intro r hr
    obtain ⟨q, hq, rfl⟩ := hmem hr
    have := h.short q hq
    have e : ((q.2.map (letter (extractDict C))).map List.length) = List.replicate q.2.length 1 := by
      rw [List.map_map]
      exact List.eq_replicate_iff.mpr ⟨List.length_map .., by intro b hb; obtain ⟨x, _, rfl⟩ := List.mem_map.mp hb; rfl⟩
    dsimp only
    rw [e, List.sum_replicate_nat]
    omega
  · intro r hr
    obtain ⟨q, hq, rfl⟩ := hmem hr
    exact h.ids q hq
  · rw [flatMap_renamed, List.length_map]
    exact h.size
  · rw [flatMap_renamed, List.map_map]
    have := h.size
    have e : (C.flatMap (·.2)).map ((fun t => t.length + 2) ∘ letter (extractDict C)) = List.replicate (C.flatMap (·.2)).length 3 :=
      List.eq_replicate_iff.mpr ⟨List.length_map .., by intro b hb; obtain ⟨x, _, rfl⟩ := List.mem_map.mp hb; rfl⟩
    rw [e, List.sum_replicate_nat]
    omega

/-- What the scripts write, the constructors read, whatever the lengths of the terms. -/
theorem prepareLines_shape (junk : Nat) {L : List (Str × Nat × List Str)} (hg : ∀ l ∈ L, GoodLine l) (hv : ValidShape (collOf L))
    (hn : (extractDict (collOf L)).length ≤ 16) {m : Nat} (hm : m ≤ MAX_CHARS) :
    ∃ T P, prepareLines L m = some T ∧ Params.load junk T.stats = .ok P ∧ T.read P = .ok { run (collOf L) with maxLen := m } := by
  have hval := letters_valid hv hn
  have hmono := letter_mono (extractDict_sorted (collOf L))
  have hword : ∀ t ∈ extractDict (collOf L), IsWord t := by
    intro t ht
    obtain ⟨r, hr, ht⟩ := (mem_extractDict _ t).mp ht
    obtain ⟨l, hl, rfl⟩ := List.mem_map.mp hr
    exact (hg l hl).terms t ht
  have hlet : ∀ t ∈ extractDict (collOf L), IsWord (letter (extractDict (collOf L)) t) := by
    intro t ht
    have := List.idxOf_lt_length_of_mem ht
    refine ⟨by simp [letter], ?_⟩
    intro b hb
    simp only [letter, List.mem_cons, List.not_mem_nil, or_false] at hb
    unfold isBlank
    simp only [Bool.or_eq_false_iff, Bool.and_eq_false_iff, beq_eq_false_iff_ne, decide_eq_false_iff_not]
    omega
  have hgood : ∀ l ∈ renamedLines (letter (extractDict (collOf L))) L, GoodLine l := by
    intro l' hl'
    obtain ⟨l, hl, rfl⟩ := List.mem_map.mp hl'
    refine ⟨(hg l hl).id, (hg l hl).digits, (hg l hl).num, ?_⟩
    intro t ht
    obtain ⟨w, hw, rfl⟩ := List.mem_map.mp ht
    exact hlet w (mem_dict l.2 (List.mem_map.mpr ⟨l, hl, rfl⟩) w hw)
  have hread := prepareLines_read junk hgood (by rw [collOf_renamed]; exact hval) hm
  rw [collOf_renamed, run_renamed hmono, prepareLines_renamed hmono (fun t ht => (hword t ht).not_newline) (fun t ht => (hlet t ht).not_newline)] at hread
  obtain ⟨T', P, h1, h2, h3, _, h4, _⟩ := hread
  cases hT : prepareLines L m with
  | none => rw [hT] at h1; simp at h1
  | some T =>
      rw [hT] at h1
      simp only [Option.map_some, Option.some.injEq] at h1
      subst h1
      refine ⟨T, P, rfl, h2, ?_⟩
      have hdict := (Py.prepareLines_ascii (fun l hl => (hg l hl).digits) hT).1
      unfold Texts.read at h4 ⊢
      dsimp only at h4
      obtain ⟨a, ha, h4⟩ := bind_ok h4
      obtain ⟨b, hb, h4⟩ := bind_ok h4
      obtain ⟨c, hc, h4⟩ := bind_ok h4
      simp only [Except.ok.injEq, Files.mk.injEq] at h4
      obtain ⟨_, e2, e3, e4, e5, e6, e7⟩ := h4
      rw [ha, M.ok_bind, hb, M.ok_bind, hc, M.ok_bind]
      dsimp only at h3
      rw [List.length_map] at h3
      have hd := readWords_text (extractDict (collOf L)) [] 0 [] [] [] (by decide) (fun t ht => ⟨(hword t ht).1, (hword t ht).not_space⟩)
      rw [List.nil_append, ← h3] at hd
      unfold Stream.ofText
      rw [hdict, hd, e2, e3, e4, e5, e6, e7]
      rfl

end Pre

/-- a length over the limit: the file of statistics is rejected -/
theorem Params.load_reject (junk : Nat) {a m : Nat} (ha : a < 2 ^ 32) (hm : MAX_CHARS < m) (hm' : m < 2 ^ 32) (R : Str) :
    Params.load junk (Pre.dec a ++ 10 :: (Pre.dec m ++ 10 :: R)) = .error .thrown := by
  have h1 := Stream.getU32_num 0 (w := []) (by decide) (Pre.dec_ne a) (Pre.dec_digits a) (by rw [Pre.num_dec]; exact ha) (r := 10 :: (Pre.dec m ++ 10 :: R))
    (by simp [EndsNum, isDigit])
  have h2 := Stream.getU32_num 0 (w := [10]) (by decide) (Pre.dec_ne m) (Pre.dec_digits m) (by rw [Pre.num_dec]; exact hm') (r := 10 :: R)
    (by simp [EndsNum, isDigit])
  rw [List.nil_append, Pre.num_dec] at h1
  rw [List.singleton_append, Pre.num_dec] at h2
  unfold Params.load Stream.ofText
  rw [h1]
  dsimp only
  rw [show (10 :: (Pre.dec m ++ 10 :: R)).isEmpty = false from rfl, h2]
  dsimp only
  rw [if_pos hm]

theorem indexOfTexts_reject {α : Type} (build : Files → M α) (junk : Nat) {L : List (Str × Nat × List Str)} (hg : ∀ l ∈ L, Pre.GoodLine l)
    (hs : (Pre.extractDict (Pre.collOf L)).length < 2 ^ 32) {m : Nat} (hm : MAX_CHARS < m) (hm' : m < 2 ^ 32) :
    indexOfTexts build junk (Pre.prepareLines L m) = .error .thrown := by
  cases hT : Pre.prepareLines L m with
  | none => rfl
  | some T =>
      have hword : ∀ t ∈ Pre.extractDict (Pre.collOf L), Pre.IsWord t := by
        intro t ht
        obtain ⟨r, hr, ht⟩ := (Pre.mem_extractDict _ t).mp ht
        obtain ⟨l, hl, rfl⟩ := List.mem_map.mp hr
        exact (hg l hl).terms t ht
      have hlines : Pre.lines (Pre.dictText (Pre.extractDict (Pre.collOf L))) = Pre.extractDict (Pre.collOf L) :=
        Pre.lines_text (fun w hw => (hword w hw).not_newline)
      have hstats : ∃ R, T.stats = Pre.dec (Pre.extractDict (Pre.collOf L)).length ++ 10 :: (Pre.dec m ++ 10 :: R) := by
        unfold Pre.prepareLines at hT
        dsimp only at hT
        rw [hlines] at hT
        simp only [Option.bind_eq_bind] at hT
        cases hst : Pre.statsText (Pre.extractDict (Pre.collOf L)) m (Pre.mappedText (Pre.extractDict (Pre.collOf L)) L) with
        | none => rw [hst] at hT; simp at hT
        | some st =>
            rw [hst] at hT
            simp only [Option.bind_some, Option.some.injEq] at hT
            rw [← hT]
            dsimp only
            unfold Pre.statsText at hst
            cases hp : Pre.parse (Pre.mappedText (Pre.extractDict (Pre.collOf L)) L) with
            | none => rw [hp] at hst; simp at hst
            | some L' =>
                rw [hp] at hst
                simp only [Option.bind_eq_bind, Option.bind_some, Option.some.injEq, List.flatMap_cons, List.append_assoc, List.cons_append, List.nil_append] at hst
                exact ⟨_, hst.symm⟩
      obtain ⟨R, hR⟩ := hstats
      unfold indexOfTexts
      dsimp only
      rw [hR, Params.load_reject junk hs hm hm', M.error_bind]

/-- the index, whatever the lengths of the terms -/
theorem Index1.build_long {C : Coll} (hv : ValidShape C) (hw : Suits1 C) {h : Str} {ss : List Str} (he : Pre.extractDict C = h :: ss) (hn : ss.length < 16)
    (hl : h.length < 2 ^ 32) (m : Nat) (mem : Nat → W) :
    ∃ x, Index1.build { Pre.run C with maxLen := m } mem = .ok x ∧ x.dict.nBuckets = 1 ∧ x.dict.header 0 = .ok h := by
  have hmono := Pre.letter_mono (Pre.extractDict_sorted C)
  have hval := Pre.letters_valid hv (by rw [he, List.length_cons]; omega)
  have hR := hval.ready
  have hinj : ∀ {s t}, s ∈ Pre.extractDict C → t ∈ Pre.extractDict C → Pre.letter (Pre.extractDict C) s = Pre.letter (Pre.extractDict C) t → s = t :=
    fun hs ht e => (hmono.eq_iff hs ht).mp e
  have hterms : (Pre.run (Pre.renamed (Pre.letter (Pre.extractDict C)) C)).terms.length = ss.length + 1 := by
    rw [Pre.run_renamed hmono]
    dsimp only
    rw [List.length_map, he, List.length_cons]
  have hw' : Suits1 (Pre.renamed (Pre.letter (Pre.extractDict C)) C) := by
    refine ⟨⟨_, hR.numTerms, by omega⟩, ?_⟩
    obtain ⟨t, ⟨r, hr, ht⟩, h0⟩ := hw.doc0
    refine ⟨Pre.letter (Pre.extractDict C) t, ⟨_, List.mem_map.mpr ⟨r, hr, rfl⟩, List.mem_map.mpr ⟨t, ht, rfl⟩⟩, ?_⟩
    intro c hc hm
    obtain ⟨q, hq, e⟩ := List.mem_map.mp hc
    simp only [Prod.mk.injEq] at e
    obtain ⟨e1, rfl⟩ := e
    obtain ⟨w, hw, e2⟩ := List.mem_map.mp hm
    have : w = t := hinj (Pre.mem_dict q hq w hw) (Pre.mem_dict r hr t ht) e2
    subst this
    exact h0 q.2 (by rw [← e1]; exact hq) hw
  obtain ⟨d, hd, hd1, hd2⟩ := FcDict.build_one (h := h) hn hl
  obtain ⟨y, hy, _⟩ := Index1.exists hR hw' mem
  rw [Pre.run_renamed hmono] at hy
  unfold Index1.build at hy ⊢
  dsimp only at hy ⊢
  obtain ⟨ib, a1, hy⟩ := bind_ok hy
  obtain ⟨docs, a2, hy⟩ := bind_ok hy
  obtain ⟨minimal, a3, hy⟩ := bind_ok hy
  obtain ⟨compl, a4, hy⟩ := bind_ok hy
  obtain ⟨_, _, hy⟩ := bind_ok hy
  obtain ⟨inv, a6, hy⟩ := bind_ok hy
  obtain ⟨fwd, a7, _⟩ := bind_ok hy
  have ht : (Pre.run C).terms = h :: ss := he
  rw [List.length_map, he] at a7
  rw [ht, a1, M.ok_bind, a2, M.ok_bind, a3, M.ok_bind, a4, M.ok_bind, hd, M.ok_bind, a6, M.ok_bind, a7, M.ok_bind]
  exact ⟨_, rfl, hd1, hd2⟩

end AC
