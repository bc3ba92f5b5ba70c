import Verif.Proofs.LossyDict
import Verif.Proofs.ConjQuery
import Verif.Spec.Lossy
/-!
# Queries when the number of terms is a multiple of 17
-/
namespace AC
open Spec

/-! ## Decoding -/

theorem writeTerms_size {d : FC} {n : Nat} {term : Nat → M Nat} : ∀ (k j : Nat) (data : Str) (off : Nat),
    writeTerms { d with size := n } term k j data off = writeTerms d term k j data off
  | 0, _, _, _ => rfl
  | k + 1, j, data, off => by
      have h : ∀ id out base, FcDict.extract { d with size := n } id out base = FcDict.extract d id out base := fun id out base => by
        have hl : ∀ (m cur : Nat) (o : List Nat) (b len : Nat), FC.extractLoop Elem.byte { d with size := n } m cur o b len = FC.extractLoop Elem.byte d m cur o b len := by
          intro m
          induction m with
          | zero => intros; rfl
          | succ m ih =>
              intro cur o b len
              simp only [FC.extractLoop, ih]
              rfl
        simp only [FcDict.extract, FC.extractAt, hl]
        rfl
      simp only [writeTerms, writeTerms_size k, h]

theorem extractStrings_size {d : FC} {n : Nat} {src : Nat → M (Nat × (Nat → M Nat))} : ∀ (k i : Nat) (p : Pool),
    extractStrings { d with size := n } src k i p = extractStrings d src k i p
  | 0, _, _ => rfl
  | k + 1, i, p => by simp only [extractStrings, writeTerms_size, extractStrings_size k]

/-- decoding results: as usual when no term is lost, otherwise a read out of bounds -/
def DecodedL (d : FC) (L : List Str) (s : Scratch) (docs : List Nat) (tss : List Ids) (o : M Scratch) : Prop :=
  ((∀ ts ∈ tss, ∀ t ∈ ts, t ≤ L.length - 16) → Decoded d L s docs tss o) ∧
  ((∃ ts ∈ tss, ∃ t ∈ ts, L.length - 16 < t) → o = .error .oob)

theorem textOf_take {L : List Str} {n : Nat} {ts : Ids} (h : ∀ t ∈ ts, 0 < t ∧ t ≤ n) : textOf (L.take n) ts = textOf L ts := by
  unfold textOf
  congr 1
  apply List.map_congr_left
  intro t ht
  have := h t ht
  rw [List.getD_eq_getElem?_getD, List.getD_eq_getElem?_getD, List.getElem?_take, if_pos (by omega)]

theorem Lossy.decoded {s : Scratch} {d : FC} {L : List Str} (h : Lossy d L)
    {src : Nat → M (Nat × (Nat → M Nat))} {tss : List Ids} (hp : s.pool.Holds []) (hdl : s.pool.data.length = POOL_SIZE) (hin : ∀ ts ∈ tss, IdsIn L ts)
    (hsrc : ∀ j (h : j < tss.length), ∃ term, src j = .ok ((tss[j]).length, term) ∧
      ∀ u (hu : u < (tss[j]).length), term u = .ok (tss[j])[u]) {docs : List Nat}
    (hdocs : s.pool.scores.take tss.length = docs) (hlen : tss.length ≤ s.pool.scores.length) :
    DecodedL d L s docs tss (do
      let pool ← extractStrings d src tss.length 0 s.pool
      .ok { s with pool := pool }) := by
  constructor
  · intro hk
    obtain ⟨d', rfl, R⟩ := h.rep
    have hpos := h.pos
    have := decoded_of_strings R hp hdl (tss := tss) (src := src) (by
      intro ts hts t ht
      have h1 := hin ts hts t ht
      have h2 := hk ts hts t ht
      rw [List.length_take]; omega) hsrc hdocs hlen
    rw [extractStrings_size]
    have ht : tss.map (textOf (L.take (L.length - 16))) = tss.map (textOf L) :=
      List.map_congr_left (fun ts hts => textOf_take (fun t ht => ⟨(hin ts hts t ht).1, hk ts hts t ht⟩))
    have hf : fitsPool { d' with size := L.length } tss = fitsPool d' tss := by
      unfold fitsPool
      rw [extractStrings_size]
    unfold Decoded at this ⊢
    rw [ht] at this
    rw [hf]
    exact this
  · intro hl
    rw [h.extractStrings_lost tss 0 s.pool ⟨_, hp.bytes⟩ hin hl (by simpa using hsrc), M.error_bind]

theorem Index1.extract_lossy {x : Index1} {L : List Str} {nt : Nat} {fwd : List (List Nat)} (R : Lossy x.dict L)
    (hf : x.forward.Rep nt fwd) {s : Scratch} (hp : s.pool.Holds []) (hdl : s.pool.data.length = POOL_SIZE) {docs : List Nat} {n : Nat} (hn : docs.length = n)
    (hdocs : s.pool.scores.take n = docs) (hd : ∀ d ∈ docs, d < fwd.length ∧ IdsIn L (fwd.getD d [])) :
    DecodedL x.dict L s docs (docs.map (fun d => fwd.getD d [])) (x.extract n s) := by
  subst hn
  have hlen : docs.length ≤ s.pool.scores.length := by
    have := congrArg List.length hdocs
    rw [List.length_take] at this; omega
  have := R.decoded (src := x.source s.pool.scores) (tss := docs.map (fun d => fwd.getD d [])) hp hdl
    (by intro ts hts; obtain ⟨d, h, rfl⟩ := List.mem_map.mp hts; exact (hd d h).2)
    (by
      intro j hj0
      have hj : j < docs.length := by simpa using hj0
      obtain ⟨h1, h2⟩ := hd docs[j] (List.getElem_mem hj)
      have hget : fwd.getD docs[j] [] = fwd[docs[j]] := by
        rw [List.getD_eq_getElem?_getD, List.getElem?_eq_getElem h1]; rfl
      obtain ⟨p, p1, p2⟩ := hf.at' docs[j] h1
      have hsc : rd s.pool.scores j = .ok docs[j] := by
        apply rd_of_getElem?
        have : (s.pool.scores.take docs.length)[j]? = some docs[j] := by
          rw [hdocs, List.getElem?_eq_getElem hj]
        rw [List.getElem?_take, if_pos hj] at this
        exact this
      have hl : (docs.map (fun d => fwd.getD d []))[j] = fwd[docs[j]] := by rw [List.getElem_map]; exact hget
      generalize (docs.map (fun d => fwd.getD d []))[j] = l at hl
      subst hl
      refine ⟨fun u => FwdIt.deref x.forward ⟨p, fwd[docs[j]].length, u⟩, ?_, ?_⟩
      · unfold Index1.source
        rw [hsc, M.ok_bind, p1]; rfl
      · intro u hu
        obtain ⟨w, w1, w2⟩ := p2 u hu
        dsimp only [FwdIt.deref]
        rw [w1, M.ok_bind, w2, id32, Nat.mod_eq_of_lt]
        have := hf.valid.each _ (List.getElem_mem h1) _ (List.getElem_mem hu)
        have := hf.valid.small
        omega)
    (docs := docs) (by simpa using hdocs) (by simpa using hlen)
  rw [List.length_map] at this
  exact this

theorem Base.strings_lossy {x : Base} {L : List Str} (R : Lossy x.dict L) {s : Scratch} (hp : s.pool.Holds []) (hdl : s.pool.data.length = POOL_SIZE)
    {cs : List Ids} (hr : Rows s.compl s.sizes cs) {docs : List Nat} {n : Nat} (hn : cs.length = n)
    (hdocs : s.pool.scores.take n = docs) (hlen : n ≤ s.pool.scores.length) (hin : ∀ c ∈ cs, IdsIn L c) :
    DecodedL x.dict L s docs cs (x.strings n s) := by
  subst hn
  refine R.decoded (src := Base.source s.compl s.sizes) hp hdl hin ?_ hdocs hlen
  intro j hj
  obtain ⟨row, r1, r2, r3⟩ := hr j hj
  refine ⟨fun u => rd row u, ?_, ?_⟩
  · unfold Base.source
    rw [rd_of_getElem? r1, M.ok_bind, rd_of_getElem? r3]; rfl
  · intro u hu
    apply rd_of_getElem?
    have : (row.take cs[j].length)[u]? = some cs[j][u] := by rw [r2, List.getElem?_eq_getElem hu]
    rw [List.getElem?_take, if_pos hu] at this
    exact this

theorem Base.extract_lossy {x : Base} {mapped : List (Nat × Ids)} (h : x.Rep mapped) {L : List Str} (R : Lossy x.dict L)
    (cOf : Nat → Ids) {s : Scratch} (hs : s.WF) (hp : s.pool.Holds []) {n : Nat} (hn : n ≤ s.pool.scores.length)
    (hd : ∀ d ∈ s.pool.scores.take n, (d, cOf d) ∈ mapped ∧ IdsIn L (cOf d)) :
    ∃ s1, s1.WF ∧ DecodedL x.dict L s1 (s.pool.scores.take n) ((s.pool.scores.take n).map cOf) (x.extract n s) := by
  have h15 := hs.scores
  obtain ⟨compl, sizes, a1, a2, a3⟩ := Base.extractCompletions_spec h cOf (scores := s.pool.scores) n 0 s.compl s.sizes [] (by omega) (by omega)
    (by intro d hd'; rw [List.drop_zero] at hd'; exact (hd d hd').1) hs.shape Rows.nil rfl
  rw [List.nil_append, List.drop_zero] at a3
  refine ⟨{ s with compl := compl, sizes := sizes }, ⟨hs.scores, hs.data, hs.dbuf, hs.cbuf, a2⟩, ?_⟩
  unfold Base.extract
  rw [a1, M.ok_bind]
  dsimp only
  have := Base.strings_lossy (x := x) R (s := { s with compl := compl, sizes := sizes }) hp hs.data a3 (n := n) (docs := s.pool.scores.take n)
    (by simp; omega) rfl hn (by
      intro c hc
      obtain ⟨d, hd', rfl⟩ := List.mem_map.mp hc
      exact (hd d hd').2)
  exact this

/-! ## The last terms of the collection -/

section
variable {C : Coll} {F : Files} (h : Ready C F)
include h

theorem Ready.amongLast (hn : 16 ≤ F.terms.length) {i : Nat} (hi : i < F.terms.length) : AmongLast C 16 F.terms[i] ↔ F.terms.length - 16 ≤ i := by
  have hs := h.files.terms
  have hnd : F.terms.Nodup := hs.imp (fun {a b} hab => fun he => List.lt_irrefl b (he ▸ hab))
  constructor
  · rintro ⟨_, h2⟩
    apply Classical.byContradiction
    intro hc
    have := h2 (F.terms.drop (i + 1)) (hnd.sublist (List.drop_sublist _ _)) (by
      intro x hx
      refine ⟨(h.isTerm x).mpr (List.mem_of_mem_drop hx), ?_⟩
      obtain ⟨j, hj, rfl⟩ := List.getElem_of_mem hx
      rw [List.getElem_drop]
      exact (List.pairwise_iff_getElem.mp hs) i (i + 1 + j) hi (by simp at hj; omega) (by omega))
    simp at this
    omega
  · intro hle
    refine ⟨(h.isTerm _).mpr (List.getElem_mem _), ?_⟩
    intro G hG hall
    have := nodup_subset_length' (A := G) (B := F.terms.drop (i + 1)) hG (by
      intro x hx
      obtain ⟨h1, h2⟩ := hall x hx
      obtain ⟨j, hj, rfl⟩ := List.getElem_of_mem ((h.isTerm x).mp h1)
      have hij : i < j := by
        apply Classical.byContradiction
        intro hc
        rcases Nat.lt_or_eq_of_le (Nat.le_of_not_lt hc) with hlt | he
        · exact List.lt_irrefl _ (List.lt_trans h2 ((List.pairwise_iff_getElem.mp hs) j i hj hi hlt))
        · subst he; exact List.lt_irrefl _ h2
      have : F.terms[j] = (F.terms.drop (i + 1))[j - (i + 1)]'(by simp; omega) := by
        rw [List.getElem_drop]; congr 1; omega
      rw [this]
      exact List.getElem_mem _)
    simp at this
    omega

theorem Ready.amongLast_rank (hn : 16 ≤ F.terms.length) {t : Str} (ht : t ∈ F.terms) :
    AmongLast C 16 t ↔ F.terms.length - 16 < rankOf F.terms t := by
  have hi := List.idxOf_lt_length_iff.mpr ht
  have := h.amongLast hn hi
  rw [List.getElem_idxOf] at this
  rw [this]
  unfold rankOf
  omega

theorem Ready.kept (hn : 16 ≤ F.terms.length) (t : Str) : KeptTerm C t ↔ t ∈ F.terms.take (F.terms.length - 16) := by
  unfold KeptTerm
  rw [h.isTerm]
  constructor
  · rintro ⟨h1, h2⟩
    rw [h.amongLast_rank hn h1] at h2
    have hi := List.idxOf_lt_length_iff.mpr h1
    unfold rankOf at h2
    rw [List.mem_take_iff_getElem]
    exact ⟨F.terms.idxOf t, by omega, List.getElem_idxOf hi⟩
  · intro ht
    have h1 := List.mem_of_mem_take ht
    refine ⟨h1, ?_⟩
    rw [h.amongLast_rank hn h1]
    obtain ⟨i, hi, he⟩ := List.getElem_of_mem ht
    rw [List.getElem_take] at he
    rw [List.length_take] at hi
    rw [← he, rankOf_getElem h.files.terms (by omega)]
    omega

theorem Ready.rankOf_take {n : Nat} {t : Str} (ht : t ∈ F.terms.take n) : rankOf (F.terms.take n) t = rankOf F.terms t := by
  have hs : (F.terms.take n).Pairwise (· < ·) := h.files.terms.sublist (List.take_sublist _ _)
  obtain ⟨i, hi, rfl⟩ := List.getElem_of_mem ht
  rw [rankOf_getElem hs hi]
  have hi' := hi
  rw [List.length_take] at hi'
  rw [List.getElem_take, rankOf_getElem h.files.terms (by omega)]

end

/-! ## The outcome -/

/-- The outcome of a query: the best completions with property `P`, with their texts; unless the texts do not fit, or one of them has
one of the last 16 terms, in which case bytes are read outside of the dictionary. -/
def Outcome17 (C : Coll) (terms : List Str) (P : List Str → Prop) (k : Nat) (o : M Scratch) : Prop :=
  ∃ E, Spec.Best C P k E ∧ ((∀ r ∈ E, ∀ t ∈ r.2, ¬ AmongLast C 16 t) → Shows terms E o) ∧
    ((∃ r ∈ E, ∃ t ∈ r.2, AmongLast C 16 t) → o = .error .oob)

theorem Ready.outcome17 {C : Coll} {F : Files} (h : Ready C F) (hn : 16 ≤ F.terms.length) {P : List Str → Prop} {k : Nat} {docs : List Nat}
    (ht : IsTopK (Doc C P) k docs) {s : Scratch} (hs : s.WF)
    {d : FC} (hdict : FcDict.build F.terms = .ok d) {o : M Scratch}
    (hd : DecodedL d F.terms s docs (docs.map (fun d => F.forward.getD d [])) o) : Outcome17 C F.terms P k o := by
  have hdoc : ∀ d ∈ docs, ∃ c, (d, c) ∈ C := fun d hd => by obtain ⟨c, hc, _⟩ := ht.sound d hd; exact ⟨c, hc⟩
  have key : ∀ d ∈ docs, ∀ t ∈ F.forward.getD d [], (AmongLast C 16 (F.terms.getD (t - 1) []) ↔ F.terms.length - 16 < t) := by
    intro d hd t htt
    obtain ⟨c, hc⟩ := hdoc d hd
    have := h.idsIn hc t htt
    rw [List.getD_eq_getElem?_getD, List.getElem?_eq_getElem (show t - 1 < F.terms.length by omega), Option.getD_some, h.amongLast hn (by omega)]
    omega
  refine ⟨_, h.best ht, ?_, ?_⟩
  · intro hk
    refine h.shows hdoc hs hdict (hd.1 ?_)
    intro ts hts t htt
    obtain ⟨d, hdd, rfl⟩ := List.mem_map.mp hts
    have h1 := hk _ (List.mem_map.mpr ⟨d, hdd, rfl⟩) _ (List.mem_map.mpr ⟨t, htt, rfl⟩)
    rw [key d hdd t htt] at h1
    omega
  · rintro ⟨r, hr, t, htr, hl⟩
    obtain ⟨d, hdd, rfl⟩ := List.mem_map.mp hr
    obtain ⟨t', htt, rfl⟩ := List.mem_map.mp htr
    exact hd.2 ⟨_, List.mem_map.mpr ⟨d, hdd, rfl⟩, t', htt, (key d hdd t' htt).mp hl⟩

theorem outcome17_none {C : Coll} {P : List Str → Prop} {k : Nat} {s : Scratch} (hs : s.WF) (hp : s.pool.Holds [])
    {terms : List Str} {d : FC} (hdict : FcDict.build terms = .ok d) (h : ∀ r ∈ C, ¬ P r.2) : Outcome17 C terms P k (.ok s) := by
  refine ⟨[], ⟨by simp, by simp, by simp, fun r hr hp => absurd hp (h r hr)⟩, fun _ => Or.inr ⟨s, rfl, hs, ?_, ⟨d, hdict, rfl⟩, by simp [room], by simpa using hp⟩,
    by simp⟩
  rw [hp.results (by simp)]; simp

/-! ## The terms of the query -/

/-- the range `[b, e]` (from 0) is that of the terms found for `last` -/
structure KeptRange (C : Coll) (F : Files) (last : Str) (b e : Nat) : Prop where
  le : b ≤ e
  lt : e < F.terms.length
  iff : ∀ i (hi : i < F.terms.length), (b ≤ i ∧ i ≤ e) ↔ ReachesKept C last F.terms[i]

theorem KeptRange.rank {C : Coll} {F : Files} {last : Str} {b e : Nat} (h : KeptRange C F last b e) {x : Str} (hx : x ∈ F.terms) :
    (b + 1 ≤ rankOf F.terms x ∧ rankOf F.terms x ≤ e + 1) ↔ ReachesKept C last x := by
  have hi := List.idxOf_lt_length_iff.mpr hx
  have := h.iff (F.terms.idxOf x) hi
  rw [List.getElem_idxOf] at this
  rw [← this]
  unfold rankOf
  omega

/-- the terms that are not lost -/
def Files.kept (F : Files) : List Str := F.terms.take (F.terms.length - 16)

theorem Files.kept_sub {F : Files} {t : Str} (h : t ∈ F.kept) : t ∈ F.terms := List.mem_of_mem_take h

/-- the two outcomes of `analyse` -/
inductive AnalysedL (C : Coll) (F : Files) (q : Str) (must : Bool) (s : Scratch) : M (Scratch × Option (Ids × Range)) → Prop
  | unknown (buf : Str) (hb : buf.length = s.dbuf.length) (hm : must = true) (hu : ∃ t ∈ completeTerms q, ¬ KeptTerm C t) :
      AnalysedL C F q must s (.ok ({ s with pool := s.pool.init, dbuf := buf }, none))
  | nothing (buf : Str) (hb : buf.length = s.dbuf.length) (hu : ∀ x, IsTerm C x → ¬ ReachesKept C (lastTerm q) x) :
      AnalysedL C F q must s (.ok ({ s with pool := s.pool.init, dbuf := buf }, none))
  | some (buf : Str) (hb : buf.length = s.dbuf.length) (r : Range) (hr : KeptRange C F (lastTerm q) r.b r.e)
      (hk : must = true → ∀ t ∈ completeTerms q, t ∈ F.kept) :
      AnalysedL C F q must s (.ok ({ s with pool := s.pool.init, dbuf := buf },
        Option.some (((completeTerms q).filter (fun t => decide (t ∈ F.kept))).map (rankOf F.terms), r)))

theorem analyse_lossy {C : Coll} {F : Files} (h : Ready C F) {d : FC} (R : Lossy d F.terms) {q : Str} (hq : IsText q)
    (must : Bool) {s : Scratch} (hs : s.dbuf.length = FcDict.bufSize) : AnalysedL C F q must s (analyse d q must s) := by
  have v := h.validTerms
  have hn : 16 ≤ F.terms.length := by have := R.pos; omega
  have v' := Props.findable_valid v
  rw [Props.findable, if_pos R.mod] at v'
  obtain ⟨ok, pfx, suffix, buf, p1, p2, p3, p4⟩ := parse_spec v' (R.locates v) must hq s.dbuf hs
  unfold analyse
  rw [p1, M.ok_bind]
  dsimp only
  cases ok with
  | false =>
      rw [if_neg (by simp)]
      refine AnalysedL.unknown buf p2 ?_ ?_
      · cases must with
        | true => rfl
        | false => exact absurd (p3.mpr (by simp)) (by simp)
      · apply Classical.byContradiction
        intro hc
        have : false = true := p3.mpr (by
          intro _ t ht
          apply Classical.byContradiction
          intro hn'
          exact hc ⟨t, ht, fun h' => hn' ((h.kept hn t).mp h')⟩)
        simp at this
  | true =>
      rw [if_pos rfl]
      obtain ⟨q1, q2⟩ := p4 rfl
      have q1 : pfx = ((completeTerms q).filter (fun t => decide (t ∈ F.kept))).map (rankOf F.terms) := by
        rw [q1]
        apply List.map_congr_left
        intro t ht
        exact h.rankOf_take (by simpa using (List.mem_filter.mp ht).2)
      subst q1 q2
      have ht : IsText (lastTerm q) := fun c hc => hq c (lastTerm_subset q hc)
      obtain ⟨r, buf', l1, l2, l3⟩ := R.locatePrefix v ht buf (by rw [p2, hs])
      rw [l1, M.ok_bind]
      dsimp only
      rcases l3 with ⟨e1, e2⟩ | ⟨e1, e2, e3⟩
      · subst e1
        rw [if_pos (by decide)]
        refine AnalysedL.nothing buf' (by omega) ?_
        rintro x hx ⟨hr, hr'⟩
        obtain ⟨i, hi, rfl⟩ := List.getElem_of_mem ((h.isTerm x).mp hx)
        obtain ⟨r1, r2⟩ := (h.reaches hi).mp hr
        rcases e2 i hi r1 with h1 | ⟨h1, h2⟩
        · exact r2 h1
        · rcases hr' with h3 | h3
          · exact h1 h3
          · exact h3 ((h.amongLast hn hi).mpr h2)
      · have hninv : r.isInvalid = false := by
          have := v.count
          simp only [Range.isInvalid, NOT_FOUND, Bool.or_eq_false_iff, beq_eq_false_iff_ne, decide_eq_false_iff_not]
          omega
        rw [if_neg (by simp [hninv])]
        refine AnalysedL.some buf' (by omega) r ⟨e1, e2, fun i hi => ?_⟩ (p3.mp rfl)
        rw [e3 i hi]
        unfold ReachesKept
        rw [h.reaches hi, h.amongLast hn hi, and_assoc, Nat.not_le]


section
variable {C : Coll} {F : Files} (h : Ready C F)
include h

omit h in
theorem Ready.match_kept (_h : Ready C F) {complete : List Str} (hc : ∀ t ∈ complete, t ∈ F.terms) {last : Str} {b e : Nat} (hr : KeptRange C F last b e)
    {c : List Str} (hcc : ∀ t ∈ c, t ∈ F.terms) :
    MatchIds (complete.map (rankOf F.terms)) (b + 1) (e + 1) (c.map (rankOf F.terms)) ↔ ∃ x, ReachesKept C last x ∧ (complete ++ [x]) <+: c := by
  constructor
  · rintro ⟨n, h1, h2, t, ht⟩
    obtain ⟨l12, l3, rfl, e1, e2⟩ := List.map_eq_append_iff.mp ht.symm
    obtain ⟨l1, l2, rfl, e3, e4⟩ := List.map_eq_append_iff.mp e1
    have hl1 : l1 = complete := map_rankOf_inj (fun t ht => hcc t (by simp [ht])) hc e3
    subst hl1
    obtain ⟨x, rfl, hx⟩ : ∃ x, l2 = [x] ∧ rankOf F.terms x = n := by
      cases l2 with
      | nil => simp at e4
      | cons x xs =>
          cases xs with
          | nil => exact ⟨x, rfl, by simpa using e4⟩
          | cons y ys => simp at e4
    refine ⟨x, (hr.rank (hcc x (by simp))).mp (by omega), List.prefix_append _ _⟩
  · rintro ⟨x, h1, t, rfl⟩
    have := (hr.rank (hcc x (by simp))).mpr h1
    exact ⟨rankOf F.terms x, this.1, this.2, t.map (rankOf F.terms), by simp⟩


theorem Ready.match_kept' (hn : 16 ≤ F.terms.length) {complete : List Str} (hc : ∀ t ∈ complete, t ∈ F.kept) {last : Str} {b e : Nat}
    (hr : KeptRange C F last b e) {c : List Str} (hcc : ∀ t ∈ c, t ∈ F.terms) :
    MatchIds (complete.map (rankOf F.terms)) (b + 1) (e + 1) (c.map (rankOf F.terms)) ↔ PrefixKept C complete last c := by
  rw [h.match_kept (fun t ht => Files.kept_sub (hc t ht)) hr hcc]
  unfold PrefixKept
  exact ⟨fun hx => ⟨fun t ht => (h.kept hn t).mpr (hc t ht), hx⟩, fun hx => hx.2⟩

omit h in
theorem Ready.not_prefixKept (_h : Ready C F) {complete : List Str} {last : Str} (hu : ∃ t ∈ complete, ¬ KeptTerm C t) : ∀ r ∈ C, ¬ PrefixKept C complete last r.2 := by
  obtain ⟨t, ht, hn⟩ := hu
  rintro r hr ⟨hx, _⟩
  exact hn (hx t ht)

omit h in
theorem Ready.not_prefixKept' (_h : Ready C F) {complete : List Str} {last : Str} (hu : ∀ x, IsTerm C x → ¬ ReachesKept C last x) :
    ∀ r ∈ C, ¬ PrefixKept C complete last r.2 := by
  rintro r hr ⟨_, x, hx, s, hs⟩
  exact hu x ⟨r, hr, by rw [← hs]; simp⟩ hx

end

/-- like `Index1.Rep`, with a dictionary that has lost terms -/
structure Index1.Rep17 (x : Index1) (F : Files) : Prop where
  trie : ∀ (pfx : Ids) (b e : Nat), (∀ x ∈ pfx, 0 < x ∧ x < 2 ^ 32) → 0 < b → b ≤ e → e < 2 ^ 32 →
    ∃ r, Trie.locatePrefix x.completions pfx ⟨b, e⟩ = .ok r ∧ Props.CompletionRange (F.mapped.map (·.2)) pfx b e r
  docs : x.docs.Rep (F.mapped.map (·.1))
  minimal : x.minimal.Rep (F.inverted.map (fun l => l.headD 0))
  dict : Lossy x.dict F.terms
  built : FcDict.build F.terms = .ok x.dict
  inverted : x.inverted.Rep F.univ F.inverted
  forward : x.forward.Rep F.terms.length F.forward

theorem Index1.extract_outcome17 {C : Coll} {F : Files} (h : Ready C F) {x : Index1} (hx : x.Rep17 F) {P : List Str → Prop} {k n : Nat} {s : Scratch}
    (hs : s.WF) (hp : s.pool.Holds []) (hn : n ≤ s.pool.scores.length) (ht : IsTopK (Doc C P) k (s.pool.scores.take n)) :
    Outcome17 C F.terms P k (x.extract n s) := by
  refine h.outcome17 (by have := hx.dict.pos; omega) ht hs hx.built (Index1.extract_lossy hx.dict hx.forward hp hs.data (by simp; omega) rfl ?_)
  intro d hd
  obtain ⟨c, hc, _⟩ := ht.sound d hd
  exact ⟨h.lt_forward hc, h.idsIn hc⟩

theorem Base.extract_outcome17 {C : Coll} {F : Files} (h : Ready C F) {x : Base} (hx : x.Rep F.mapped) (R : Lossy x.dict F.terms)
    (hdict : FcDict.build F.terms = .ok x.dict) {P : List Str → Prop} {k n : Nat} {s : Scratch}
    (hs : s.WF) (hp : s.pool.Holds []) (hn : n ≤ s.pool.scores.length) (ht : IsTopK (Doc C P) k (s.pool.scores.take n)) :
    Outcome17 C F.terms P k (x.extract n s) := by
  obtain ⟨s1, w1, w2⟩ := Base.extract_lossy hx R (fun d => F.forward.getD d []) hs hp hn (by
    intro d hd
    obtain ⟨c, hc, _⟩ := ht.sound d hd
    exact ⟨h.mapped_mem hc, h.idsIn hc⟩)
  exact h.outcome17 (by have := R.pos; omega) ht w1 hdict w2

theorem PrefixRun.outcome17 {std : StdLib} {C : Coll} {F : Files} (h : Ready C F) {P : List Str → Prop} {u : UL} (hu : u.Rep (F.mapped.map (·.1)))
    {d : FC} (hd : FcDict.build F.terms = .ok d) {extract : Nat → Scratch → M Scratch} {k : Nat} {o : M Scratch} (hr : PrefixRun C P u extract std k o)
    (hk : 1 ≤ k) (hk' : k ≤ MAX_K)
    (hext : ∀ s n, s.WF → s.pool.Holds [] → n ≤ s.pool.scores.length → IsTopK (Doc C P) k (s.pool.scores.take n) →
      Outcome17 C F.terms P k (extract n s)) : Outcome17 C F.terms P k o := by
  obtain ⟨s, h1, h2, ⟨rfl, h4⟩ | ⟨b, e, e1, e2, e3, rfl⟩⟩ := hr
  · exact outcome17_none h1 h2 hd h4
  · obtain ⟨buf', n, t1, t2, t3, t4⟩ := h.topk_docs std hu e1 e2 e3 hk (buf := s.pool.scores) (by
      rw [h1.scores]; omega)
    rw [t1, M.ok_bind]
    exact hext _ _ (wf_scores h1 t2) (holds_scores h2 _) (by dsimp only; omega) t4

theorem Index1.prefix_lossy (std : StdLib) {C : Coll} {F : Files} (h : Ready C F) {x : Index1} (hx : x.Rep17 F) {q : Str} (hq : IsText q) (k : Nat)
    {s : Scratch} (hs : s.WF) :
    PrefixRun C (PrefixKept C (completeTerms q) (lastTerm q)) x.docs x.extract std k (x.prefixTopk std q k s) := by
  have ha := analyse_lossy h hx.dict hq true hs.dbuf
  unfold Index1.prefixTopk
  generalize analyse x.dict q true s = a at ha
  cases ha with
  | unknown buf hb hm hu => exact ⟨_, wf_init hs hb, Pool.Holds.init _, Or.inl ⟨rfl, h.not_prefixKept hu⟩⟩
  | nothing buf hb hu => exact ⟨_, wf_init hs hb, Pool.Holds.init _, Or.inl ⟨rfl, h.not_prefixKept' hu⟩⟩
  | some buf hb r hr hk2 =>
      have hall := hk2 rfl
      have hn : 16 ≤ F.terms.length := by have := hx.dict.pos; omega
      have hall' : ∀ t ∈ completeTerms q, t ∈ F.terms := fun t ht => Files.kept_sub (hall t ht)
      refine ⟨_, wf_init hs hb, Pool.Holds.init _, ?_⟩
      rw [M.ok_bind, List.filter_eq_self.mpr (by simpa using hall)]
      dsimp only
      have hsz : F.terms.length < 2 ^ 30 := by have := h.termCount_le; have := h.coll.size; omega
      have hle := hr.le
      have hlt := hr.lt
      obtain ⟨r', l1, l2⟩ := hx.trie ((completeTerms q).map (rankOf F.terms)) (r.b + 1) (r.e + 1) (h.pfx_small hall') (by omega) (by omega)
        (by omega)
      rw [l1, M.ok_bind]
      rcases l2 with ⟨e1, e2⟩ | ⟨e1, e2, e3⟩
      · subst e1
        rw [if_pos (by decide)]
        refine Or.inl ⟨rfl, ?_⟩
        intro r' hr' hp
        refine e2 (r'.2.map (rankOf F.terms)) ?_ ((h.match_kept' hn hall hr (h.mem hr')).mpr hp)
        rw [h.snd_mapped]
        exact List.mem_map.mpr ⟨r', hr', rfl⟩
      · have hlen : (F.mapped.map (·.2)).length = C.length := by rw [List.length_map, h.length_mapped]
        have hcl : C.length < 2 ^ 30 := by have := h.count_le; have := h.coll.size; omega
        rw [hlen] at e2
        rw [if_neg (by simp [isInvalid_false (Nat.le_of_lt e1) (by omega)])]
        refine Or.inr ⟨r'.b, r'.e, e1, e2, ?_, rfl⟩
        intro i hi
        rw [e3 i (by rw [hlen]; exact hi), h.getElem_snd hi]
        exact h.match_kept' hn hall hr (h.mem (List.getElem_mem hi))


theorem Index1.prefix_outcome17 (std : StdLib) {C : Coll} {F : Files} (h : Ready C F) {x : Index1} (hx : x.Rep17 F) {q : Str} (hq : IsText q) {k : Nat}
    (hk : 1 ≤ k) (hk' : k ≤ MAX_K) {s : Scratch} (hs : s.WF) :
    Outcome17 C F.terms (PrefixKept C (completeTerms q) (lastTerm q)) k (x.prefixTopk std q k s) :=
  (Index1.prefix_lossy std h hx hq k hs).outcome17 h hx.docs hx.built hk hk' (fun _ _ h1 h2 h3 h4 => Index1.extract_outcome17 h hx h1 h2 h3 h4)

theorem Ready.firstReachedKept {C : Coll} {F : Files} (h : Ready C F) {last : Str} {b e : Nat} (hr : KeptRange C F last b e) (y : Str) :
    FirstReachedKept C last y ↔ y ∈ F.terms ∧ rankOf F.terms y = b + 1 := by
  have hb : b < F.terms.length := by have := hr.le; have := hr.lt; omega
  have hs := h.files.terms
  have hrb : rankOf F.terms F.terms[b] = b + 1 := rankOf_getElem hs hb
  have hreach : ReachesKept C last F.terms[b] := (hr.iff b hb).mp ⟨Nat.le_refl _, hr.le⟩
  constructor
  · rintro ⟨h1, h2, h3⟩
    have hy := (h.isTerm y).mp h1
    refine ⟨hy, ?_⟩
    have h4 := (hr.rank hy).mpr h2
    have h5 := h3 F.terms[b] ((h.isTerm _).mpr (List.getElem_mem hb)) hreach
    rw [← rankOf_lt hs (List.getElem_mem hb) hy, hrb] at h5
    omega
  · rintro ⟨h1, h2⟩
    have : y = F.terms[b] := rankOf_inj h1 (List.getElem_mem hb) (by rw [h2, hrb])
    subst this
    refine ⟨(h.isTerm _).mpr h1, hreach, ?_⟩
    intro z hz hzr hlt
    have hz' := (h.isTerm z).mp hz
    rw [← rankOf_lt hs hz' h1, h2] at hlt
    have := (hr.rank hz').mpr hzr
    omega

/-- what the dictionary of completions finds, in terms of the collection -/
theorem Ready.prefixKept2_iff {C : Coll} {F : Files} (h : Ready C F) (hn : 16 ≤ F.terms.length) {complete : List Str} (hall : ∀ t ∈ complete, t ∈ F.kept)
    {last : Str} {r : Range} (hr : KeptRange C F last r.b r.e) :
    ∀ i (hi : i < C.length), (MatchIds (complete.map (rankOf F.terms)) (r.b + 1) (r.e + 1) (C[i].2.map (rankOf F.terms)) ∧
      ¬ (i = 0 ∧ C[i].2.map (rankOf F.terms) ≠ complete.map (rankOf F.terms) ++ [r.b + 1])) ↔ PrefixKept2 C complete last C[i].2 := by
  have hall' : ∀ t ∈ complete, t ∈ F.terms := fun t ht => Files.kept_sub (hall t ht)
  have hle := hr.le
  have hlt := hr.lt
  intro i hi
  unfold PrefixKept2
  rw [h.match_kept' hn hall hr (h.mem (List.getElem_mem hi)), h.isFirstCompletion hi]
  apply and_congr_right
  intro _
  have hb' : r.b < F.terms.length := by omega
  have hrb : rankOf F.terms F.terms[r.b] = r.b + 1 := rankOf_getElem h.files.terms hb'
  constructor
  · intro hn h0
    have he : C[i].2.map (rankOf F.terms) = complete.map (rankOf F.terms) ++ [r.b + 1] :=
      Classical.byContradiction (fun hc => hn ⟨h0, hc⟩)
    refine ⟨F.terms[r.b], (h.firstReachedKept hr _).mpr ⟨List.getElem_mem hb', hrb⟩, ?_⟩
    apply map_rankOf_inj (h.mem (List.getElem_mem hi)) ?_ ?_
    · intro t ht
      rcases List.mem_append.mp ht with ht | ht
      · exact hall' t ht
      · simp only [List.mem_singleton] at ht; subst ht; exact List.getElem_mem hb'
    · rw [he]; simp [hrb]
  · rintro hf ⟨h0, hne⟩
    obtain ⟨y, h1, h2⟩ := hf h0
    apply hne
    rw [h2]; simp [((h.firstReachedKept hr y).mp h1).2]

theorem Base.prefix_lossy (std : StdLib) {C : Coll} {F : Files} (h : Ready C F) {x : Base} (hx : x.Rep F.mapped)
    (R : Lossy x.dict F.terms) {q : Str} (hq : IsText q) (k : Nat) {s : Scratch} (hs : s.WF) :
    PrefixRun C (PrefixKept2 C (completeTerms q) (lastTerm q)) x.docs x.extract std k (x.prefixTopk std q k s) := by
  have ha := analyse_lossy h R hq true hs.dbuf
  unfold Base.prefixTopk
  generalize analyse x.dict q true s = a at ha
  cases ha with
  | unknown buf hb hm hu =>
      exact ⟨_, wf_init hs hb, Pool.Holds.init _, Or.inl ⟨rfl, fun r hr hp => h.not_prefixKept hu r hr hp.1⟩⟩
  | nothing buf hb hu =>
      exact ⟨_, wf_init hs hb, Pool.Holds.init _, Or.inl ⟨rfl, fun r hr hp => h.not_prefixKept' hu r hr hp.1⟩⟩
  | some buf hb r hr hk2 =>
      have hall := hk2 rfl
      have hn : 16 ≤ F.terms.length := by have := R.pos; omega
      have hall' : ∀ t ∈ completeTerms q, t ∈ F.terms := fun t ht => Files.kept_sub (hall t ht)
      rw [M.ok_bind, List.filter_eq_self.mpr (by simpa using hall)]
      dsimp only
      have hsz : F.terms.length < 2 ^ 30 := by have := h.termCount_le; have := h.coll.size; omega
      have hle := hr.le
      have hlt := hr.lt
      have hlen : (F.mapped.map (·.2)).length = C.length := by rw [List.length_map, h.length_mapped]
      obtain ⟨r', pfx', cbuf, l1, l0, l2⟩ := IntDict.locatePrefix_exact h.validIds hx.completions
        (pfx := (completeTerms q).map (rankOf F.terms)) (show r.b + 1 ≤ r.e + 1 by omega) (by omega) s.cbuf (by rw [hs.cbuf]; decide)
      rw [l1, M.ok_bind]
      dsimp only
      have hw : Scratch.WF { s with pool := s.pool.init, dbuf := buf, cbuf := cbuf } :=
        ⟨hs.scores, hs.data, hb.trans hs.dbuf, l0.trans hs.cbuf, hs.shape⟩
      have hcond := h.prefixKept2_iff hn hall hr
      refine ⟨_, hw, Pool.Holds.init _, ?_⟩
      rcases l2 with ⟨e1, e2, e3⟩ | ⟨e1, e2, e3, e4⟩
      · subst e1
        rw [if_pos (by decide)]
        refine Or.inl ⟨rfl, ?_⟩
        intro r' hr' hp
        obtain ⟨i, hi, rfl⟩ := List.getElem_of_mem hr'
        obtain ⟨c1, c2⟩ := (hcond i hi).mpr hp
        have := e3 i (by rw [hlen]; exact hi)
        rw [h.getElem_snd hi] at this
        exact c2 (this c1)
      · have hcl : C.length < 2 ^ 30 := by have := h.count_le; have := h.coll.size; omega
        rw [hlen] at e2
        rw [if_neg (by simp [isInvalid_false (Nat.le_of_lt e1) (by omega)])]
        refine Or.inr ⟨r'.b, r'.e, e1, e2, ?_, rfl⟩
        intro i hi
        rw [e4 i (by rw [hlen]; exact hi), h.getElem_snd hi]
        exact hcond i hi


theorem Base.prefix_outcome17 (std : StdLib) {C : Coll} {F : Files} (h : Ready C F) {x : Base} (hx : x.Rep F.mapped)
    (R : Lossy x.dict F.terms) (hdict : FcDict.build F.terms = .ok x.dict) {q : Str} (hq : IsText q) {k : Nat} (hk : 1 ≤ k)
    (hk' : k ≤ MAX_K) {s : Scratch} (hs : s.WF) :
    Outcome17 C F.terms (PrefixKept2 C (completeTerms q) (lastTerm q)) k (x.prefixTopk std q k s) :=
  (Base.prefix_lossy std h hx R hq k hs).outcome17 h hx.docs hdict hk hk' (fun _ _ h1 h2 h3 h4 => Base.extract_outcome17 h hx R hdict h1 h2 h3 h4)

end AC
