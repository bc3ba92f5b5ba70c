import Verif.Model.DebugSearch
import Verif.Proofs.DebugDict
import Verif.Proofs.Suits
import Verif.Props.DebugDict
/-!
# The parts of the index types 1, 2 and 3 with assertions do what they do without
-/
namespace AC
open Spec

theorem Stays.ok_bind {α β : Type} {m' : M α} {f' : α → M β} {a : α} {m : M β} (h : m' = .ok a) (hf : Stays (f' a) m) : Stays (m' >>= f') m := by
  rw [h]; exact hf

theorem check_ok {c : Prop} [Decidable c] (h : c) : AC.check c = .ok () := if_pos h

/-! ## The pool -/

theorem Pool.initD_ok (p : Pool) : p.initD = .ok p.init := rfl

theorem Pool.getD_stays (p : Pool) (i : Nat) : Stays (p.getD i) (p.get i) := by
  have key : ∀ a, p.get i = .ok a → i < p.offsets.length - 1 := by
    intro a h
    unfold Pool.get at h
    cases e1 : rd p.offsets i with
    | error x => rw [e1] at h; cases h
    | ok b =>
        rw [e1, M.ok_bind] at h
        cases e2 : rd p.offsets (i + 1) with
        | error x => rw [e2] at h; cases h
        | ok c => have := rd_lt e2; omega
  intro a h
  have hi := key a h
  unfold Pool.getD Pool.sizeD
  rw [check_ok (by omega : 0 < p.offsets.length), M.ok_bind, M.ok_bind, check_ok (show i < p.size from hi), M.ok_bind]
  exact h

theorem Pool.collectD_stays (p : Pool) : ∀ n i, Stays (p.collectD n i) (p.collect n i)
  | 0, _ => .refl _
  | n + 1, i => .bind (p.getD_stays i) fun _ _ => .bind (Pool.collectD_stays p n (i + 1)) fun _ _ => .refl _

theorem Pool.resultsD_stays (p : Pool) (h : p.offsets ≠ []) : Stays p.resultsD p.results := by
  unfold Pool.resultsD Pool.sizeD
  rw [check_ok (List.length_pos_iff.mpr h), M.ok_bind, M.ok_bind]
  exact p.collectD_stays _ _

/-- the id is one of a term that can be extracted -/
def Extractable (d : FC) (t : Nat) : Prop := 0 < t ∧ (t - 1) % 17 ≤ d.bucketSize ((t - 1) / 17)

theorem FcDict.extractD_stays {d : FC} {t : Nat} (h : Extractable d t) (out : Str) (base : Nat) :
    Stays (FcDict.extractD d t out base) (FcDict.extract d t out base) := by
  unfold FcDict.extractD FcDict.extract
  rw [check_ok h.1, M.ok_bind, if_neg (by have := h.1; omega)]
  exact FC.extractAtD_stays _ _ h.2 _ _

theorem writeTermsD_stays {d : FC} {term : Nat → M Nat} : ∀ (n j : Nat) (data : Str) (off : Nat),
    (∀ u, j ≤ u → u < j + n → ∀ t, term u = .ok t → Extractable d t) → Stays (writeTermsD d term n j data off) (writeTerms d term n j data off)
  | 0, _, _, _, _ => .refl _
  | n + 1, j, data, off, h => by
      unfold writeTermsD writeTerms
      refine .bind (.refl _) fun t ht => .bind (FcDict.extractD_stays (h j (Nat.le_refl _) (by omega) t ht) _ _) fun _ _ => .bind (.refl _) fun _ _ => ?_
      exact writeTermsD_stays n (j + 1) _ _ (fun u h1 h2 => h u (by omega) (by omega))

/-- how the terms of the results are read, with and without assertions -/
def Sources (d : FC) (src' src : Nat → M (Nat × (Nat → M Nat))) (n : Nat) : Prop :=
  ∀ i, i < n → Stays (src' i) (src i) ∧ ∀ size term, src i = .ok (size, term) → ∀ u, u < size → ∀ t, term u = .ok t → Extractable d t

theorem stringsLoopD_stays {d : FC} {src' src : Nat → M (Nat × (Nat → M Nat))} {m : Nat} (h : Sources d src' src m) :
    ∀ (n i : Nat) (p : Pool), i + n ≤ m → Stays (stringsLoopD d src' n i p) (extractStrings d src n i p) ∧
      ∀ p', extractStrings d src n i p = .ok p' → p'.offsets.length = p.offsets.length + n
  | 0, _, _, _ => ⟨.refl _, fun p' hp => by cases hp; rfl⟩
  | n + 1, i, p, hi => by
      obtain ⟨h1, h2⟩ := h i (by omega)
      unfold stringsLoopD extractStrings
      constructor
      · refine .bind h1 fun st hst => ?_
        obtain ⟨size, term⟩ := st
        refine .bind (.refl _) fun off _ => .bind (writeTermsD_stays _ _ _ _ (fun u _ hu => h2 size term hst u (by omega))) fun _ _ => ?_
        exact (stringsLoopD_stays h n (i + 1) _ (by omega)).1
      · intro p' hp
        obtain ⟨⟨size, term⟩, e1, hp⟩ := bind_ok hp
        obtain ⟨off, e2, hp⟩ := bind_ok hp
        obtain ⟨⟨data, off'⟩, e3, hp⟩ := bind_ok hp
        have := (stringsLoopD_stays h n (i + 1) _ (by omega)).2 p' hp
        rw [this]
        simp only [List.length_append, List.length_singleton]
        omega

theorem extractStringsD_stays {d : FC} {src' src : Nat → M (Nat × (Nat → M Nat))} {n : Nat} (h : Sources d src' src n) {p : Pool} (hp : p.offsets.length = 1) :
    Stays (extractStringsD d src' n p) (extractStrings d src n 0 p) := by
  intro p' hp'
  obtain ⟨h1, h2⟩ := stringsLoopD_stays h n 0 p (by omega)
  have hl := h2 p' hp'
  unfold extractStringsD Pool.sizeD
  rw [h1 p' hp', M.ok_bind, check_ok (by omega : 0 < p'.offsets.length), M.ok_bind, M.ok_bind, check_ok (show p'.size = n by unfold Pool.size; omega), M.ok_bind]

/-! ## Queries -/

theorem parseLoopD_stays (d : FC) (must : Bool) : ∀ (fuel : Nat) (r : Str) (pfx : Ids) (buf : Str),
    Stays (parseLoopD d must fuel r pfx buf) (parseLoop d must fuel r pfx buf)
  | 0, _, _, _ => .error
  | fuel + 1, r, pfx, buf => by
      unfold parseLoopD parseLoop
      generalize nextToken r = nt
      obtain ⟨suffix, r'⟩ := nt
      cases r' with
      | nil => exact .refl _
      | cons a r' =>
        refine .bind (FcDict.locateD_stays _ _ _) fun _ _ => .ite (fun _ => parseLoopD_stays d must fuel _ _ _) fun _ => ?_
        exact .ite (fun _ => .refl _) fun _ => parseLoopD_stays d must fuel _ _ _

theorem analyseD_stays (d : FC) (q : Str) {k : Nat} (hk : k ≤ MAX_K) (must : Bool) (s : Scratch) :
    Stays (analyseD d q k must s) (analyse d q must s) := by
  unfold analyseD analyse
  rw [check_ok hk, M.ok_bind, Pool.initD_ok, M.ok_bind]
  refine .bind (parseLoopD_stays _ _ _ _ _ _) fun _ _ => .ite (fun _ => ?_) fun _ => .refl _
  exact .bind (FcDict.locatePrefixD_stays _ _ _) fun _ _ => .refl _

/-! ## Inverted index -/

theorem InvIdx.iteratorD_ok {ii : InvIdx} {t : Nat} (h : t < ii.numTerms) : ii.iteratorD t = ii.iterator t := by
  unfold InvIdx.iteratorD
  rw [check_ok h]; rfl

theorem InvIdx.iteratorOfD_ok {ii : InvIdx} {t : Nat} (h0 : 0 < t) (h : t ≤ ii.numTerms) : ii.iteratorOfD t = ii.iteratorOf t := by
  unfold InvIdx.iteratorOfD InvIdx.iteratorOf
  rw [if_neg (by omega), if_neg (by omega), InvIdx.iteratorD_ok (by omega)]

namespace Inter

theorem iteratorsD_ok {ii : InvIdx} : ∀ {ids : List Nat}, (∀ t ∈ ids, 0 < t ∧ t ≤ ii.numTerms) → iteratorsD ii ids = iterators ii ids
  | [], _ => rfl
  | id :: ids, h => by
      obtain ⟨h1, h2⟩ := h id (by simp)
      unfold iteratorsD iterators
      rw [check_ok h1, M.ok_bind, InvIdx.iteratorOfD_ok h1 h2, iteratorsD_ok (fun t ht => h t (by simp [ht]))]

theorem mkD_ok (std : StdLib) {ii : InvIdx} {ids : List Nat} (hl : 1 < ids.length) (h : ∀ t ∈ ids, 0 < t ∧ t ≤ ii.numTerms) :
    mkD std ii ids = mk' std ii ids := by
  unfold mkD mk'
  rw [check_ok hl, M.ok_bind, iteratorsD_ok h]

/-- all iterators have been found at the candidate, or the enumeration is over -/
def Rests (ii : InvIdx) (s : Inter) : Prop := s.i = s.its.length ∨ ii.numDocs ≤ s.candidate

theorem nextLoop_rests {ii : InvIdx} : ∀ (fuel val : Nat) (s s' : Inter), (val = s.candidate ∨ val < ii.numDocs) →
    nextLoop ii fuel val s = .ok s' → Rests ii s'
  | 0, _, _, _, _, h => by cases h
  | fuel + 1, val, s, s', hv, h => by
      unfold nextLoop at h
      split at h
      · obtain ⟨it, e1, h⟩ := bind_ok h
        obtain ⟨it', e2, h⟩ := bind_ok h
        obtain ⟨its, e3, h⟩ := bind_ok h
        dsimp only at h
        split at h
        · exact nextLoop_rests fuel (id32 it'.value) ⟨id32 it'.value, 0, its⟩ _ (Or.inl rfl) h
        · rename_i hc
          exact nextLoop_rests fuel (id32 it'.value) ⟨s.candidate, s.i + 1, its⟩ _ (Or.inl (Classical.not_not.mp hc)) h
      · rename_i hc
        cases h
        unfold Rests
        by_cases hi : s.i = s.its.length
        · exact Or.inl hi
        · right
          have : ¬ val < ii.numDocs := fun hlt => hc ⟨hlt, hi⟩
          omega

theorem next_rests {ii : InvIdx} (h0 : 0 < ii.numDocs) {s s' : Inter} (h : next ii s = .ok s') : Rests ii s' :=
  nextLoop_rests _ _ _ _ (Or.inr h0) h

theorem mk'_rests {std : StdLib} {ii : InvIdx} (h0 : 0 < ii.numDocs) {ids : List Nat} {s : Inter} (h : mk' std ii ids = .ok s) : Rests ii s := by
  unfold mk' at h
  obtain ⟨its, e1, h⟩ := bind_ok h
  obtain ⟨it, e2, h⟩ := bind_ok h
  obtain ⟨it', e3, h⟩ := bind_ok h
  obtain ⟨its', e4, h⟩ := bind_ok h
  exact next_rests h0 h

theorem inc_rests {ii : InvIdx} (h0 : 0 < ii.numDocs) {s s' : Inter} (h : inc ii s = .ok s') : Rests ii s' := by
  unfold inc at h
  obtain ⟨it, e2, h⟩ := bind_ok h
  obtain ⟨it', e3, h⟩ := bind_ok h
  obtain ⟨its', e4, h⟩ := bind_ok h
  exact next_rests h0 h

end Inter

/-- from the state `it` both iterators give the documents `R`, through the same states, and then stop -/
def DocIter.Both {σ : Type} (I' I : DocIter σ) : σ → List Nat → Prop
  | it, [] => I.hasNext it = false ∧ I'.hasNext it = false
  | it, d :: R => I.hasNext it = true ∧ I'.hasNext it = true ∧ I.value it = d ∧ I'.value it = d ∧
      ∃ it', I.next it = .ok it' ∧ I'.next it = .ok it' ∧ DocIter.Both I' I it' R

theorem DocIter.Enum.both {σ : Type} {I : DocIter σ} : ∀ {R : List Nat} {it : σ}, I.Enum it R → DocIter.Both I I it R
  | [], _, h => ⟨h, h⟩
  | _ :: _, _, ⟨h1, h2, it', h3, h4⟩ => ⟨h1, h1, h2, h2, it', h3, h3, DocIter.Enum.both h4⟩

theorem DocIter.inter_both {ii : InvIdx} (h0 : 0 < ii.numDocs) : ∀ {R : List Nat} {s : Inter}, (DocIter.inter ii).Enum s R → Inter.Rests ii s →
    DocIter.Both (DocIter.interD ii) (DocIter.inter ii) s R
  | [], _, h, _ => ⟨h, h⟩
  | _ :: _, s, ⟨h1, h2, s', h3, h4⟩, hr => by
      have hc : s.candidate < ii.numDocs := of_decide_eq_true h1
      have hi : s.i = s.its.length := hr.resolve_right (by omega)
      refine ⟨h1, h1, h2, h2, s', h3, ?_, DocIter.inter_both h0 h4 (Inter.inc_rests h0 h3)⟩
      show Inter.incD ii s = _
      unfold Inter.incD
      rw [check_ok hi]
      exact h3

theorem withDocsD_stays {β : Type} {std : StdLib} {ii : InvIdx} {u : Nat} {lists : List (List Nat)} (h : ii.Rep u lists)
    {pfx : Ids} (hne : pfx ≠ []) (hin : ∀ t ∈ pfx, 0 < t ∧ t ≤ lists.length) {R : List Nat} (hR : R.Pairwise (· < ·))
    (hmem : ∀ d, d ∈ R ↔ ∀ t ∈ pfx, d ∈ lists.getD (t - 1) []) (run' run : {σ : Type} → DocIter σ → σ → M β)
    (hrun : ∀ {σ : Type} (I' I : DocIter σ) (it : σ), DocIter.Both I' I it R → Stays (run' I' it) (run I it)) :
    Stays (withDocsD std ii pfx run') (withDocs std ii pfx run) := by
  obtain ⟨d1, d2⟩ := deduplicate_spec std pfx
  have hdne : deduplicate std pfx ≠ [] := by
    intro he
    cases pfx with
    | nil => exact hne rfl
    | cons t ts => have := (d2 t).mpr (by simp); rw [he] at this; simp at this
  have hdin : ∀ t ∈ deduplicate std pfx, 0 < t ∧ t ≤ lists.length := fun t ht => hin t ((d2 t).mp ht)
  have hdmem : ∀ d, d ∈ R ↔ ∀ t ∈ deduplicate std pfx, d ∈ lists.getD (t - 1) [] := by
    intro d; rw [hmem]
    exact ⟨fun H t ht => H t ((d2 t).mp ht), fun H t ht => H t ((d2 t).mpr ht)⟩
  unfold withDocsD withDocs
  generalize deduplicate std pfx = c at *
  have hpos := List.length_pos_iff.mpr hdne
  have h0 : 0 < ii.numDocs := by
    rw [h.docs]
    obtain ⟨t, ht⟩ := List.exists_mem_of_ne_nil _ hdne
    obtain ⟨v1, v2⟩ := hdin t ht
    obtain ⟨g1, g2, g3⟩ := h.valid.each lists[t - 1] (List.getElem_mem (by omega))
    obtain ⟨x, hx⟩ := List.exists_mem_of_ne_nil _ g1
    have := g3 x hx; omega
  have hdin' : ∀ t ∈ c, 0 < t ∧ t ≤ ii.numTerms := fun t ht => by rw [h.terms]; exact hdin t ht
  dsimp only
  split
  · rename_i hc
    obtain ⟨t, rfl, hrd⟩ := rd_zero_of_length_one hc
    have ht := hdin t (by simp)
    have ht' := hdin' t (by simp)
    have htl : t - 1 < lists.length := by omega
    obtain ⟨it, e1, e2⟩ := InvIdx.iterator_spec h (t - 1) htl
    have hRt : R = lists[t - 1] := by
      apply strict_ext hR e2.sorted
      intro d; rw [hdmem]
      simp [List.getElem?_eq_getElem htl]
    rw [hrd, M.ok_bind, M.ok_bind, InvIdx.iteratorOfD_ok ht'.1 ht'.2, InvIdx.iteratorOf_pos ht.1, e1, M.ok_bind, M.ok_bind]
    apply hrun
    rw [hRt]
    exact (DocIter.list_enum h.valid.univ _ it 0 e2 rfl).both
  · rename_i hc
    obtain ⟨s, ls, e1, e2⟩ := Inter.mk'_spec std h c hdne hdin R hR hdmem
    rw [Inter.mkD_ok std (by omega) hdin', e1, M.ok_bind, M.ok_bind]
    exact hrun _ _ _ (DocIter.inter_both h0 (DocIter.inter_enum R s e2) (Inter.mk'_rests h0 e1))

/-! ## Unions of lists -/

theorem Union.loopD_stays {α : Type} (std : StdLib) {key : α → Nat} {adv' adv : List α → M (List α)} {rest : α → List Nat} {Good : List α → Prop}
    (hstep : Union.Step key adv rest Good) (hadv : ∀ m q, Good (m :: q) → Stays (adv' (m :: q)) (adv (m :: q))) (k : Nat) :
    ∀ (fuel : Nat) (q : List α) (buf : List Nat) (i : Nat), Good q → Stays (Union.loop std key adv' k fuel q buf i) (Union.loop std key adv k fuel q buf i)
  | 0, _, _, _, _ => .error
  | fuel + 1, [], _, _, _ => .refl _
  | fuel + 1, m :: q, buf, i, hg => by
      obtain ⟨q', a1, a2, _⟩ := hstep m q hg
      have hnext : ∀ buf i, Stays (adv' (m :: q) >>= fun q => Union.loop std key adv' k fuel q buf i)
          (adv (m :: q) >>= fun q => Union.loop std key adv k fuel q buf i) := by
        intro buf i
        refine .bind (hadv m q hg) fun q'' hq => ?_
        rw [a1] at hq
        cases hq
        exact Union.loopD_stays std hstep hadv k fuel q' buf i a2
      unfold Union.loop
      refine .bind (.refl _) fun z _ => .ite (fun _ => hnext _ _) fun _ => .bind (.refl _) fun buf _ => .ite (fun _ => .refl _) fun _ => hnext _ _

namespace HeapTopK

theorem fillD_ok {ii : InvIdx} : ∀ (n t : Nat), 0 < t → t + n ≤ ii.numTerms + 1 → fillD ii n t = fill ii n t
  | 0, _, _, _ => rfl
  | n + 1, t, h0, h => by
      unfold fillD fill
      rw [InvIdx.iteratorOfD_ok h0 (by omega), fillD_ok n (t + 1) (by omega) (by omega)]

theorem startD_ok {ii : InvIdx} {b e : Nat} (h0 : 0 < b) (hbe : b ≤ e) (he : e ≤ ii.numTerms) (hs : ii.numTerms < 2 ^ 32) :
    startD ii b e = fill ii (e + 1 - b) b := by
  unfold startD
  rw [check_ok (isInvalid_false (r := ⟨b, e⟩) hbe (by dsimp only; omega)), M.ok_bind, check_ok h0, M.ok_bind]
  exact fillD_ok _ _ h0 (by omega)

theorem topkD_ok (std : StdLib) {ii : InvIdx} {b e : Nat} (h0 : 0 < b) (hbe : b ≤ e) (he : e ≤ ii.numTerms) (hs : ii.numTerms < 2 ^ 32) (k : Nat)
    (buf : List Nat) : topkD std ii b e k buf = topk std ii b e k buf := by
  unfold topkD topk
  rw [startD_ok h0 hbe he hs]

end HeapTopK

namespace MinDocs

theorem advanceD_stays (std : StdLib) {ii : InvIdx} {u : Nat} {lists : List (List Nat)} (h : ii.Rep u lists) (hs : lists.length < 2 ^ 32)
    (ul : UL) (m : RI) (q : List RI) (hg : Good ii u lists (m :: q)) : Stays (advanceD std ii ul (m :: q)) (advance std ii ul (m :: q)) := by
  have hm := hg.ok m (List.mem_cons_self ..)
  obtain ⟨sr, mit⟩ := m
  unfold advanceD advance
  rw [show Heap.top ((⟨sr, mit⟩ : RI) :: q) = .ok ⟨sr, mit⟩ from rfl, M.ok_bind, M.ok_bind]
  cases mit with
  | some it => exact .refl _
  | none =>
      have hm : sr.WF (lists.map (fun l => l.headD 0)) := hm
      have hpos : sr.pos < lists.length := by
        have h1 := hm.hi
        have h2 := hm.min.2.1
        simp only [List.length_map] at h1
        omega
      dsimp only
      have hne : sr.pos ≠ INVALID_TERM := by unfold INVALID_TERM; omega
      rw [check_ok hne, M.ok_bind, InvIdx.iteratorD_ok (by rw [h.terms]; exact hpos)]
      exact .refl _

theorem topkD_stays (std : StdLib) {ii : InvIdx} {u : Nat} {lists : List (List Nat)} (h : ii.Rep u lists) (hs : lists.length < 2 ^ 32)
    {ul : UL} (hul : ul.Rep (lists.map (fun l => l.headD 0))) {a b : Nat} (hab : a < b) (hb : b ≤ lists.length) (k : Nat) (buf : List Nat) :
    Stays (topkD std ii ul a b k buf) (topk std ii ul a b k buf) := by
  obtain ⟨pos, val, p1, p2, p3, p4⟩ := start_spec std (ii := ii) (u := u) hul hab hb
  unfold topkD topk
  rw [p1, M.ok_bind, M.ok_bind, p2, M.ok_bind, M.ok_bind]
  exact Union.loopD_stays std (step std h hul) (advanceD_stays std h hs ul) k _ _ _ _ p3

end MinDocs

/-! ## Trie and forward index -/

theorem Trie.locatePrefixD_stays {T : List Trie.CLevel} {levels : Nat} {L : List Ids} (h : Trie.Rep T levels L) (hL : Trie.Compl L)
    (hsh : Trie.Shape levels L) (hn : L.length < 2 ^ 32)
    {pfx : Ids} (hp : ∀ x ∈ pfx, 0 < x ∧ x < 2 ^ 32) {b e : Nat} (hbe : b ≤ e) (he : e < 2 ^ 32) :
    Stays (Trie.locatePrefixD T pfx ⟨b, e⟩) (Trie.locatePrefix T pfx ⟨b, e⟩) := by
  obtain ⟨r, l1, l2⟩ := Trie.locate_all h hL hsh hp hbe he
  obtain ⟨t0, r1, r2⟩ := h.root
  unfold Trie.locatePrefix at l1
  unfold Trie.locatePrefixD Trie.locatePrefix
  rw [rd_of_getElem? r1, M.ok_bind] at l1 ⊢
  rw [M.ok_bind]
  rcases Trie.descend_spec h pfx [] t0 ⟨0, t0.nodes.size⟩ (by simp) hp r1 r2 with ⟨d1, d2⟩ | ⟨t, r', d1, d2, d3⟩
  · rw [List.length_nil] at d1
    rw [d1]
    exact .refl _
  · simp only [List.length_nil, Nat.zero_add, List.nil_append] at d1 d2 d3
    rw [d1] at l1 ⊢
    simp only [M.ok_bind] at l1 ⊢
    rw [d2] at l1 ⊢
    simp only at l1 ⊢
    obtain ⟨q, q1, q2, q3, q4⟩ := d3.range ⟨b, e⟩ hbe he
    rw [q1] at l1 ⊢
    simp only [M.ok_bind] at l1 ⊢
    rw [check_ok q2, M.ok_bind]
    by_cases hq : q.b = q.e
    · rw [if_pos hq, if_pos hq]; exact .refl _
    · rw [if_neg hq] at l1 ⊢
      rw [if_neg hq, check_ok (show q.b < q.e by omega), M.ok_bind, l1, M.ok_bind]
      have hr : r.isInvalid = false := by
        rcases l2 with ⟨_, hno⟩ | ⟨x1, x2, _⟩
        · exfalso
          obtain ⟨x, x1, x2, x3⟩ := (q4 q.b (by omega)).mp ⟨Nat.le_refl _, by omega⟩
          obtain ⟨c, c1, c2, c3⟩ := Trie.mem_keys (List.getElem_mem (show q.b < (Trie.keys pfx.length L).length by omega))
          exact hno c c1 (Trie.match_iff.mpr ⟨x, x1, x2, c2, by rw [← c3, x3]⟩)
        · exact isInvalid_false (Nat.le_of_lt x1) (by omega)
      rw [check_ok hr]
      exact .refl _

theorem FwdIdx.iteratorD_ok {fi : FwdIdx} {d : Nat} (h : d < fi.numDocs) : fi.iteratorD d = fi.iterator d := by
  unfold FwdIdx.iteratorD
  rw [check_ok h]; rfl

theorem FwdIt.intersectsLoopD_ok {fi : FwdIdx} {it : FwdIt} (r : Range) {l : List Nat} (hl : ∀ x ∈ l, 0 < x)
    (h : ∀ j (hj : j < l.length), ∃ x, fi.data.get (it.base + j) = .ok x ∧ x.toNat = l[j]) : ∀ (k i : Nat), i + k ≤ l.length →
    it.intersectsLoopD fi r k i = it.intersectsLoop fi r k i
  | 0, _, _ => rfl
  | k + 1, i, hi => by
      obtain ⟨x, x1, x2⟩ := h i (by omega)
      unfold FwdIt.intersectsLoopD FwdIt.intersectsLoop
      rw [x1, M.ok_bind, M.ok_bind, check_ok (by rw [x2]; exact hl _ (List.getElem_mem _)), M.ok_bind,
        FwdIt.intersectsLoopD_ok r hl h k (i + 1) (by omega)]

theorem FwdIdx.intersectsD_ok {fi : FwdIdx} {nt : Nat} {lists : List (List Nat)} (h : fi.Rep nt lists) {d : Nat} (hd : d < lists.length)
    (hl : ∀ x ∈ lists[d], 0 < x) (r : Range) : fi.intersectsD d r = fi.intersects d r := by
  obtain ⟨p, p1, p2⟩ := h.at' d hd
  unfold FwdIdx.intersectsD FwdIdx.intersects
  rw [FwdIdx.iteratorD_ok (by rw [h.docs]; exact hd), p1, M.ok_bind, M.ok_bind]
  exact FwdIt.intersectsLoopD_ok r hl p2 _ _ (by simp)

theorem FwdIdx.checkLists_ok : ∀ {lists : List (List Nat)}, (∀ l ∈ lists, l.length < MAX_TERMS ∧ ∀ x ∈ l, 0 < x) → FwdIdx.checkLists lists = .ok ()
  | [], _ => rfl
  | l :: ls, h => by
      obtain ⟨h1, h2⟩ := h l (by simp)
      unfold FwdIdx.checkLists
      rw [check_ok h1, M.ok_bind, check_ok h2, M.ok_bind]
      exact FwdIdx.checkLists_ok (fun l hl => h l (by simp [hl]))

end AC
