import Verif.Proofs.DebugDict
import Verif.Model.DebugSearch
/-!
# Assertions only add failures

Whenever a function with assertions succeeds, the function without succeeds with the same result: for all inputs and all states, whatever the contents of
the index.
-/
namespace AC

theorem Stays.unchecked {α : Type} {c : Prop} [Decidable c] {m' : Unit → M α} {m : M α} (h : Stays m (m' ())) : Stays m (AC.check c >>= m') := by
  intro a ha
  unfold AC.check at ha
  split at ha
  · exact h a ha
  · cases ha

/-- a sequence of assertions -/
theorem Stays.skip {α : Type} {u : M Unit} {m' : Unit → M α} {m : M α} (h : Stays m (m' ())) : Stays m (u >>= m') := by
  intro a ha
  obtain ⟨v, -, ha⟩ := bind_ok ha
  exact h a ha

/-- a compare with an assertion against the plain compare -/
theorem Stays.ok_of {α β : Type} {m' : M α} {v : α} {g : α → M β} {r : M β} (hm : Stays (.ok v) m') (h : Stays r (g v)) : Stays r (m' >>= g) := by
  intro b hb
  obtain ⟨a, ha, hb⟩ := bind_ok hb
  have := hm a ha
  injection this with this
  subst this
  exact h b hb

theorem byteCompareND_same (l r : Str) (n : Nat) : Stays (.ok (byteCompareN l r n)) (byteCompareND l r n) := .unchecked (.refl _)

theorem idsCompareND_same (l r : Ids) (n : Nat) : Stays (.ok (idsCompareN l r n)) (idsCompareND l r n) := .unchecked (.refl _)

theorem accessD_same (v : List Nat) (i : Nat) : Stays (rd v i) (accessD v i) := .unchecked (.refl _)

namespace FC

theorem headerD_same (d : FC) (i : Nat) : Stays (d.header i) (d.headerD i) :=
  .unchecked (.bind (accessD_same _ _) fun _ _ => .bind (accessD_same _ _) fun _ _ => .refl _)

theorem locateBucketLoopD_same (cmpFn : List Nat → List Nat → Int) (d : FC) (t : List Nat) : ∀ fuel s,
    Stays (locateBucketLoop cmpFn d t fuel s) (locateBucketLoopD cmpFn d t fuel s)
  | 0, _ => .error
  | fuel + 1, _ => .ite
      (fun _ => .bind (headerD_same _ _) fun _ _ => .ite (fun _ => locateBucketLoopD_same cmpFn d t fuel _)
        fun _ => .ite (fun _ => locateBucketLoopD_same cmpFn d t fuel _) fun _ => .refl _)
      fun _ => .refl _

theorem locateBucketD_same (cmpFn : List Nat → List Nat → Int) (d : FC) (t : List Nat) :
    Stays (locateBucket cmpFn d t) (locateBucketD cmpFn d t) :=
  .bind (locateBucketLoopD_same _ _ _ _ _) fun _ _ => .ite (fun _ => .refl _) fun _ => .ite (fun _ => .refl _)
    fun _ => .bind (headerD_same _ _) fun _ _ => .refl _

theorem scanLoopD_same {ρ : Type} (E : Elem) (d : FC) {stop' : Nat → List Nat → M (Option ρ)} {stop : Nat → List Nat → Option ρ}
    (hs : ∀ i s, Stays (.ok (stop i s)) (stop' i s)) : ∀ n i cur buf, Stays (scanLoop E d stop n i cur buf) (scanLoopD E d stop' n i cur buf)
  | 0, _, _, _ => .refl _
  | n + 1, i, cur, buf => by
      refine .bind (.refl _) fun a _ => ?_
      obtain ⟨buf', len, l⟩ := a
      dsimp only
      intro r hr
      cases e : stop' i (buf'.take len) with
      | error x => rw [e] at hr; cases hr
      | ok o =>
          rw [e, M.ok_bind] at hr
          have ho := hs i (buf'.take len) o e
          injection ho with ho
          rw [ho]
          cases o with
          | some r => exact hr
          | none => exact scanLoopD_same E d hs n _ _ _ r hr

theorem scanD_same {ρ : Type} (E : Elem) (d : FC) {stop' : Nat → List Nat → M (Option ρ)} {stop : Nat → List Nat → Option ρ}
    (hs : ∀ i s, Stays (.ok (stop i s)) (stop' i s)) (h : List Nat) (b : Nat) (buf : List Nat) : Stays (scan E d stop h b buf) (scanD E d stop' h b buf) :=
  .bind (.refl _) fun _ _ => .bind (accessD_same _ _) fun _ _ => scanLoopD_same E d hs _ _ _ _

theorem extractAtD_same (E : Elem) (d : FC) (id b : Nat) (out : List Nat) (base : Nat) :
    Stays (extractAt E d id b out base) (extractAtD E d id b out base) :=
  .unchecked (.bind (headerD_same _ _) fun _ _ => .bind (.refl _) fun _ _ => .bind (accessD_same _ _) fun _ _ => .refl _)

theorem buildBucketD_same (E : Elem) (extra : Nat) (lcpOf : List Nat → List Nat → Nat) : ∀ (n : Nat) (prev : List Nat)
    (input : List (List Nat)) (bk : List Nat), Stays (buildBucket E lcpOf n prev input bk) (buildBucketD E extra lcpOf n prev input bk)
  | 0, _, _, _ => .refl _
  | _ + 1, _, [], _ => .error
  | n + 1, _, curr :: input, _ => .unchecked (.unchecked (buildBucketD_same E extra lcpOf n curr input _))

theorem buildLoopD_same (E : Elem) (extra : Nat) (lcpOf : List Nat → List Nat → Nat) (tl : Nat) : ∀ (nb : Nat)
    (input : List (List Nat)) (d : FC), Stays (buildLoop E lcpOf tl nb input d) (buildLoopD E extra lcpOf tl nb input d)
  | 0, _, _ => .refl _
  | _ + 1, [], _ => .error
  | nb + 1, _ :: _, _ => .unchecked (.bind (buildBucketD_same E extra lcpOf _ _ _ _) fun _ _ => buildLoopD_same E extra lcpOf tl nb _ _)

theorem buildD_same (E : Elem) (extra : Nat) (lcpOf : List Nat → List Nat → Nat) (L : List (List Nat)) :
    Stays (build E lcpOf L) (buildD E extra lcpOf L) :=
  .bind (buildLoopD_same E extra lcpOf _ _ _ _) fun _ _ => .refl _

end FC

namespace FcDict
open FC

theorem buildD_same (L : List Str) : Stays (build L) (buildD L) := FC.buildD_same _ _ _ _

theorem locateInD_same (d : FC) (t h : Str) (b : Nat) (buf : Str) : Stays (locateIn d t h b buf) (locateInD d t h b buf) :=
  .bind (scanD_same _ _ (fun _ _ => .refl _) _ _ _) fun _ _ => .refl _

theorem leftLocateD_same (d : FC) (p : Str) (h : Str) (b : Nat) (buf : Str) : Stays (leftLocate d p h b buf) (leftLocateD d p h b buf) :=
  .bind (scanD_same _ _ (fun _ _ => .ok_of (byteCompareND_same _ _ _) (.refl _)) _ _ _) fun _ _ => .refl _

theorem rightLocateD_same (d : FC) (p : Str) (h : Str) (b : Nat) (buf : Str) : Stays (rightLocate d p h b buf) (rightLocateD d p h b buf) :=
  .bind (scanD_same _ _ (fun _ _ => .ok_of (byteCompareND_same _ _ _) (.refl _)) _ _ _) fun _ _ => .refl _

theorem bucketsLoopD_same (d : FC) (p : Str) (g : Int → Bool) : ∀ fuel lo hi, Stays (bucketsLoop d p g fuel lo hi) (bucketsLoopD d p g fuel lo hi)
  | 0, _, _ => .error
  | fuel + 1, _, _ => .ite (fun _ => .bind (headerD_same _ _) fun _ _ => .ok_of (byteCompareND_same _ _ _)
      (.ite (fun _ => bucketsLoopD_same d p g fuel _ _) fun _ => bucketsLoopD_same d p g fuel _ _)) fun _ => .refl _

theorem leftBucketD_same (d : FC) (p : Str) (lo : Nat) : Stays (leftBucket d p lo) (leftBucketD d p lo) :=
  .ite (fun _ => .refl _) fun _ => .bind (headerD_same _ _) fun _ _ => .refl _

theorem locateBucketsD_same (d : FC) (p : Str) : Stays (locateBuckets d p) (locateBucketsD d p) :=
  .bind (bucketsLoopD_same d p _ _ _ _) fun _ _ => .ite (fun _ => .refl _) fun _ => .bind (leftBucketD_same d p _) fun _ _ =>
    .ite (fun _ => .refl _) fun _ => .bind (headerD_same _ _) fun _ _ => .ok_of (byteCompareND_same _ _ _)
      (.ite (fun _ => .refl _) fun _ => .bind (bucketsLoopD_same d p _ _ _ _) fun _ _ => .refl _)

theorem beginOffsetD_same (d : FC) (p : Str) (h : Str) (b : Nat) (buf : Str) : Stays (beginOffset d p h b buf) (beginOffsetD d p h b buf) :=
  .ite (fun _ => leftLocateD_same d p _ _ _) fun _ => .refl _

theorem locatePrefixD_same (d : FC) (p buf : Str) : Stays (locatePrefix d p buf) (locatePrefixD d p buf) :=
  .ite (fun _ => .refl _) fun _ => .bind (locateBucketsD_same d p) fun _ _ => .bind (headerD_same _ _) fun _ _ => .bind (headerD_same _ _) fun _ _ =>
    .bind (beginOffsetD_same d p _ _ _) fun _ _ => .bind (rightLocateD_same d p _ _ _) fun _ _ => .refl _

theorem locateD_same (d : FC) (t buf : Str) : Stays (locate d t buf) (locateD d t buf) :=
  .bind (locateBucketD_same _ _ _) fun _ _ => .ite (fun _ => .refl _) fun _ => .bind (locateInD_same _ _ _ _ _) fun _ _ => .refl _

theorem extractD_same (d : FC) (id : Nat) (out : Str) (base : Nat) : Stays (extract d id out base) (extractD d id out base) := by
  intro a ha
  unfold extractD at ha
  unfold extract
  by_cases h : id = 0
  · rw [show AC.check (0 < id) = .error .aborted from if_neg (by omega)] at ha
    cases ha
  · rw [if_neg h]
    rw [show AC.check (0 < id) = .ok () from if_pos (by omega), M.ok_bind] at ha
    exact extractAtD_same _ _ _ _ _ _ a ha

end FcDict

namespace IntDict
open FC

theorem buildD_same (univ : Nat) (rs : List (Nat × Ids)) : Stays (build univ rs) (buildD univ rs) :=
  .bind (.refl _) fun _ _ => .bind (FC.buildD_same _ _ _ _) fun _ _ => .refl _

theorem leftLocateD_same (d : FC) (p : Ids) (h : Ids) (b : Nat) (buf : Ids) : Stays (leftLocate d p h b buf) (leftLocateD d p h b buf) :=
  .bind (scanD_same _ _ (fun _ _ => .ok_of (idsCompareND_same _ _ _) (.refl _)) _ _ _) fun _ _ => .refl _

theorem rightLocateD_same (d : FC) (p : Ids) (h : Ids) (b : Nat) (buf : Ids) : Stays (rightLocate d p h b buf) (rightLocateD d p h b buf) :=
  .bind (scanD_same _ _ (fun _ _ => .ok_of (idsCompareND_same _ _ _) (.refl _)) _ _ _) fun _ _ => .refl _

theorem rightBucketLoopD_same (d : FC) (t : Ids) : ∀ fuel s, Stays (rightBucketLoop d t fuel s) (rightBucketLoopD d t fuel s)
  | 0, _ => .error
  | fuel + 1, _ => .ite (fun _ => .bind (headerD_same _ _) fun _ _ => .ok_of (idsCompareND_same _ _ _)
      (.ite (fun _ => rightBucketLoopD_same d t fuel _) fun _ => rightBucketLoopD_same d t fuel _)) fun _ => .refl _

theorem locateRightBucketD_same (d : FC) (t : Ids) (hint : Nat) : Stays (locateRightBucket d t hint) (locateRightBucketD d t hint) :=
  .bind (rightBucketLoopD_same d t _ _) fun _ _ => .ite (fun _ => .refl _) fun _ => .bind (headerD_same _ _) fun _ _ => .refl _

theorem beginOffsetD_same (d : FC) (ih : Bool) (p : Ids) (h : Ids) (b : Nat) (buf : Ids) :
    Stays (beginOffset d ih p h b buf) (beginOffsetD d ih p h b buf) :=
  .ite (fun _ => .refl _) fun _ => leftLocateD_same d p _ _ _

theorem locatePrefixD_same (d : FC) (pfx : Ids) (r : Range) (buf : Ids) : Stays (locatePrefix d pfx r buf) (locatePrefixD d pfx r buf) :=
  .bind (locateBucketD_same _ _ _) fun _ _ => .bind (beginOffsetD_same d _ _ _ _ _) fun _ _ =>
    .bind (locateRightBucketD_same d _ _) fun _ _ => .bind (rightLocateD_same d _ _ _ _) fun _ _ => .refl _

theorem extractD_same (d : FC) (id : Nat) (c : Ids) : Stays (extract d id c) (extractD d id c) := extractAtD_same _ _ _ _ _ _

end IntDict

/-! ## The pool -/

theorem Pool.getD_same (p : Pool) (i : Nat) : Stays (p.get i) (p.getD i) := by
  intro a ha
  unfold Pool.getD at ha
  obtain ⟨n, -, ha⟩ := bind_ok ha
  exact Stays.unchecked (m' := fun _ => p.get i) (.refl _) a ha

theorem Pool.collectD_same (p : Pool) : ∀ n i, Stays (p.collect n i) (p.collectD n i)
  | 0, _ => .refl _
  | n + 1, i => .bind (p.getD_same i) fun _ _ => .bind (Pool.collectD_same p n (i + 1)) fun _ _ => .refl _

theorem Pool.resultsD_same (p : Pool) : Stays p.results p.resultsD := by
  intro a ha
  unfold Pool.resultsD Pool.sizeD at ha
  obtain ⟨n, hn, ha⟩ := bind_ok ha
  have := Stays.unchecked (m' := fun _ => .ok p.size) (.refl _) n hn
  injection this with this
  subst this
  exact Pool.collectD_same p _ 0 a ha

theorem writeTermsD_same (d : FC) (term : Nat → M Nat) : ∀ (n j : Nat) (data : Str) (off : Nat),
    Stays (writeTerms d term n j data off) (writeTermsD d term n j data off)
  | 0, _, _, _ => .refl _
  | n + 1, j, _, _ => .bind (.refl _) fun _ _ => .bind (FcDict.extractD_same _ _ _ _) fun _ _ => .bind (.refl _) fun _ _ => writeTermsD_same d term n (j + 1) _ _

theorem stringsLoopD_same (d : FC) {src' src : Nat → M (Nat × (Nat → M Nat))} (h : ∀ i, Stays (src i) (src' i)) : ∀ (n i : Nat) (p : Pool),
    Stays (extractStrings d src n i p) (stringsLoopD d src' n i p)
  | 0, _, _ => .refl _
  | n + 1, i, _ => .bind (h i) fun _ _ => .bind (.refl _) fun _ _ => .bind (writeTermsD_same _ _ _ _ _ _) fun _ _ => stringsLoopD_same d h n (i + 1) _

theorem extractStringsD_same (d : FC) {src' src : Nat → M (Nat × (Nat → M Nat))} (h : ∀ i, Stays (src i) (src' i)) (n : Nat) (p : Pool) :
    Stays (extractStrings d src n 0 p) (extractStringsD d src' n p) := by
  intro a ha
  unfold extractStringsD at ha
  obtain ⟨p', e1, ha⟩ := bind_ok ha
  obtain ⟨sz, -, ha⟩ := bind_ok ha
  have := Stays.unchecked (m' := fun _ => .ok p') (.refl _) a ha
  injection this with this
  subst this
  exact stringsLoopD_same d h n 0 p p' e1

/-! ## Queries -/

theorem parseLoopD_same (d : FC) (must : Bool) : ∀ (fuel : Nat) (r : Str) (pfx : Ids) (buf : Str),
    Stays (parseLoop d must fuel r pfx buf) (parseLoopD d must fuel r pfx buf)
  | 0, _, _, _ => .error
  | fuel + 1, r, pfx, buf => by
      unfold parseLoop parseLoopD
      generalize nextToken r = nt
      obtain ⟨suffix, r'⟩ := nt
      cases r' with
      | nil => exact .refl _
      | cons c cs =>
          exact .bind (FcDict.locateD_same _ _ _) fun _ _ => .ite (fun _ => parseLoopD_same d must fuel _ _ _) fun _ =>
            .ite (fun _ => .refl _) fun _ => parseLoopD_same d must fuel _ _ _

theorem analyseD_same (d : FC) (q : Str) (k : Nat) (must : Bool) (s : Scratch) : Stays (analyse d q must s) (analyseD d q k must s) := by
  unfold analyseD
  refine .unchecked ?_
  rw [show s.pool.initD = .ok s.pool.init from rfl, M.ok_bind]
  exact .bind (parseLoopD_same _ _ _ _ _ _) fun _ _ => .ite (fun _ => .bind (FcDict.locatePrefixD_same _ _ _) fun _ _ => .refl _) fun _ => .refl _

theorem InvIdx.iteratorD_same (ii : InvIdx) (t : Nat) : Stays (ii.iterator t) (ii.iteratorD t) := .unchecked (.refl _)

theorem InvIdx.iteratorOfD_same {ii : InvIdx} (h : ii.numTerms < 2 ^ 32) (id : Nat) : Stays (ii.iteratorOf id) (ii.iteratorOfD id) := by
  unfold InvIdx.iteratorOf InvIdx.iteratorOfD
  by_cases h0 : id = 0
  · rw [if_pos h0, if_pos h0]
    unfold InvIdx.iteratorD
    rw [show AC.check (2 ^ 32 - 1 < ii.numTerms) = .error .aborted from if_neg (by omega)]
    intro a ha
    cases ha
  · rw [if_neg h0, if_neg h0]
    exact InvIdx.iteratorD_same ii _

theorem Inter.iteratorsD_same {ii : InvIdx} (h : ii.numTerms < 2 ^ 32) : ∀ ids, Stays (iterators ii ids) (iteratorsD ii ids)
  | [] => .refl _
  | _ :: ids => .unchecked (.bind (InvIdx.iteratorOfD_same h _) fun _ _ => .bind (Inter.iteratorsD_same h ids) fun _ _ => .refl _)

theorem Inter.mkD_same (std : StdLib) {ii : InvIdx} (h : ii.numTerms < 2 ^ 32) (ids : List Nat) : Stays (mk' std ii ids) (mkD std ii ids) :=
  .unchecked (.bind (Inter.iteratorsD_same h ids) fun _ _ => .refl _)

/-- the iterator with assertions only adds failures to the one without -/
structure DocIter.Adds {σ : Type} (I' I : DocIter σ) : Prop where
  hasNext : I'.hasNext = I.hasNext
  value : I'.value = I.value
  next : ∀ it, Stays (I.next it) (I'.next it)

theorem withDocsD_same {β : Type} (std : StdLib) {ii : InvIdx} (h : ii.numTerms < 2 ^ 32) (pfx : Ids)
    (run' run : {σ : Type} → DocIter σ → σ → M β)
    (hrun : ∀ {σ : Type} (I' I : DocIter σ) (it : σ), DocIter.Adds I' I → Stays (run I it) (run' I' it)) :
    Stays (withDocs std ii pfx run) (withDocsD std ii pfx run') :=
  .ite (fun _ => .bind (.refl _) fun _ _ => .bind (InvIdx.iteratorOfD_same h _) fun _ _ => hrun _ _ _ ⟨rfl, rfl, fun _ => .refl _⟩)
    fun _ => .bind (Inter.mkD_same std h _) fun _ _ => hrun _ _ _ ⟨rfl, rfl, fun _ => .unchecked (.refl _)⟩

namespace HeapTopK

theorem fillD_same {ii : InvIdx} (h : ii.numTerms < 2 ^ 32) : ∀ n t, Stays (fill ii n t) (fillD ii n t)
  | 0, _ => .refl _
  | n + 1, t => .bind (InvIdx.iteratorOfD_same h _) fun _ _ => .bind (fillD_same h n (t + 1)) fun _ _ => .refl _

theorem startD_same {ii : InvIdx} (h : ii.numTerms < 2 ^ 32) (b e : Nat) : Stays (fill ii (e + 1 - b) b) (startD ii b e) :=
  .unchecked (.unchecked (fillD_same h _ _))

theorem topkD_same (std : StdLib) {ii : InvIdx} (h : ii.numTerms < 2 ^ 32) (b e k : Nat) (buf : List Nat) :
    Stays (topk std ii b e k buf) (topkD std ii b e k buf) :=
  .bind (startD_same h b e) fun _ _ => .refl _

end HeapTopK

theorem Union.loop_same {α : Type} (std : StdLib) (key : α → Nat) {adv' adv : List α → M (List α)} (h : ∀ q, Stays (adv q) (adv' q)) (k : Nat) :
    ∀ fuel q buf i, Stays (Union.loop std key adv k fuel q buf i) (Union.loop std key adv' k fuel q buf i)
  | 0, _, _, _ => .error
  | fuel + 1, [], _, _ => .refl _
  | fuel + 1, _ :: _, _, _ => .bind (.refl _) fun _ _ => .ite (fun _ => .bind (h _) fun _ _ => Union.loop_same std key h k fuel _ _ _)
      fun _ => .bind (.refl _) fun _ _ => .ite (fun _ => .refl _) fun _ => .bind (h _) fun _ _ => Union.loop_same std key h k fuel _ _ _

namespace MinDocs

theorem advanceD_same (std : StdLib) (ii : InvIdx) (u : UL) (q : List RI) : Stays (advance std ii u q) (advanceD std ii u q) := by
  refine .bind (.refl _) fun min _ => ?_
  obtain ⟨sr, it⟩ := min
  cases it with
  | some it => exact .refl _
  | none => exact .unchecked (.bind (InvIdx.iteratorD_same ii _) fun _ _ => .refl _)

theorem topkD_same (std : StdLib) (ii : InvIdx) (u : UL) (b e k : Nat) (buf : List Nat) :
    Stays (topk std ii u b e k buf) (topkD std ii u b e k buf) :=
  .bind (.refl _) fun _ _ => .bind (.refl _) fun _ _ => Union.loop_same std _ (advanceD_same std ii u) k _ _ _ _

end MinDocs

/-! ## Trie and forward index -/

theorem Trie.locatePrefixD_same (T : List Trie.CLevel) (pfx : Ids) (lex : Range) :
    Stays (Trie.locatePrefix T pfx lex) (Trie.locatePrefixD T pfx lex) := by
  refine .bind (.refl _) fun t0 _ => .bind (.refl _) fun o _ => ?_
  cases o with
  | none => exact .refl _
  | some ir =>
      obtain ⟨i, r⟩ := ir
      dsimp only
      generalize T[i]? = o
      cases o with
      | none => exact .error
      | some t =>
          refine .bind (.refl _) fun q _ => .unchecked (.ite (fun _ => .refl _) fun _ => .unchecked ?_)
          intro a ha
          obtain ⟨r, e, ha⟩ := bind_ok ha
          have := Stays.unchecked (m' := fun _ => .ok r) (.refl _) a ha
          injection this with this
          subst this
          exact e

theorem FwdIdx.buildD_same (n : Nat) (lists : List (List Nat)) (after : W) : Stays (FwdIdx.build n lists after) (FwdIdx.buildD n lists after) :=
  .skip (.refl _)

theorem FwdIt.intersectsLoopD_same (fi : FwdIdx) (it : FwdIt) (r : Range) : ∀ n i,
    Stays (it.intersectsLoop fi r n i) (it.intersectsLoopD fi r n i)
  | 0, _ => .refl _
  | n + 1, i => .bind (.refl _) fun _ _ => .unchecked (.ite (fun _ => .refl _) fun _ => FwdIt.intersectsLoopD_same fi it r n (i + 1))

theorem FwdIdx.intersectsD_same (fi : FwdIdx) (doc : Nat) (r : Range) : Stays (fi.intersects doc r) (fi.intersectsD doc r) :=
  .bind (.unchecked (.refl _)) fun _ _ => FwdIt.intersectsLoopD_same fi _ r _ _

/-! ## The index types -/

namespace Index1

theorem buildD_same (F : Files) (mem : Nat → W) : Stays (build F mem) (buildD F mem) :=
  .skip (.bind (.refl _) fun _ _ => .bind (.refl _) fun _ _ => .bind (.refl _) fun _ _ => .bind (.refl _) fun _ _ =>
    .bind (FcDict.buildD_same _) fun _ _ => .bind (.refl _) fun _ _ => .bind (FwdIdx.buildD_same _ _ _) fun _ _ => .refl _)

theorem sourceD_same (x : Index1) (scores : List Nat) (i : Nat) : Stays (x.source scores i) (x.sourceD scores i) :=
  .bind (.refl _) fun _ _ => .bind (.unchecked (.refl _)) fun _ _ => .refl _

theorem extractD_same (x : Index1) (n : Nat) (s : Scratch) : Stays (x.extract n s) (x.extractD n s) :=
  .bind (extractStringsD_same _ (sourceD_same x _) _ _) fun _ _ => .refl _

theorem prefixTopkD_same (std : StdLib) (x : Index1) (q : Str) (k : Nat) (s : Scratch) : Stays (x.prefixTopk std q k s) (x.prefixTopkD std q k s) := by
  refine .bind (analyseD_same _ _ _ _ _) fun sa _ => ?_
  obtain ⟨s, a⟩ := sa
  cases a with
  | none => exact .refl _
  | some pr => exact .bind (Trie.locatePrefixD_same _ _ _) fun _ _ => .ite (fun _ => .refl _) fun _ => .bind (.refl _) fun _ _ => extractD_same x _ _

theorem conjLoopD_same {σ : Type} (x : Index1) {I' I : DocIter σ} (h : DocIter.Adds I' I) (r : Range) (k : Nat) : ∀ fuel it scores n,
    Stays (x.conjLoop I r k fuel it scores n) (x.conjLoopD I' r k fuel it scores n)
  | 0, _, _, _ => .error
  | fuel + 1, it, scores, n => by
      unfold conjLoop conjLoopD
      rw [h.hasNext, h.value]
      exact .ite (fun _ => .bind (FwdIdx.intersectsD_same _ _ _) fun _ _ => .ite
        (fun _ => .bind (.refl _) fun _ _ => .ite (fun _ => .refl _) fun _ => .bind (h.next _) fun _ _ => conjLoopD_same x h r k fuel _ _ _)
        fun _ => .bind (h.next _) fun _ _ => conjLoopD_same x h r k fuel _ _ _) fun _ => .refl _

theorem conjTopkD_same (std : StdLib) (x : Index1) (h : x.inverted.numTerms < 2 ^ 32) (q : Str) (k : Nat) (s : Scratch) :
    Stays (x.conjTopk std q k s) (x.conjTopkD std q k s) := by
  refine .bind (analyseD_same _ _ _ _ _) fun sa _ => ?_
  obtain ⟨s, a⟩ := sa
  cases a with
  | none => exact .refl _
  | some pr =>
      exact .bind (.ite (fun _ => MinDocs.topkD_same _ _ _ _ _ _ _)
        fun _ => withDocsD_same std h _ _ _ fun _ _ _ hI => conjLoopD_same x hI _ _ _ _ _ _) fun _ _ => extractD_same x _ _

end Index1

namespace Base

theorem buildD_same (F : Files) (mem : Nat → W) : Stays (build F mem) (buildD F mem) :=
  .bind (IntDict.buildD_same _ _) fun _ _ => .bind (.refl _) fun _ _ => .bind (.refl _) fun _ _ => .bind (FcDict.buildD_same _) fun _ _ => .refl _

theorem loadD_same (x : Base) (doc i : Nat) (compl : List Ids) : Stays (x.load doc i compl) (x.loadD doc i compl) :=
  .bind (.refl _) fun _ _ => .bind (.refl _) fun _ _ => .bind (IntDict.extractD_same _ _ _) fun _ _ => .refl _

theorem extractCompletionsD_same (x : Base) (scores : List Nat) : ∀ n i compl sizes,
    Stays (x.extractCompletions scores n i compl sizes) (x.extractCompletionsD scores n i compl sizes)
  | 0, _, _, _ => .refl _
  | n + 1, i, _, _ => .bind (.refl _) fun _ _ => .bind (loadD_same x _ _ _) fun _ _ => .bind (.refl _) fun _ _ => extractCompletionsD_same x scores n (i + 1) _ _

theorem stringsD_same (x : Base) (n : Nat) (s : Scratch) : Stays (x.strings n s) (x.stringsD n s) :=
  .bind (extractStringsD_same _ (fun _ => .refl _) _ _) fun _ _ => .refl _

theorem extractD_same (x : Base) (n : Nat) (s : Scratch) : Stays (x.extract n s) (x.extractD n s) :=
  .bind (extractCompletionsD_same x _ _ _ _ _) fun _ _ => stringsD_same x _ _

theorem prefixTopkD_same (std : StdLib) (x : Base) (q : Str) (k : Nat) (s : Scratch) : Stays (x.prefixTopk std q k s) (x.prefixTopkD std q k s) := by
  refine .bind (analyseD_same _ _ _ _ _) fun sa _ => ?_
  obtain ⟨s, a⟩ := sa
  cases a with
  | none => exact .refl _
  | some pr => exact .bind (IntDict.locatePrefixD_same _ _ _ _) fun _ _ => .ite (fun _ => .refl _) fun _ => .bind (.refl _) fun _ _ => extractD_same x _ _

end Base

namespace Index2

theorem buildD_same (F : Files) (mem : Nat → W) : Stays (build F mem) (buildD F mem) :=
  .skip (.bind (.refl _) fun _ _ => .bind (Base.buildD_same _ _) fun _ _ => .refl _)

theorem conjLoopD_same {σ : Type} (x : Index2) {I' I : DocIter σ} (h : DocIter.Adds I' I) (r : Range) (k : Nat) : ∀ fuel it scores compl sizes n,
    Stays (x.conjLoop I r k fuel it scores compl sizes n) (x.conjLoopD I' r k fuel it scores compl sizes n)
  | 0, _, _, _, _, _ => .error
  | fuel + 1, it, scores, _, _, n => by
      unfold conjLoop conjLoopD
      rw [h.hasNext, h.value]
      exact .ite (fun _ => .bind (Base.loadD_same _ _ _ _) fun _ _ => .bind (.refl _) fun _ _ => .bind (.refl _) fun _ _ => .ite
        (fun _ => .bind (.refl _) fun _ _ => .bind (.refl _) fun _ _ => .ite (fun _ => .refl _) fun _ => .bind (h.next _) fun _ _ =>
          conjLoopD_same x h r k fuel _ _ _ _ _)
        fun _ => .bind (h.next _) fun _ _ => conjLoopD_same x h r k fuel _ _ _ _ _) fun _ => .refl _

theorem conjTopkD_same (std : StdLib) (x : Index2) (h : x.inverted.numTerms < 2 ^ 32) (q : Str) (k : Nat) (s : Scratch) :
    Stays (x.conjTopk std q k s) (x.conjTopkD std q k s) := by
  refine .bind (analyseD_same _ _ _ _ _) fun sa _ => ?_
  obtain ⟨s, a⟩ := sa
  cases a with
  | none => exact .refl _
  | some pr =>
      exact .ite (fun _ => .bind (MinDocs.topkD_same _ _ _ _ _ _ _) fun _ _ => Base.extractD_same _ _ _)
        fun _ => .bind (withDocsD_same std h _ _ _ fun _ _ _ hI => conjLoopD_same x hI _ _ _ _ _ _ _ _) fun _ _ => Base.stringsD_same _ _ _

end Index2

namespace Index3

theorem buildD_same (F : Files) (mem : Nat → W) : Stays (build F mem) (buildD F mem) :=
  .skip (.bind (.refl _) fun _ _ => .bind (Base.buildD_same _ _) fun _ _ => .refl _)

theorem conjLoop_same {σ : Type} (std : StdLib) (x : Index3) {I' I : DocIter σ} (h : DocIter.Adds I' I) (k : Nat) : ∀ fuel it q scores n,
    Stays (conjLoop std x I k fuel it q scores n) (conjLoop std x I' k fuel it q scores n)
  | 0, _, _, _, _ => .error
  | fuel + 1, it, q, scores, n => by
      unfold conjLoop
      rw [h.hasNext, h.value]
      exact .ite (fun _ => .bind (.refl _) fun _ _ => .ite
        (fun _ => .bind (.refl _) fun _ _ => .ite (fun _ => .refl _) fun _ => .bind (h.next _) fun _ _ => conjLoop_same std x h k fuel _ _ _ _)
        fun _ => .bind (h.next _) fun _ _ => conjLoop_same std x h k fuel _ _ _ _) fun _ => .refl _

theorem conjTopkD_same (std : StdLib) (x : Index3) (h : x.inverted.numTerms < 2 ^ 32) (q : Str) (k : Nat) (s : Scratch) :
    Stays (x.conjTopk std q k s) (x.conjTopkD std q k s) := by
  refine .bind (analyseD_same _ _ _ _ _) fun sa _ => ?_
  obtain ⟨s, a⟩ := sa
  cases a with
  | none => exact .refl _
  | some pr =>
      exact .bind (.ite (fun _ => HeapTopK.topkD_same _ h _ _ _ _)
        fun _ => withDocsD_same std h _ _ _ fun _ _ _ hI => .bind (HeapTopK.startD_same h _ _) fun _ _ => conjLoop_same std x hI _ _ _ _ _ _)
        fun _ _ => Base.extractD_same _ _ _

end Index3

end AC
