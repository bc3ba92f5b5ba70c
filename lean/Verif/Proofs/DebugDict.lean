import Verif.Model.DebugDict
import Verif.Proofs.DocMap
import Verif.Proofs.FcLoss
import Verif.Proofs.LossyDict
/-!
# The dictionaries with assertions do what they do without, where that succeeds
-/
namespace AC

/-- whenever the second program succeeds, so does the first, with the same result -/
def Stays {α : Type} (m' m : M α) : Prop := ∀ a, m = .ok a → m' = .ok a

namespace Stays
variable {α β : Type}

theorem refl (m : M α) : Stays m m := fun _ h => h

theorem error {m' : M α} {e : Fault} : Stays m' (.error e) := fun _ h => by cases h

theorem bind {m' m : M α} {f' f : α → M β} (h : Stays m' m) (hf : ∀ a, m = .ok a → Stays (f' a) (f a)) : Stays (m' >>= f') (m >>= f) := by
  intro b hb
  cases e : m with
  | error x => rw [e] at hb; cases hb
  | ok a =>
      rw [e] at hb
      rw [h a e]
      exact hf a e b hb

theorem check {c : Prop} [Decidable c] {m' : Unit → M α} {m : M α} (h : ∀ a, m = .ok a → c) (hm : Stays (m' ()) m) : Stays (AC.check c >>= m') m := by
  intro a ha
  rw [show AC.check c = .ok () from if_pos (h a ha)]
  exact hm a ha

theorem ite {c : Prop} [Decidable c] {a' a b' b : M α} (ha : c → Stays a' a) (hb : ¬ c → Stays b' b) : Stays (if c then a' else b') (if c then a else b) := by
  split
  · exact ha ‹_›
  · exact hb ‹_›

end Stays

theorem rd_lt {α : Type} {v : List α} {i : Nat} {x : α} (h : rd v i = .ok x) : i < v.length := by
  unfold rd at h
  split at h
  · exact (List.getElem?_eq_some_iff.mp ‹_›).1
  · cases h

theorem accessD_stays (v : List Nat) (i : Nat) : Stays (accessD v i) (rd v i) := .check (fun _ h => rd_lt h) (.refl _)

theorem byteCompareND_ok {p : Str} (hp : p ≠ []) (l : Str) : byteCompareND l p p.length = .ok (byteCompareN l p p.length) := by
  unfold byteCompareND check
  rw [if_pos ⟨List.length_pos_iff.mpr hp, Nat.le_refl _⟩]
  rfl

theorem idsCompareND_ok {p : Ids} (hp : p ≠ []) (l : Ids) : idsCompareND l p p.length = .ok (idsCompareN l p p.length) := by
  unfold idsCompareND check
  rw [if_pos ⟨List.length_pos_iff.mpr hp, Nat.le_refl _⟩]
  rfl

namespace FC

theorem headerD_stays (d : FC) (i : Nat) : Stays (d.headerD i) (d.header i) := by
  refine .check ?_ (.bind (accessD_stays _ _) fun _ _ => .bind (accessD_stays _ _) fun _ _ => .refl _)
  intro a h
  unfold header at h
  cases h1 : rd d.ptrHeaders i with
  | error e => rw [h1] at h; cases h
  | ok b =>
      rw [h1, M.ok_bind] at h
      cases h2 : rd d.ptrHeaders (i + 1) with
      | error e => rw [h2] at h; cases h
      | ok e =>
          have := rd_lt h2
          unfold nBuckets
          omega

theorem locateBucketLoopD_stays (cmpFn : List Nat → List Nat → Int) (d : FC) (t : List Nat) : ∀ fuel s,
    Stays (locateBucketLoopD cmpFn d t fuel s) (locateBucketLoop cmpFn d t fuel s)
  | 0, _ => .error
  | fuel + 1, _ => .ite
      (fun _ => .bind (headerD_stays _ _) fun _ _ => .ite (fun _ => locateBucketLoopD_stays cmpFn d t fuel _)
        fun _ => .ite (fun _ => locateBucketLoopD_stays cmpFn d t fuel _) fun _ => .refl _)
      fun _ => .refl _

theorem locateBucketD_stays (cmpFn : List Nat → List Nat → Int) (d : FC) (t : List Nat) :
    Stays (locateBucketD cmpFn d t) (locateBucket cmpFn d t) :=
  .bind (locateBucketLoopD_stays _ _ _ _ _) fun _ _ => .ite (fun _ => .refl _) fun _ => .ite (fun _ => .refl _)
    fun _ => .bind (headerD_stays _ _) fun _ _ => .refl _

theorem scanLoopD_stays {ρ : Type} (E : Elem) (d : FC) {stop' : Nat → List Nat → M (Option ρ)} {stop : Nat → List Nat → Option ρ}
    (hs : ∀ i s, stop' i s = .ok (stop i s)) : ∀ n i cur buf, Stays (scanLoopD E d stop' n i cur buf) (scanLoop E d stop n i cur buf)
  | 0, _, _, _ => .refl _
  | n + 1, i, cur, buf => by
      refine .bind (.refl _) fun a _ => ?_
      obtain ⟨buf', len, l⟩ := a
      dsimp only
      rw [hs, M.ok_bind]
      cases stop i (buf'.take len) with
      | some r => exact .refl _
      | none => exact scanLoopD_stays E d hs n _ _ _

theorem scanD_stays {ρ : Type} (E : Elem) (d : FC) {stop' : Nat → List Nat → M (Option ρ)} {stop : Nat → List Nat → Option ρ}
    (hs : ∀ i s, stop' i s = .ok (stop i s)) (h : List Nat) (b : Nat) (buf : List Nat) : Stays (scanD E d stop' h b buf) (scan E d stop h b buf) :=
  .bind (.refl _) fun _ _ => .bind (accessD_stays _ _) fun _ _ => scanLoopD_stays E d hs _ _ _ _

theorem extractAtD_stays (E : Elem) (d : FC) {id b : Nat} (h : id ≤ d.bucketSize b) (out : List Nat) (base : Nat) :
    Stays (extractAtD E d id b out base) (extractAt E d id b out base) :=
  .check (fun _ _ => h) (.bind (headerD_stays _ _) fun _ _ => .bind (.refl _) fun _ _ => .bind (accessD_stays _ _) fun _ _ => .refl _)

theorem buildBucketD_stays {E : Elem} (hE : E.cap < 256) {extra : Nat} {lcpOf : List Nat → List Nat → Nat} : ∀ (n : Nat) (prev : List Nat)
    (input : List (List Nat)) (bk : List Nat), ConsecOk lcpOf (prev :: input) → (∀ s ∈ input, 0 < s.length + extra ∧ s.length + extra ≤ E.cap) →
    Stays (buildBucketD E extra lcpOf n prev input bk) (buildBucket E lcpOf n prev input bk)
  | 0, _, _, _, _, _ => .refl _
  | _ + 1, _, [], _, _, _ => .error
  | n + 1, prev, curr :: input, bk, hc, hl => by
      have h := hl curr (by simp)
      have h' := (hc 0 prev curr rfl rfl).1
      refine .check (fun _ _ => h) (.check (fun _ _ => ?_) (buildBucketD_stays hE n curr input _ (fun i a b ha hb => hc (i + 1) a b ha hb)
        fun s hs => hl s (by simp [hs])))
      rw [Nat.mod_eq_of_lt (by omega)]
      exact h'

theorem ConsecOk.drop {lcpOf : List Nat → List Nat → Nat} {L : List (List Nat)} (h : ConsecOk lcpOf L) (n : Nat) : ConsecOk lcpOf (L.drop n) := by
  intro i a b ha hb
  rw [List.getElem?_drop] at ha hb
  exact h (n + i) a b ha hb

theorem buildLoopD_stays {E : Elem} (hE : E.cap < 256) {extra : Nat} {lcpOf : List Nat → List Nat → Nat} (tl : Nat) : ∀ (nb : Nat)
    (input : List (List Nat)) (d : FC), (nb ≠ 0 → 17 * (nb - 1) + 1 + tl ≤ input.length) → ConsecOk lcpOf input →
    (∀ s ∈ input, 0 < s.length + extra ∧ s.length + extra ≤ E.cap) →
    Stays (buildLoopD E extra lcpOf tl nb input d) (buildLoop E lcpOf tl nb input d)
  | 0, _, _, _, _, _ => .refl _
  | _ + 1, [], _, _, _, _ => .error
  | nb + 1, header :: input, d, hn, hc, hl => by
      have hn' := hn (by omega)
      simp only [List.length_cons, Nat.add_sub_cancel] at hn'
      have hsz : (if nb ≠ 0 then 16 else tl) ≤ input.length := by split <;> omega
      have hsz' : nb ≠ 0 → 17 * (nb - 1) + 1 + tl ≤ input.length - (if nb ≠ 0 then 16 else tl) := by
        intro h; rw [if_pos h]; omega
      refine .check (fun _ _ => hl header (by simp)) ?_
      rw [buildLoop]
      dsimp only
      generalize (if nb ≠ 0 then 16 else tl) = sz at *
      refine .bind (buildBucketD_stays hE sz header input d.buckets hc fun s hs => hl s (by simp [hs])) fun a ha => ?_
      rw [buildBucket_eq _ _ _ _ _ _ hsz] at ha
      cases ha
      exact buildLoopD_stays hE tl nb _ _ (fun h => by rw [List.length_drop]; exact hsz' h) (hc.drop (sz + 1))
        fun s hs => hl s (List.mem_cons_of_mem _ (List.mem_of_mem_drop hs))

theorem buildD_stays {E : Elem} (hE : E.cap < 256) {extra : Nat} {lcpOf : List Nat → List Nat → Nat} {L : List (List Nat)} (hc : ConsecOk lcpOf L)
    (hl : ∀ s ∈ L, 0 < s.length + extra ∧ s.length + extra ≤ E.cap) : Stays (buildD E extra lcpOf L) (build E lcpOf L) := by
  refine .bind (buildLoopD_stays hE _ _ _ _ ?_ hc hl) fun _ _ => .refl _
  intro h
  unfold tail
  dsimp only
  split <;> omega

/-! ## Which failures there are -/

theorem headerD_unreach (d : FC) (i : Nat) : d.header i ≠ .error .unreachable := fun h => by cases header_oobOnly d i _ h

theorem locateBucketLoop_unreach (cmpFn : List Nat → List Nat → Int) (d : FC) (t : List Nat) : ∀ fuel s,
    locateBucketLoop cmpFn d t fuel s ≠ .error .unreachable
  | 0, _ => by simp [locateBucketLoop]
  | fuel + 1, s => by
      rw [locateBucketLoop]
      split
      · dsimp only
        cases e : d.header ((s.lo + s.hi) / 2).toNat with
        | error x => cases header_oobOnly _ _ _ e; intro h; cases h
        | ok h =>
            rw [M.ok_bind]
            split
            · exact locateBucketLoop_unreach cmpFn d t fuel _
            · split
              · exact locateBucketLoop_unreach cmpFn d t fuel _
              · intro h; cases h
      · intro h; cases h

theorem locateBucket_unreach (cmpFn : List Nat → List Nat → Int) (d : FC) (t : List Nat) : locateBucket cmpFn d t ≠ .error .unreachable := by
  unfold locateBucket
  cases e : locateBucketLoop cmpFn d t (d.nBuckets + 1) { lo := 0, hi := (d.nBuckets : Int) - 1, mi := 0, cmp := 0, h := [] } with
  | error x =>
      intro h
      have : x = .unreachable := by injection h
      rw [this] at e
      exact locateBucketLoop_unreach _ _ _ _ _ e
  | ok r =>
      obtain ⟨f, s⟩ := r
      rw [M.ok_bind]
      dsimp only
      split
      · intro h; cases h
      · split
        · intro h; cases h
        · cases e : d.header (if s.hi = -1 then 0 else s.hi.toNat) with
          | error x => cases header_oobOnly _ _ _ e; intro h; cases h
          | ok h => intro h; cases h

theorem scanLoop_oobOnly {ρ : Type} (E : Elem) (d : FC) (stop : Nat → List Nat → Option ρ) : ∀ n i cur buf, OobOnly (scanLoop E d stop n i cur buf)
  | 0, _, _, _ => .ok _
  | n + 1, i, cur, buf => by
      refine .bind (decode_oobOnly _ _ _ _ _) fun a => ?_
      obtain ⟨buf', len, l⟩ := a
      dsimp only
      split
      · exact .ok _
      · exact scanLoop_oobOnly E d stop n _ _ _

theorem scan_oobOnly {ρ : Type} (E : Elem) (d : FC) (stop : Nat → List Nat → Option ρ) (h : List Nat) (b : Nat) (buf : List Nat) :
    OobOnly (scan E d stop h b buf) :=
  .bind (fun _ h => memcpy_err h) fun _ => .bind (fun _ h => rd_err h) fun _ => scanLoop_oobOnly _ _ _ _ _ _ _

end FC

namespace FcDict
open FC

theorem locateInD_stays (d : FC) (t h : Str) (b : Nat) (buf : Str) : Stays (locateInD d t h b buf) (locateIn d t h b buf) :=
  .bind (scanD_stays _ _ (fun _ _ => rfl) _ _ _) fun _ _ => .refl _

theorem leftLocateD_stays (d : FC) {p : Str} (hp : p ≠ []) (h : Str) (b : Nat) (buf : Str) : Stays (leftLocateD d p h b buf) (leftLocate d p h b buf) :=
  .bind (scanD_stays _ _ (fun _ _ => by rw [byteCompareND_ok hp]; rfl) _ _ _) fun _ _ => .refl _

theorem rightLocateD_stays (d : FC) {p : Str} (hp : p ≠ []) (h : Str) (b : Nat) (buf : Str) : Stays (rightLocateD d p h b buf) (rightLocate d p h b buf) :=
  .bind (scanD_stays _ _ (fun _ _ => by rw [byteCompareND_ok hp]; rfl) _ _ _) fun _ _ => .refl _

theorem bucketsLoopD_stays (d : FC) {p : Str} (hp : p ≠ []) (g : Int → Bool) : ∀ fuel lo hi, Stays (bucketsLoopD d p g fuel lo hi) (bucketsLoop d p g fuel lo hi)
  | 0, _, _ => .error
  | fuel + 1, lo, hi => by
      refine .ite (fun _ => .bind (headerD_stays _ _) fun h _ => ?_) fun _ => .refl _
      dsimp only
      rw [byteCompareND_ok hp, M.ok_bind]
      exact .ite (fun _ => bucketsLoopD_stays d hp g fuel _ _) fun _ => bucketsLoopD_stays d hp g fuel _ _

theorem leftBucketD_stays (d : FC) (p : Str) (lo : Nat) : Stays (leftBucketD d p lo) (leftBucket d p lo) :=
  .ite (fun _ => .refl _) fun _ => .bind (headerD_stays _ _) fun _ _ => .refl _

theorem locateBucketsD_stays (d : FC) {p : Str} (hp : p ≠ []) : Stays (locateBucketsD d p) (locateBuckets d p) := by
  refine .bind (bucketsLoopD_stays d hp _ _ _ _) fun lo _ => .ite (fun _ => .refl _) fun _ => .bind (leftBucketD_stays d p _) fun left _ =>
    .ite (fun _ => .refl _) fun _ => .bind (headerD_stays _ _) fun h _ => ?_
  rw [byteCompareND_ok hp, M.ok_bind]
  exact .ite (fun _ => .refl _) fun _ => .bind (bucketsLoopD_stays d hp _ _ _ _) fun _ _ => .refl _

theorem beginOffsetD_stays (d : FC) {p : Str} (hp : p ≠ []) (h : Str) (b : Nat) (buf : Str) : Stays (beginOffsetD d p h b buf) (beginOffset d p h b buf) :=
  .ite (fun _ => leftLocateD_stays d hp _ _ _) fun _ => .refl _

theorem locatePrefixD_stays (d : FC) (p buf : Str) : Stays (locatePrefixD d p buf) (locatePrefix d p buf) := by
  refine .ite (fun _ => .refl _) fun h => ?_
  have hp : p ≠ [] := fun e => h (by rw [e]; rfl)
  exact .bind (locateBucketsD_stays d hp) fun _ _ => .bind (headerD_stays _ _) fun _ _ => .bind (headerD_stays _ _) fun _ _ =>
    .bind (beginOffsetD_stays d hp _ _ _) fun _ _ => .bind (rightLocateD_stays d hp _ _ _) fun _ _ => .refl _

theorem locateD_stays (d : FC) (t buf : Str) : Stays (locateD d t buf) (locate d t buf) :=
  .bind (locateBucketD_stays _ _ _) fun _ _ => .ite (fun _ => .refl _) fun _ => .bind (locateInD_stays _ _ _ _ _) fun _ _ => .refl _

end FcDict

namespace IntDict
open FC

theorem locateInD_stays (d : FC) (t h : Ids) (b : Nat) (buf : Ids) : Stays (locateInD d t h b buf) (locateIn d t h b buf) := by
  refine .bind (scanD_stays _ _ (fun _ _ => rfl) _ _ _) fun a _ => ?_
  obtain ⟨r, buf'⟩ := a
  cases r with
  | some i => exact .refl _
  | none => exact .error

theorem leftLocateD_stays (d : FC) {p : Ids} (hp : p ≠ []) (h : Ids) (b : Nat) (buf : Ids) : Stays (leftLocateD d p h b buf) (leftLocate d p h b buf) :=
  .bind (scanD_stays _ _ (fun _ _ => by rw [idsCompareND_ok hp]; rfl) _ _ _) fun _ _ => .refl _

theorem rightLocateD_stays (d : FC) {p : Ids} (hp : p ≠ []) (h : Ids) (b : Nat) (buf : Ids) : Stays (rightLocateD d p h b buf) (rightLocate d p h b buf) :=
  .bind (scanD_stays _ _ (fun _ _ => by rw [idsCompareND_ok hp]; rfl) _ _ _) fun _ _ => .refl _

theorem rightBucketLoopD_stays (d : FC) {t : Ids} (ht : t ≠ []) : ∀ fuel s, Stays (rightBucketLoopD d t fuel s) (rightBucketLoop d t fuel s)
  | 0, _ => .error
  | fuel + 1, s => by
      refine .ite (fun _ => .bind (headerD_stays _ _) fun h _ => ?_) fun _ => .refl _
      dsimp only
      rw [idsCompareND_ok ht, M.ok_bind]
      exact .ite (fun _ => rightBucketLoopD_stays d ht fuel _) fun _ => rightBucketLoopD_stays d ht fuel _

theorem locateRightBucketD_stays (d : FC) {t : Ids} (ht : t ≠ []) (hint : Nat) : Stays (locateRightBucketD d t hint) (locateRightBucket d t hint) :=
  .bind (rightBucketLoopD_stays d ht _ _) fun _ _ => .ite (fun _ => .refl _) fun _ => .bind (headerD_stays _ _) fun _ _ => .refl _

theorem beginOffsetD_stays (d : FC) (ih : Bool) {p : Ids} (hp : p ≠ []) (h : Ids) (b : Nat) (buf : Ids) :
    Stays (beginOffsetD d ih p h b buf) (beginOffset d ih p h b buf) :=
  .ite (fun _ => .refl _) fun _ => leftLocateD_stays d hp _ _ _

theorem locatePrefixD_stays (d : FC) (pfx : Ids) (r : Range) (buf : Ids) : Stays (locatePrefixD d pfx r buf) (locatePrefix d pfx r buf) := by
  refine .bind (locateBucketD_stays _ _ _) fun _ _ => .bind (beginOffsetD_stays d _ (by simp) _ _ _) fun _ _ =>
    .bind (locateRightBucketD_stays d ?_ _) fun _ _ => .bind (rightLocateD_stays d ?_ _ _ _) fun _ _ => .refl _
  all_goals
    split <;> simp

theorem locateD_stays (d : FC) (c buf : Ids) : Stays (locateD d c buf) (locate d c buf) :=
  .bind (locateBucketD_stays _ _ _) fun _ _ => .ite (fun _ => .refl _) fun _ => .bind (locateInD_stays _ _ _ _ _) fun _ _ => .refl _

theorem locateInD_unreach (d : FC) (t h : Ids) (b : Nat) (buf : Ids) (he : locateIn d t h b buf = .error .unreachable) :
    locateInD d t h b buf = .error .aborted := by
  unfold locateIn at he
  unfold locateInD
  generalize hst : (fun (i : Nat) (s : List Nat) =>
      let cmp := idsCompare t s
      if cmp = 0 then some i else if cmp < 0 then some INVALID_TERM else none) = stop at he
  cases e : scan Elem.u32 d stop h b buf with
  | error x =>
      rw [e] at he
      cases scan_oobOnly _ _ _ _ _ _ _ e
      cases he
  | ok r =>
      rw [e] at he
      rw [scanD_stays Elem.u32 d (stop := stop) (fun i s => by rw [← hst]) h b buf r e]
      obtain ⟨r, buf'⟩ := r
      cases r with
      | some i => cases he
      | none => rfl

/-- where `locate` executes `__builtin_unreachable()`, the build with assertions stops -/
theorem locateD_unreach (d : FC) (c buf : Ids) (he : locate d c buf = .error .unreachable) : locateD d c buf = .error .aborted := by
  unfold locate at he
  unfold locateD
  cases e : locateBucket idsCompare d c with
  | error x =>
      rw [e] at he
      have : x = .unreachable := by injection he
      rw [this] at e
      exact absurd e (locateBucket_unreach _ _ _)
  | ok r =>
      rw [e] at he
      rw [locateBucketD_stays idsCompare d c r e]
      obtain ⟨f, h, b⟩ := r
      rw [M.ok_bind] at he ⊢
      dsimp only at he ⊢
      split at he
      · cases he
      · rw [if_neg ‹_›]
        cases e2 : locateIn d c h b buf with
        | ok r =>
            rw [e2, M.ok_bind] at he
            split at he <;> cases he
        | error x =>
            rw [e2] at he
            have : x = .unreachable := by injection he
            rw [this] at e2
            rw [locateInD_unreach _ _ _ _ _ e2]
            rfl

end IntDict
end AC
