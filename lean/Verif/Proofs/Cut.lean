import Verif.Proofs.Type4
/-!
# The number of results and the size of the buffer

The loops of the searches write the documents they find one after the other: what they do with a buffer of scores that is too small
follows from what they do with a larger one, and what they do without a limit from what they do with a large one.
-/
namespace AC

/-- there are `n` results at least -/
def Grows (n : Nat) (o : M (List Nat × Nat)) : Prop := ∀ (sc : List Nat) (n' : Nat), o = .ok (sc, n') → n ≤ n'

namespace Grows
variable {n : Nat}

theorem error {f : Fault} : Grows n (.error f) := by
  intro sc n' h; cases h

theorem ok {sc : List Nat} {m : Nat} (h : n ≤ m) : Grows n (.ok (sc, m)) := by
  intro sc n' h; cases h; assumption

theorem bind {α : Type} {x : M α} {f : α → M (List Nat × Nat)} (h : ∀ a, Grows n (f a)) : Grows n (x >>= f) := by
  cases x with
  | error e => exact error
  | ok a => exact h a

theorem ite {p : Prop} [Decidable p] {x y : M (List Nat × Nat)} (hx : Grows n x) (hy : Grows n y) : Grows n (if p then x else y) := by
  split <;> assumption

theorem le {m : Nat} {o : M (List Nat × Nat)} (h : Grows m o) (hm : n ≤ m) : Grows n o :=
  fun sc n' e => Nat.le_trans hm (h sc n' e)

end Grows

/-- `big` is a run with the limit `K`, in a buffer of which `small` has the first `b` places; `small` has the limit `k` -/
def Cut (k K b : Nat) (big small : M (List Nat × Nat)) : Prop :=
  ∀ (sc : List Nat) (n' : Nat), big = .ok (sc, n') → (k = K ∨ (n' < K ∧ (k = 0 ∨ n' < k))) →
    (n' ≤ b → small = .ok (sc.take b, n')) ∧ (b < n' → small = .error .oob)

namespace Cut
variable {k K b n : Nat}

theorem error {f : Fault} {small : M (List Nat × Nat)} : Cut k K b (.error f) small := by
  intro sc n' h; cases h

theorem ok {buf ext : List Nat} (hb : buf.length = b) (hn : n ≤ b) : Cut k K b (.ok (buf ++ ext, n)) (.ok (buf, n)) := by
  intro sc n' h _
  cases h
  exact ⟨fun _ => by rw [List.take_left' hb], fun h => by omega⟩

theorem bind {α : Type} {x : M α} {f g : α → M (List Nat × Nat)} (h : ∀ a, Cut k K b (f a) (g a)) :
    Cut k K b (x >>= f) (x >>= g) := by
  cases x with
  | error e => exact error
  | ok a => exact h a

theorem ite {p : Prop} [Decidable p] {x y x' y' : M (List Nat × Nat)} (hx : Cut k K b x x') (hy : Cut k K b y y') :
    Cut k K b (if p then x else y) (if p then x' else y') := by
  split <;> assumption

/-- a document is stored, and the run stops when there are enough -/
theorem store {buf ext : List Nat} {v : Nat} (hb : buf.length = b) (hn : n ≤ b) {f g : List Nat → M (List Nat × Nat)}
    (hf : ∀ o, Grows (n + 1) (f o))
    (h : ∀ buf' : List Nat, buf'.length = b → n + 1 ≤ b → Cut k K b (f (buf' ++ ext)) (g buf')) :
    Cut k K b (wr (buf ++ ext) n v >>= fun sc => if n + 1 = K then .ok (sc, n + 1) else f sc)
      (wr buf n v >>= fun sc => if n + 1 = k then .ok (sc, n + 1) else g sc) := by
  by_cases hx : n < (buf ++ ext).length
  · rw [wr_ok hx, M.ok_bind]
    rcases Nat.lt_or_ge n b with hlt | hge
    · rw [wr_ok (by omega), M.ok_bind, List.set_append_left _ _ (by omega)]
      have hb' : (buf.set n v).length = b := by rw [List.length_set]; exact hb
      intro sc n' e c
      by_cases hK : n + 1 = K
      · rw [if_pos hK] at e
        have hk : k = K := by
          rcases c with c | ⟨c, _⟩
          · exact c
          · cases e; omega
        rw [if_pos (by omega)]
        exact ok hb' (by omega) sc n' e c
      · rw [if_neg hK] at e
        have := hf _ _ _ e
        rw [if_neg (by omega)]
        exact h _ hb' (by omega) sc n' e c
    · intro sc n' e _
      have hn' : n + 1 ≤ n' := by
        split at e
        · cases e; omega
        · exact hf _ _ _ e
      refine ⟨fun h => by omega, fun _ => ?_⟩
      unfold wr
      rw [if_neg (by omega)]
      rfl
  · unfold wr
    rw [if_neg hx]
    exact error

end Cut

/-! ## The loops -/

theorem Index1.conjLoop_grows {x : Index1} {r : Range} {k : Nat} {σ : Type} {I : DocIter σ} : ∀ (fuel : Nat) (it : σ) (scores : List Nat) (n : Nat),
    Grows n (x.conjLoop I r k fuel it scores n) := by
  intro fuel
  induction fuel with
  | zero => intro it scores n; exact Grows.error
  | succ fuel ih =>
      intro it scores n
      unfold conjLoop
      refine .ite (.bind fun found => .ite (.bind fun sc => .ite (.ok (by omega)) (.bind fun it => (ih it sc (n + 1)).le (by omega)))
        (.bind fun it => ih it scores n)) (.ok (Nat.le_refl _))

theorem Index1.conjLoop_cut {x : Index1} {r : Range} {k K b : Nat} {ext : List Nat} {σ : Type} {I : DocIter σ} :
    ∀ (fuel : Nat) (it : σ) (buf : List Nat) (n : Nat), buf.length = b → n ≤ b →
    Cut k K b (x.conjLoop I r K fuel it (buf ++ ext) n) (x.conjLoop I r k fuel it buf n) := by
  intro fuel
  induction fuel with
  | zero => intro it buf n hb hn; exact Cut.error
  | succ fuel ih =>
      intro it buf n hb hn
      unfold conjLoop
      refine .ite (.bind fun found => .ite (.store hb hn (fun o => .bind fun it => conjLoop_grows _ _ _ _) fun buf' hb' hn' =>
        .bind fun it => ih it buf' (n + 1) hb' hn') (.bind fun it => ih it buf n hb hn)) (.ok hb hn)

theorem Index3.conjLoop_grows {std : StdLib} {x : Index3} {k : Nat} {σ : Type} {I : DocIter σ} :
    ∀ (fuel : Nat) (it : σ) (q : List CEI) (scores : List Nat) (n : Nat), Grows n (conjLoop std x I k fuel it q scores n) := by
  intro fuel
  induction fuel with
  | zero => intro it q scores n; exact Grows.error
  | succ fuel ih =>
      intro it q scores n
      unfold conjLoop
      refine .ite (.bind fun found => .ite (.bind fun sc => .ite (.ok (by omega)) (.bind fun it => (ih it _ sc (n + 1)).le (by omega)))
        (.bind fun it => ih it _ scores n)) (.ok (Nat.le_refl _))

theorem Index3.conjLoop_cut {std : StdLib} {x : Index3} {k K b : Nat} {ext : List Nat} {σ : Type} {I : DocIter σ} :
    ∀ (fuel : Nat) (it : σ) (q : List CEI) (buf : List Nat) (n : Nat), buf.length = b → n ≤ b →
    Cut k K b (conjLoop std x I K fuel it q (buf ++ ext) n) (conjLoop std x I k fuel it q buf n) := by
  intro fuel
  induction fuel with
  | zero => intro it q buf n hb hn; exact Cut.error
  | succ fuel ih =>
      intro it q buf n hb hn
      unfold conjLoop
      refine .ite (.bind fun found => .ite (.store hb hn (fun o => .bind fun it => conjLoop_grows _ _ _ _ _) fun buf' hb' hn' =>
        .bind fun it => ih it _ buf' (n + 1) hb' hn') (.bind fun it => ih it _ buf n hb hn)) (.ok hb hn)

theorem Union.loop_grows {α : Type} {std : StdLib} {key : α → Nat} {adv : List α → M (List α)} {k : Nat} :
    ∀ (fuel : Nat) (q : List α) (buf : List Nat) (n : Nat), Grows n (loop std key adv k fuel q buf n) := by
  intro fuel
  induction fuel with
  | zero => intro q buf n; exact Grows.error
  | succ fuel ih =>
      intro q buf n
      unfold loop
      cases q with
      | nil => exact .ok (Nat.le_refl _)
      | cons m q =>
          exact .bind fun z => .ite (.bind fun q => ih q buf n) (.bind fun sc => .ite (.ok (by omega)) (.bind fun q => (ih q sc (n + 1)).le (by omega)))

theorem Union.loop_cut {α : Type} {std : StdLib} {key : α → Nat} {adv : List α → M (List α)} {k K b : Nat} {ext : List Nat} :
    ∀ (fuel : Nat) (q : List α) (buf : List Nat) (n : Nat), buf.length = b → n ≤ b →
    Cut k K b (loop std key adv K fuel q (buf ++ ext) n) (loop std key adv k fuel q buf n) := by
  intro fuel
  induction fuel with
  | zero => intro q buf n hb hn; exact Cut.error
  | succ fuel ih =>
      intro q buf n hb hn
      unfold loop
      cases q with
      | nil => exact .ok hb hn
      | cons m q =>
          refine .bind fun z => ?_
          dsimp only
          rw [List.take_append_of_le_length (by omega)]
          exact .ite (.bind fun q => ih q buf n hb hn) (.store hb hn (fun o => .bind fun q => loop_grows _ _ _ _) fun buf' hb' hn' =>
            .bind fun q => ih q buf' (n + 1) hb' hn')

theorem UL.topkLoop_grows {std : StdLib} {u : UL} {k : Nat} :
    ∀ (fuel : Nat) (q : List SR) (buf : List Nat) (n : Nat), Grows n (topkLoop std u k false fuel q buf n) := by
  intro fuel
  induction fuel with
  | zero => intro q buf n; exact Grows.error
  | succ fuel ih =>
      intro q buf n
      cases q with
      | nil => exact .ok (Nat.le_refl _)
      | cons m q =>
          unfold topkLoop
          refine .bind fun z => .ite (.bind fun sc => .ite (.ok (by omega)) (.bind fun q => .bind fun q => .bind fun q => (ih q sc (n + 1)).le (by omega)))
            (.bind fun q => .bind fun q => .bind fun q => ih q buf n)

theorem UL.topkLoop_cut {std : StdLib} {u : UL} {k K b : Nat} {ext : List Nat} :
    ∀ (fuel : Nat) (q : List SR) (buf : List Nat) (n : Nat), buf.length = b → n ≤ b →
    Cut k K b (topkLoop std u K false fuel q (buf ++ ext) n) (topkLoop std u k false fuel q buf n) := by
  intro fuel
  induction fuel with
  | zero => intro q buf n hb hn; exact Cut.error
  | succ fuel ih =>
      intro q buf n hb hn
      cases q with
      | nil => exact .ok hb hn
      | cons m q =>
          unfold topkLoop
          refine .bind fun z => ?_
          rw [List.take_append_of_le_length (by omega)]
          exact .ite (.store hb hn (fun o => .bind fun q => .bind fun q => .bind fun q => topkLoop_grows _ _ _ _) fun buf' hb' hn' =>
            .bind fun q => .bind fun q => .bind fun q => ih q buf' (n + 1) hb' hn') (.bind fun q => .bind fun q => .bind fun q => ih q buf n hb hn)

theorem withDocs_cut {std : StdLib} {ii : InvIdx} {pfx : Ids} {k K b : Nat} {f g : {σ : Type} → DocIter σ → σ → M (List Nat × Nat)}
    (h : ∀ (σ : Type) (I : DocIter σ) (it : σ), Cut k K b (f I it) (g I it)) : Cut k K b (withDocs std ii pfx f) (withDocs std ii pfx g) := by
  unfold withDocs
  exact .ite (.bind fun t => .bind fun it => h _ _ it) (.bind fun it => h _ _ it)

theorem MinDocs.topk_cut {std : StdLib} {ii : InvIdx} {u : UL} {a e k K : Nat} {buf ext : List Nat} :
    Cut k K buf.length (topk std ii u a e K (buf ++ ext)) (topk std ii u a e k buf) := by
  unfold topk
  exact .bind fun pos => .bind fun val => Union.loop_cut _ _ _ _ rfl (Nat.zero_le _)

theorem HeapTopK.topk_cut {std : StdLib} {ii : InvIdx} {a e k K : Nat} {buf ext : List Nat} :
    Cut k K buf.length (topk std ii a e K (buf ++ ext)) (topk std ii a e k buf) := by
  unfold topk
  exact .bind fun q => Union.loop_cut _ _ _ _ rfl (Nat.zero_le _)

theorem Index1.conjScores_cut {std : StdLib} {x : Index1} {pfx : Ids} {r : Range} {k K : Nat} {buf ext : List Nat} :
    Cut k K buf.length (x.conjScores std pfx r K (buf ++ ext)) (x.conjScores std pfx r k buf) := by
  unfold conjScores
  exact .ite MinDocs.topk_cut (withDocs_cut fun σ I it => conjLoop_cut _ _ _ _ rfl (Nat.zero_le _))

theorem Index3.conjScores_cut {std : StdLib} {x : Index3} {pfx : Ids} {r : Range} {k K : Nat} {buf ext : List Nat} :
    Cut k K buf.length (x.conjScores std pfx r K (buf ++ ext)) (x.conjScores std pfx r k buf) := by
  unfold conjScores
  refine .ite HeapTopK.topk_cut (withDocs_cut fun σ I it => ?_)
  unfold conjScan
  exact .bind fun q => conjLoop_cut _ _ _ _ _ rfl (Nat.zero_le _)

/-! ## Type 4 -/

namespace Index4

theorem Cut.stop {k K b n : Nat} (hk : 1 ≤ k) {buf ext : List Nat} {p : Prop} [Decidable p] (hb : buf.length = b) (hn : n ≤ b)
    {F G : M (List Nat × Nat)} (hf : Grows n F) (h : Cut k K b F G) :
    Cut k K b (if p ∧ n = K then .ok (buf ++ ext, n) else F) (if p ∧ n = k then .ok (buf, n) else G) := by
  intro sc n' e c
  by_cases hK : p ∧ n = K
  · rw [if_pos hK] at e
    have hkK : k = K := by
      rcases c with c | ⟨c, _⟩
      · exact c
      · cases e; omega
    rw [if_pos ⟨hK.1, by omega⟩]
    exact Cut.ok hb hn sc n' e c
  · rw [if_neg hK] at e
    have := hf _ _ e
    rw [if_neg (by
      rintro ⟨h1, h2⟩
      rcases c with c | ⟨c1, c2⟩
      · exact hK ⟨h1, by omega⟩
      · omega)]
    exact h sc n' e c

theorem Cut.record {k K b n : Nat} (hk : 1 ≤ k) {found : Bool} {doc : Nat} {buf ext : List Nat} {p : Prop} [Decidable p]
    (hb : buf.length = b) (hn : n ≤ b) {f g : List Nat → Nat → M (List Nat × Nat)}
    (hf : ∀ o m, Grows m (f o m))
    (h : ∀ (buf' : List Nat) (n' : Nat), buf'.length = b → n' ≤ b → Cut k K b (f (buf' ++ ext) n') (g buf' n')) :
    Cut k K b (record found doc (buf ++ ext) n >>= fun z => if p ∧ z.2 = K then .ok (z.1, z.2) else f z.1 z.2)
      (record found doc buf n >>= fun z => if p ∧ z.2 = k then .ok (z.1, z.2) else g z.1 z.2) := by
  unfold Index4.record
  cases found with
  | false => exact Cut.stop hk hb hn (hf _ _) (h _ _ hb hn)
  | true =>
      rw [if_pos rfl, if_pos rfl]
      by_cases hx : n < (buf ++ ext).length
      · rw [wr_ok hx, M.ok_bind]
        rcases Nat.lt_or_ge n b with hlt | hge
        · rw [wr_ok (by omega), M.ok_bind, List.set_append_left _ _ (by omega)]
          have hb' : (buf.set n (id32 doc)).length = b := by rw [List.length_set]; exact hb
          exact Cut.stop hk hb' hlt (hf _ _) (h _ _ hb' hlt)
        · intro sc n' e _
          rw [M.ok_bind] at e
          dsimp only at e
          have hn' : n + 1 ≤ n' := by
            split at e
            · cases e; omega
            · exact hf _ _ _ _ e
          refine ⟨fun h => by omega, fun _ => ?_⟩
          unfold wr
          rw [if_neg (by omega)]
          rfl
      · unfold wr
        rw [if_neg hx]
        exact AC.Cut.error

theorem unionLoop_grows {std : StdLib} {ii : BlkIdx} {r : Range} {k : Nat} : ∀ (fuel : Nat) (q : List Blk) (buf : List Nat) (n : Nat),
    Grows n (unionLoop std ii r k fuel q buf n) := by
  intro fuel
  induction fuel with
  | zero => intro q buf n; exact Grows.error
  | succ fuel ih =>
      intro q buf n
      unfold unionLoop
      cases q with
      | nil => exact .ok (Nat.le_refl _)
      | cons z zs =>
          refine .bind fun (found, z) => ?_
          dsimp only
          have hrec : ∀ m, n ≤ m → ∀ buf, Grows n (if m = k then .ok (buf, m) else do
              let d ← z.docs.next ii.lists
              let q ← restore std d.hasNext ({ z with docs := d } :: zs)
              unionLoop std ii r k fuel q buf m) :=
            fun m hm buf => .ite (.ok hm) (.bind fun d => .bind fun q => (ih q buf m).le hm)
          cases found with
          | false => exact hrec n (Nat.le_refl _) buf
          | true =>
              unfold record
              rw [if_pos rfl]
              cases hw : wr buf n (id32 z.docs.value) with
              | error f => exact Grows.error
              | ok buf' => exact hrec (n + 1) (by omega) buf'

theorem conjLoop_grows {std : StdLib} {ii : BlkIdx} {r : Range} {k : Nat} : ∀ (fuel : Nat) (it : BInter) (q : List Blk) (buf : List Nat) (n : Nat),
    Grows n (conjLoop std ii r k fuel it q buf n) := by
  intro fuel
  induction fuel with
  | zero => intro it q buf n; exact Grows.error
  | succ fuel ih =>
      intro it q buf n
      unfold conjLoop
      refine .ite (.bind fun (checked, found, q) => ?_) (.ok (Nat.le_refl _))
      dsimp only
      have hrec : ∀ m, n ≤ m → ∀ buf, Grows n (if checked = true ∧ m = k then .ok (buf, m) else do
          let it ← it.inc ii
          conjLoop std ii r k fuel it q buf m) :=
        fun m hm buf => .ite (.ok hm) (.bind fun it => (ih it q buf m).le hm)
      cases found with
      | false => exact hrec n (Nat.le_refl _) buf
      | true =>
          unfold record
          rw [if_pos rfl]
          cases hw : wr buf n (id32 it.candidate) with
          | error f => exact Grows.error
          | ok buf' => exact hrec (n + 1) (by omega) buf'

theorem unionLoop_cut {std : StdLib} {ii : BlkIdx} {r : Range} {k K b : Nat} (hk : 1 ≤ k) {ext : List Nat} :
    ∀ (fuel : Nat) (q : List Blk) (buf : List Nat) (n : Nat), buf.length = b → n ≤ b →
    Cut k K b (unionLoop std ii r K fuel q (buf ++ ext) n) (unionLoop std ii r k fuel q buf n) := by
  intro fuel
  induction fuel with
  | zero => intro q buf n hb hn; exact AC.Cut.error
  | succ fuel ih =>
      intro q buf n hb hn
      unfold unionLoop
      cases q with
      | nil => exact .ok hb hn
      | cons z zs =>
          refine .bind fun (found, z) => ?_
          dsimp only
          have := Cut.record (K := K) (ext := ext) (p := True) (found := found) (doc := z.docs.value) hk hb hn
            (f := fun buf n => do
              let d ← z.docs.next ii.lists
              let q ← restore std d.hasNext ({ z with docs := d } :: zs)
              unionLoop std ii r K fuel q buf n)
            (g := fun buf n => do
              let d ← z.docs.next ii.lists
              let q ← restore std d.hasNext ({ z with docs := d } :: zs)
              unionLoop std ii r k fuel q buf n)
            (fun o m => .bind fun d => .bind fun q => unionLoop_grows _ _ _ _)
            (fun buf' n' hb' hn' => .bind fun d => .bind fun q => ih q buf' n' hb' hn')
          simp only [true_and] at this
          exact this

theorem conjLoop_cut {std : StdLib} {ii : BlkIdx} {r : Range} {k K b : Nat} (hk : 1 ≤ k) {ext : List Nat} :
    ∀ (fuel : Nat) (it : BInter) (q : List Blk) (buf : List Nat) (n : Nat), buf.length = b → n ≤ b →
    Cut k K b (conjLoop std ii r K fuel it q (buf ++ ext) n) (conjLoop std ii r k fuel it q buf n) := by
  intro fuel
  induction fuel with
  | zero => intro it q buf n hb hn; exact AC.Cut.error
  | succ fuel ih =>
      intro it q buf n hb hn
      unfold conjLoop
      refine .ite (.bind fun (checked, found, q) => ?_) (.ok hb hn)
      dsimp only
      exact Cut.record (K := K) (ext := ext) (p := checked = true) hk hb hn
        (f := fun buf n => do
          let it ← it.inc ii
          conjLoop std ii r K fuel it q buf n)
        (g := fun buf n => do
          let it ← it.inc ii
          conjLoop std ii r k fuel it q buf n)
        (fun o m => .bind fun it => conjLoop_grows _ _ _ _ _)
        (fun buf' n' hb' hn' => .bind fun it => ih it q buf' n' hb' hn')

theorem conjScores_cut {std : StdLib} {ii : BlkIdx} {pfx : Ids} {r : Range} {k K : Nat} (hk : 1 ≤ k) {buf ext : List Nat} :
    Cut k K buf.length (conjScores std ii pfx r K (buf ++ ext)) (conjScores std ii pfx r k buf) := by
  unfold conjScores
  exact .bind fun q => .ite (unionLoop_cut hk _ _ _ _ rfl (Nat.zero_le _)) (.bind fun it => conjLoop_cut hk _ _ _ _ _ rfl (Nat.zero_le _))

end Index4
end AC
