import Verif.Proofs.Queries
import Verif.Proofs.FcLoss
import Verif.Proofs.Visit
import Verif.Props.Parse
/-!
# Dictionaries whose number of strings is a multiple of 17: the strings that are lost, in the queries
-/
namespace AC
open FC

namespace FC

/-- With an empty last bucket, the pointer to the last bucket is the end of the buckets. -/
theorem buildLoop_last {E : Elem} {P} (g : Good E P) (lcpOf : List Nat → List Nat → Nat) :
    ∀ (nb : Nat) (L : List (List Nat)) (d d' : FC) (b0 : Nat), d.ptrBuckets.length = b0 + 1 →
      d.ptrBuckets[b0]? = some (d.buckets.length % E.ptr) → buildLoop E lcpOf 0 (nb + 1) L d = .ok d' →
      d'.ptrBuckets[b0 + nb]? = some (d'.buckets.length % E.ptr) ∧ d'.buckets.length ≤ d.buckets.length + weight E L
  | 0, [], d, d', b0, _, _, h => by simp [buildLoop] at h
  | 0, s :: L, d, d', b0, hl, hp, h => by
      simp only [buildLoop, buildBucket, M.ok_bind, ne_eq, not_true, if_false] at h
      cases h
      refine ⟨?_, by simp⟩
      dsimp only
      rw [List.getElem?_append_left (by omega)]
      exact hp
  | nb + 1, [], d, d', b0, _, _, h => by simp [buildLoop] at h
  | nb + 1, s :: L, d, d', b0, hl, hp, h => by
      unfold buildLoop at h
      dsimp only at h
      rw [if_pos (by omega)] at h
      by_cases hlen : 16 ≤ L.length
      · rw [buildBucket_eq _ _ _ _ _ _ hlen, M.ok_bind] at h
        dsimp only at h
        have := buildLoop_last g lcpOf nb _ _ d' (b0 + 1) (by simp [hl]) (by simp [← hl]) h
        refine ⟨by rw [show b0 + (nb + 1) = b0 + 1 + nb by omega]; exact this.1, ?_⟩
        have h2 := this.2
        have e1 := encode_length_le g lcpOf (L.take 16) s
        have e2 := weight_append E (L.take 16) (L.drop 16)
        rw [List.take_append_drop] at e2
        rw [weight_cons]
        simp only [List.length_append] at h2
        omega
      · exfalso
        have : ∀ (n : Nat) (prev : List Nat) (A : List (List Nat)) (bk : List Nat), A.length < n →
            buildBucket E lcpOf n prev A bk = .error .oob := by
          intro n
          induction n with
          | zero => intro _ A _ h; omega
          | succ n ih =>
              intro prev A bk h
              cases A with
              | nil => rfl
              | cons a A => exact ih a A _ (by simpa using h)
        rw [this 16 s L _ (by omega), M.error_bind] at h
        cases h

end FC

/-- The dictionary `d` built from the terms `L`, a multiple of 17: it is that of all the terms but the last 16 -/
structure Lossy (d : FC) (L : List Str) : Prop where
  mod : L.length % 17 = 0
  pos : 17 ≤ L.length
  rep : ∃ d', d = { d' with size := L.length } ∧ FC.Rep Elem.byte MAX_CHARS d' (L.take (L.length - 16))
  last : ∃ p, d.ptrBuckets[L.length / 17 - 1]? = some p ∧ d.buckets.length = p + MAX_CHARS

theorem Lossy.build {L : List Str} (v : ValidTerms L) (h : L.length % 17 = 0) (hne : L ≠ []) :
    ∃ d, FcDict.build L = .ok d ∧ Lossy d L := by
  have hpos : 0 < L.length := List.length_pos_iff.mpr hne
  have v' := Props.findable_valid v
  have hK : Props.findable L = L.take (L.length - 16) := by simp [Props.findable, h]
  have hlen : (Props.findable L).length = L.length - 16 := by simp [Props.findable, h]
  obtain ⟨d, hb, R⟩ := FcDict.build_rep v' (Nat.le_refl _) v'.len (by rw [hlen]; omega)
  have hb' : FcDict.build L = .ok { d with size := L.length } := by
    rw [FcDict.build, FC.build_mod17 h hne]
    rw [FcDict.build] at hb
    rw [Props.findable, if_pos h] at hb
    rw [hb]; rfl
  refine ⟨_, hb', ⟨h, by omega, ⟨d, rfl, by rw [← hK]; exact R⟩, ?_⟩⟩
  rw [FcDict.build, FC.build] at hb'
  have htl : FC.tail L.length = 0 := by simp only [FC.tail]; split <;> omega
  rw [htl] at hb'
  obtain ⟨nb, hnb⟩ : ∃ nb, (L.length + 16) / 17 = nb + 1 := ⟨L.length / 17 - 1, by omega⟩
  rw [hnb] at hb'
  cases hd1 : FC.buildLoop Elem.byte FC.lcp 0 (nb + 1) L
      { size := L.length, ptrHeaders := [0], ptrBuckets := [0], headers := [], buckets := [] } with
  | error e => rw [hd1, M.error_bind] at hb'; cases hb'
  | ok d1 =>
      rw [hd1, M.ok_bind] at hb'
      have := FC.buildLoop_last good_byte FC.lcp nb L _ d1 0 rfl rfl hd1
      have e1 : d.ptrBuckets = d1.ptrBuckets := by
        have := congrArg (fun x : M FC => match x with | .ok x => x.ptrBuckets | _ => []) hb'
        exact this.symm
      have e2 : d.buckets = d1.buckets ++ List.replicate (Elem.byte.cap * Elem.byte.width) 0 := by
        have := congrArg (fun x : M FC => match x with | .ok x => x.buckets | _ => []) hb'
        exact this.symm
      have hw : FC.weight Elem.byte L < Elem.byte.ptr := FcDict.weight_lt v
      refine ⟨d1.buckets.length, ?_, ?_⟩
      · dsimp only
        rw [e1, show L.length / 17 - 1 = 0 + nb by omega, this.1, Nat.mod_eq_of_lt]
        have := this.2
        simp at this; omega
      · dsimp only
        rw [e2]; simp [Elem.byte]

theorem Lossy.locates {d : FC} {L : List Str} (v : ValidTerms L) (h : Lossy d L) : Locates d (L.take (L.length - 16)) FcDict.bufSize := by
  obtain ⟨d', rfl, R⟩ := h.rep
  have hmod := h.mod
  have hpos := h.pos
  have v' := Props.findable_valid v
  rw [Props.findable, if_pos hmod] at v'
  intro t ht buf hb
  rw [FcDict.locate_size (by
    rw [R.size, List.length_take]; simp only [FC.tail]; (repeat' split) <;> omega)]
  exact Locates.of_rep v' R (by decide) t ht buf hb

theorem FcDict.locatePrefix_size {d : FC} {n : Nat} (h : FC.tail n = FC.tail d.size) {p : Str} (hp : p ≠ []) (buf : Str) :
    FcDict.locatePrefix { d with size := n } p buf = FcDict.locatePrefix d p buf := by
  have hl : ∀ f k lo hi, bucketsLoop { d with size := n } p f k lo hi = bucketsLoop d p f k lo hi := by
    intro f k
    induction k with
    | zero => intros; rfl
    | succ k ih =>
        intro lo hi
        simp only [bucketsLoop, ih]
        rfl
  have hb : locateBuckets { d with size := n } p = locateBuckets d p := by
    simp only [locateBuckets, hl]
    rfl
  have hp' : p.length ≠ 0 := by simpa using hp
  simp only [locatePrefix, if_neg hp', hb, beginOffset, leftLocate, rightLocate, FC.scan_size h, FC.bucketSize_size h]
  rfl

/-- What `locate_prefix` computes in such a dictionary -/
theorem Lossy.locatePrefix {d : FC} {L : List Str} (v : ValidTerms L) (h : Lossy d L) {p : Str} (hp : IsText p) (buf : Str)
    (hbuf : buf.length = FcDict.bufSize) :
    ∃ r buf', FcDict.locatePrefix d p buf = .ok (r, buf') ∧ buf'.length = buf.length ∧
      ((r = Range.invalid ∧ ∀ i (hi : i < L.length), p <+: L[i] → (i = 0 ∧ p ≠ [] ∧ p ≠ L[i]) ∨ (p ≠ [] ∧ L.length - 16 ≤ i)) ∨
       (r.b ≤ r.e ∧ r.e < L.length ∧ ∀ i (hi : i < L.length),
          (r.b ≤ i ∧ i ≤ r.e) ↔ (p <+: L[i] ∧ ¬ (i = 0 ∧ p ≠ [] ∧ p ≠ L[i]) ∧ (p = [] ∨ i < L.length - 16)))) := by
  obtain ⟨d', rfl, R⟩ := h.rep
  have hmod := h.mod
  have hpos := h.pos
  by_cases hp0 : p = []
  · subst hp0
    refine ⟨⟨0, L.length - 1⟩, buf, ?_, rfl, Or.inr ⟨by simp, by dsimp only; omega, ?_⟩⟩
    · simp only [FcDict.locatePrefix]
      rw [if_pos (by rfl), if_neg (by omega)]
    · intro i hi; simp; omega
  · have v' := Props.findable_valid v
    rw [Props.findable, if_pos hmod] at v'
    rw [FcDict.locatePrefix_size (by
      rw [R.size, List.length_take]; simp only [FC.tail]; (repeat' split) <;> omega) hp0]
    obtain ⟨r, buf', l1, l2, l3⟩ := FcDict.locatePrefix_exact v' R hp buf (by rw [hbuf]; decide)
    refine ⟨r, buf', l1, l2, ?_⟩
    rcases l3 with ⟨e1, e2⟩ | ⟨e1, e2, e3⟩
    · refine Or.inl ⟨e1, ?_⟩
      intro i hi hpi
      by_cases hlt : i < L.length - 16
      · have := e2 i (by simp; omega) (by rw [List.getElem_take]; exact hpi)
        rw [List.getElem_take] at this
        exact Or.inl this
      · exact Or.inr ⟨hp0, by omega⟩
    · rw [List.length_take] at e2
      refine Or.inr ⟨e1, by omega, ?_⟩
      intro i hi
      by_cases hlt : i < L.length - 16
      · have := e3 i (by simp; omega)
        rw [List.getElem_take] at this
        rw [this]
        simp [hlt]
      · constructor
        · intro h; omega
        · rintro ⟨_, _, h | h⟩
          · exact absurd h hp0
          · exact absurd h hlt

/-! ## Decoding a lost term -/

theorem readElems_err {E : Elem} {b : List Nat} {o n : Nat} {e : Fault} (h : readElems E b o n = .error e) : e = .oob := by
  unfold readElems at h
  split at h
  · cases h
  · cases h; rfl

theorem rd_err {α : Type} {l : List α} {i : Nat} {e : Fault} (h : rd l i = .error e) : e = .oob := by
  unfold rd at h
  split at h <;> cases h
  rfl

theorem wr_err {α : Type} {l : List α} {i : Nat} {x : α} {e : Fault} (h : wr l i x = .error e) : e = .oob := by
  unfold wr at h
  split at h <;> cases h
  rfl

theorem memcpy_err {α : Type} {d : List α} {a : Nat} {s : List α} {b n : Nat} {e : Fault} (h : memcpy d a s b n = .error e) : e = .oob := by
  unfold memcpy at h
  split at h <;> cases h
  rfl

/-- no fault, or an access out of bounds -/
def OobOnly {α : Type} (a : M α) : Prop := ∀ e, a = .error e → e = .oob

theorem OobOnly.ok {α : Type} (x : α) : OobOnly (.ok x : M α) := fun _ h => by cases h

theorem OobOnly.bind {α β : Type} {a : M α} {f : α → M β} (h : OobOnly a) (hf : ∀ x, OobOnly (f x)) : OobOnly (a >>= f) := by
  cases a with
  | error e => intro e' he; cases he; exact h e rfl
  | ok x => exact hf x

theorem decode_oobOnly (E : Elem) (d : FC) (cur : Nat) (out : List Nat) (base : Nat) : OobOnly (decode E d cur out base) := by
  unfold decode
  refine OobOnly.bind (fun _ h => rd_err h) fun l => OobOnly.bind (fun _ h => rd_err h) fun sl => ?_
  refine OobOnly.bind (fun _ h => readElems_err h) fun cs => OobOnly.bind (fun _ h => memcpy_err h) fun o => OobOnly.ok _

theorem extractLoop_oobOnly (E : Elem) (d : FC) : ∀ (n cur : Nat) (out : List Nat) (base len : Nat), OobOnly (extractLoop E d n cur out base len)
  | 0, _, _, _, _ => OobOnly.ok _
  | n + 1, cur, out, base, len => by
      unfold extractLoop
      exact OobOnly.bind (decode_oobOnly _ _ _ _ _) fun r => extractLoop_oobOnly E d n _ _ _ _

theorem header_oobOnly (d : FC) (b : Nat) : OobOnly (d.header b) := by
  unfold FC.header
  refine OobOnly.bind (fun _ h => rd_err h) fun l => OobOnly.bind (fun _ h => rd_err h) fun sl => ?_
  intro e h
  split at h <;> cases h
  rfl

theorem FcDict.extract_oobOnly (d : FC) (id : Nat) (out : Str) (base : Nat) : OobOnly (FcDict.extract d id out base) := by
  unfold FcDict.extract
  split
  · intro e h; cases h; rfl
  · unfold extractAt
    exact OobOnly.bind (header_oobOnly d _) fun h => OobOnly.bind (fun _ h => memcpy_err h) fun o =>
      OobOnly.bind (fun _ h => rd_err h) fun c => extractLoop_oobOnly _ _ _ _ _ _ _

theorem error_of {α : Type} {a : M α} (h : OobOnly a) (hn : ∀ x, a ≠ .ok x) : a = .error .oob := by
  cases a with
  | error e => rw [h e rfl]
  | ok x => exact absurd rfl (hn x)

/-- A lost term cannot be decoded: the copy of a fixed number of characters leaves the buckets. -/
theorem Lossy.extract_lost {d : FC} {L : List Str} (h : Lossy d L) {id : Nat} (h1 : L.length - 16 < id) (h2 : id ≤ L.length) (out : Str) (base : Nat) :
    FcDict.extract d id out base = .error .oob := by
  apply error_of (FcDict.extract_oobOnly _ _ _ _)
  intro x hx
  obtain ⟨p, hp, hl⟩ := h.last
  have hmod := h.mod
  have hpos := h.pos
  unfold FcDict.extract at hx
  rw [if_neg (by omega)] at hx
  unfold extractAt at hx
  obtain ⟨hd, _, hx⟩ := bind_ok hx
  obtain ⟨o, _, hx⟩ := bind_ok hx
  rw [show (id - 1) / 17 = L.length / 17 - 1 by omega, rd_of_getElem? hp, M.ok_bind] at hx
  obtain ⟨k, hk⟩ : ∃ k, (id - 1) % 17 = k + 1 := ⟨(id - 1) % 17 - 1, by omega⟩
  rw [hk] at hx
  unfold extractLoop decode at hx
  obtain ⟨q, hq, hx⟩ := bind_ok hx
  obtain ⟨_, _, hq⟩ := bind_ok hq
  obtain ⟨_, _, hq⟩ := bind_ok hq
  obtain ⟨cs, hcs, hq⟩ := bind_ok hq
  unfold readElems at hcs
  rw [if_neg (by rw [hl]; simp [Elem.byte])] at hcs
  cases hcs

theorem writeSpace_oobOnly (l : Bool) (data : Str) (off : Nat) : OobOnly (writeSpace l data off) := by
  unfold writeSpace
  split
  · exact OobOnly.ok _
  · exact OobOnly.bind (fun _ h => wr_err h) fun _ => OobOnly.ok _

theorem Lossy.writeTerms_lost {d : FC} {L : List Str} (h : Lossy d L) {term : Nat → M Nat} : ∀ (ts : Ids) (j : Nat) (data : Str) (off : Nat),
    IdsIn L ts → (∃ t ∈ ts, L.length - 16 < t) → (∀ i (h : i < ts.length), term (j + i) = .ok ts[i]) →
    writeTerms d term ts.length j data off = .error .oob
  | [], j, data, off, hin, hlost, hterm => by simp at hlost
  | t :: ts, j, data, off, hin, hlost, hterm => by
      have h0 : term j = .ok t := hterm 0 (by simp)
      rw [List.length_cons, writeTerms, h0, M.ok_bind]
      by_cases ht : L.length - 16 < t
      · rw [h.extract_lost ht (hin t (by simp)).2, M.error_bind]
      · cases he : FcDict.extract d t data off with
        | error e => rw [FcDict.extract_oobOnly _ _ _ _ _ he, M.error_bind]
        | ok r =>
            rw [M.ok_bind]
            dsimp only
            cases hw : writeSpace (ts.length == 0) r.1 (off + r.2) with
            | error e => rw [writeSpace_oobOnly _ _ _ _ hw, M.error_bind]
            | ok r' =>
                rw [M.ok_bind]
                refine h.writeTerms_lost ts (j + 1) _ _ (fun x hx => hin x (List.mem_cons_of_mem _ hx)) ?_ ?_
                · obtain ⟨t', ht', hl⟩ := hlost
                  rcases List.mem_cons.mp ht' with rfl | ht'
                  · exact absurd hl ht
                  · exact ⟨t', ht', hl⟩
                · intro i hi
                  have := hterm (i + 1) (by simpa using hi)
                  rw [show j + 1 + i = j + (i + 1) by omega]; simpa using this

theorem writeTerms_oobOnly {d : FC} {term : Nat → M Nat} : ∀ (ts : Ids) (j : Nat) (data : Str) (off : Nat),
    (∀ i (h : i < ts.length), term (j + i) = .ok ts[i]) → OobOnly (writeTerms d term ts.length j data off)
  | [], j, data, off, hterm => OobOnly.ok _
  | t :: ts, j, data, off, hterm => by
      have h0 : term j = .ok t := hterm 0 (by simp)
      rw [List.length_cons, writeTerms, h0, M.ok_bind]
      refine OobOnly.bind (FcDict.extract_oobOnly _ _ _ _) fun r => OobOnly.bind (writeSpace_oobOnly _ _ _) fun r' => writeTerms_oobOnly ts _ _ _ ?_
      intro i hi
      have := hterm (i + 1) (by simpa using hi)
      rw [show j + 1 + i = j + (i + 1) by omega]; simpa using this

theorem bytes_push (p : Pool) (data : Str) (off : Nat) : Pool.bytes { p with data := data, offsets := p.offsets ++ [off] } = .ok off := by
  unfold Pool.bytes
  simp

theorem Lossy.extractStrings_lost {d : FC} {L : List Str} (h : Lossy d L) {src : Nat → M (Nat × (Nat → M Nat))} :
    ∀ (tss : List Ids) (i : Nat) (p : Pool), (∃ off, p.bytes = .ok off) → (∀ ts ∈ tss, IdsIn L ts) → (∃ ts ∈ tss, ∃ t ∈ ts, L.length - 16 < t) →
    (∀ j (h : j < tss.length), ∃ term, src (i + j) = .ok ((tss[j]).length, term) ∧
      ∀ u (hu : u < (tss[j]).length), term u = .ok (tss[j])[u]) →
    extractStrings d src tss.length i p = .error .oob
  | [], i, p, hp, hin, hlost, hsrc => by simp at hlost
  | ts :: tss, i, p, hp, hin, hlost, hsrc => by
      obtain ⟨off, hp⟩ := hp
      obtain ⟨term, s1, s2⟩ := hsrc 0 (by simp)
      simp only [Nat.add_zero, List.getElem_cons_zero] at s1 s2
      rw [List.length_cons, extractStrings, s1, M.ok_bind]
      simp only [hp, M.ok_bind]
      by_cases hl : ∃ t ∈ ts, L.length - 16 < t
      · rw [h.writeTerms_lost ts 0 _ _ (hin ts (by simp)) hl (by simpa using s2), M.error_bind]
      · cases hw : writeTerms d term ts.length 0 p.data off with
        | error e => rw [writeTerms_oobOnly ts 0 p.data off (by simpa using s2) e hw, M.error_bind]
        | ok r =>
            rw [M.ok_bind]
            refine h.extractStrings_lost tss (i + 1) _ ⟨_, bytes_push _ _ _⟩ (fun x hx => hin x (List.mem_cons_of_mem _ hx)) ?_ ?_
            · obtain ⟨ts', hts', hl'⟩ := hlost
              rcases List.mem_cons.mp hts' with rfl | hts'
              · exact absurd hl' hl
              · exact ⟨ts', hts', hl'⟩
            · intro j hj
              have := hsrc (j + 1) (by simpa using hj)
              rw [show i + 1 + j = i + (j + 1) by omega]; simpa using this

end AC
