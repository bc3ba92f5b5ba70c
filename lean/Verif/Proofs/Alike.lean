import Verif.Proofs.Pool
/-!
# Decoding faults or not regardless of the contents of the array that is written
-/
namespace AC

/-- the same fault, or related values -/
def Alike {α β : Type} (f : α → β → Prop) (a : M α) (b : M β) : Prop :=
  (∃ e, a = .error e ∧ b = .error e) ∨ ∃ x y, a = .ok x ∧ b = .ok y ∧ f x y

theorem Alike.ok {α β : Type} {f : α → β → Prop} {x : α} {y : β} (h : f x y) : Alike f (.ok x) (.ok y) := Or.inr ⟨x, y, rfl, rfl, h⟩

theorem Alike.bind {α β γ δ : Type} {f : α → β → Prop} {g : γ → δ → Prop} {a : M α} {b : M β} {u : α → M γ} {v : β → M δ} (h : Alike f a b)
    (hb : ∀ x y, f x y → Alike g (u x) (v y)) : Alike g (a >>= u) (b >>= v) := by
  rcases h with ⟨e, rfl, rfl⟩ | ⟨x, y, rfl, rfl, hf⟩
  · exact Or.inl ⟨e, rfl, rfl⟩
  · exact hb x y hf

theorem Alike.same {α : Type} (a : M α) : Alike (fun x y => x = y) a a := by
  cases a with
  | error e => exact Or.inl ⟨e, rfl, rfl⟩
  | ok x => exact Or.inr ⟨x, x, rfl, rfl, rfl⟩

theorem memcpy_alike {α : Type} {d1 d2 : List α} (h : d1.length = d2.length) (doff : Nat) (src : List α) (soff n : Nat) :
    Alike (fun x y => x.length = y.length) (memcpy d1 doff src soff n) (memcpy d2 doff src soff n) := by
  unfold memcpy
  rw [h]
  split
  · refine Alike.ok ?_
    simp [h]
  · exact Or.inl ⟨_, rfl, rfl⟩

theorem wr_alike {α : Type} {d1 d2 : List α} (h : d1.length = d2.length) (i : Nat) (x : α) :
    Alike (fun x y => x.length = y.length) (wr d1 i x) (wr d2 i x) := by
  unfold wr
  rw [h]
  split
  · exact Alike.ok (by simp [h])
  · exact Or.inl ⟨_, rfl, rfl⟩

/-- arrays of the same length, and the same second component -/
abbrev SameLen (x y : List Nat × Nat) : Prop := x.1.length = y.1.length ∧ x.2 = y.2

theorem FC.extractLoop_alike (E : Elem) (d : FC) (base : Nat) : ∀ (n cur : Nat) (o1 o2 : List Nat) (len : Nat), o1.length = o2.length →
    Alike SameLen (FC.extractLoop E d n cur o1 base len) (FC.extractLoop E d n cur o2 base len)
  | 0, cur, o1, o2, len, h => Alike.ok ⟨h, rfl⟩
  | n + 1, cur, o1, o2, len, h => by
      unfold FC.extractLoop
      refine Alike.bind (f := fun x y => x.1.length = y.1.length ∧ x.2 = y.2) ?_ ?_
      · unfold FC.decode
        refine Alike.bind (Alike.same _) ?_
        rintro l _ rfl
        refine Alike.bind (Alike.same _) ?_
        rintro sl _ rfl
        refine Alike.bind (Alike.same _) ?_
        rintro cs _ rfl
        refine Alike.bind (memcpy_alike h _ _ _ _) ?_
        intro x y hxy
        exact Alike.ok ⟨hxy, rfl⟩
      · rintro ⟨x1, x2, x3⟩ ⟨y1, y2, y3⟩ ⟨h1, h2⟩
        simp only [Prod.mk.injEq] at h1 h2
        obtain ⟨rfl, rfl⟩ := h2
        exact FC.extractLoop_alike E d base n _ _ _ _ h1

theorem FcDict.extract_alike (d : FC) (id : Nat) {o1 o2 : Str} (h : o1.length = o2.length) (base : Nat) :
    Alike SameLen (FcDict.extract d id o1 base) (FcDict.extract d id o2 base) := by
  unfold FcDict.extract FC.extractAt
  split
  · exact Or.inl ⟨_, rfl, rfl⟩
  refine Alike.bind (Alike.same _) ?_
  rintro hd _ rfl
  refine Alike.bind (memcpy_alike h _ _ _ _) ?_
  intro x y hxy
  refine Alike.bind (Alike.same _) ?_
  rintro cur _ rfl
  exact FC.extractLoop_alike _ _ _ _ _ _ _ _ hxy

theorem writeSpace_alike (last : Bool) {o1 o2 : Str} (h : o1.length = o2.length) (off : Nat) :
    Alike SameLen (writeSpace last o1 off) (writeSpace last o2 off) := by
  unfold writeSpace
  cases last with
  | true => exact Alike.ok ⟨h, rfl⟩
  | false =>
      refine Alike.bind (wr_alike h _ _) ?_
      intro x y hxy
      exact Alike.ok ⟨hxy, rfl⟩

theorem writeTerms_alike (d : FC) {term1 term2 : Nat → M Nat} : ∀ (n j : Nat) (o1 o2 : Str) (off : Nat), o1.length = o2.length →
    (∀ i, j ≤ i → i < j + n → term1 i = term2 i) → Alike SameLen (writeTerms d term1 n j o1 off) (writeTerms d term2 n j o2 off)
  | 0, j, o1, o2, off, h, _ => Alike.ok ⟨h, rfl⟩
  | n + 1, j, o1, o2, off, h, ht => by
      unfold writeTerms
      rw [ht j (by omega) (by omega)]
      refine Alike.bind (Alike.same _) ?_
      rintro t _ rfl
      refine Alike.bind (FcDict.extract_alike d t h off) ?_
      rintro ⟨x1, x2⟩ ⟨y1, y2⟩ ⟨h1, h2⟩
      simp only at h1 h2
      subst h2
      refine Alike.bind (writeSpace_alike _ h1 _) ?_
      rintro ⟨x1', x2'⟩ ⟨y1', y2'⟩ ⟨h1', h2'⟩
      simp only at h1' h2'
      subst h2'
      exact writeTerms_alike d n (j + 1) _ _ _ h1' (fun i a b => ht i (by omega) (by omega))

/-- two ways to read the same terms -/
def SrcOf (src : Nat → M (Nat × (Nat → M Nat))) (tss : List Ids) : Prop :=
  ∀ j (h : j < tss.length), ∃ term, src j = .ok ((tss[j]).length, term) ∧ ∀ u (hu : u < (tss[j]).length), term u = .ok (tss[j])[u]

theorem extractStrings_alike (d : FC) {src1 src2 : Nat → M (Nat × (Nat → M Nat))} {tss : List Ids} (h1 : SrcOf src1 tss) (h2 : SrcOf src2 tss) :
    ∀ (n i : Nat) (p1 p2 : Pool), i + n ≤ tss.length → p1.data.length = p2.data.length → p1.offsets = p2.offsets →
    Alike (fun p1 p2 => p1.offsets = p2.offsets) (extractStrings d src1 n i p1) (extractStrings d src2 n i p2)
  | 0, i, p1, p2, hi, hd, ho => Alike.ok ho
  | n + 1, i, p1, p2, hi, hd, ho => by
      unfold extractStrings
      obtain ⟨t1, a1, b1⟩ := h1 i (by omega)
      obtain ⟨t2, a2, b2⟩ := h2 i (by omega)
      rw [a1, a2, M.ok_bind, M.ok_bind]
      dsimp only
      have hb : p1.bytes = p2.bytes := by unfold Pool.bytes; rw [ho]
      rw [hb]
      refine Alike.bind (Alike.same _) ?_
      rintro off _ rfl
      refine Alike.bind (writeTerms_alike d _ 0 _ _ off hd (fun u _ hu => by rw [b1 u (by omega), b2 u (by omega)])) ?_
      rintro ⟨x1, x2⟩ ⟨y1, y2⟩ ⟨e1, e2⟩
      simp only at e1 e2
      subst e2
      exact extractStrings_alike d h1 h2 n (i + 1) _ _ (by omega) e1 (by simp only [ho])

/-- reading the terms from a list -/
def listSource (tss : List Ids) (i : Nat) : M (Nat × (Nat → M Nat)) := do
  let ts ← rd tss i
  .ok (ts.length, fun j => rd ts j)

theorem listSource_src (tss : List Ids) : SrcOf (listSource tss) tss := by
  intro j h
  refine ⟨fun u => rd tss[j] u, ?_, fun u hu => rd_ok hu⟩
  unfold listSource
  rw [rd_ok h, M.ok_bind]

/-- whether the texts of the completions can be decoded into a pool without writing outside of it -/
def fitsPool (d : FC) (tss : List Ids) : Bool := (extractStrings d (listSource tss) tss.length 0 Pool.fresh.init).isOk

theorem fitsPool_spec {d : FC} {src : Nat → M (Nat × (Nat → M Nat))} {tss : List Ids} (h : SrcOf src tss) {p : Pool}
    (hd : p.data.length = POOL_SIZE) (ho : p.offsets = [0]) :
    (extractStrings d src tss.length 0 p).isOk = fitsPool d tss := by
  have := extractStrings_alike d h (listSource_src tss) tss.length 0 p Pool.fresh.init (by omega)
    (by rw [hd]; exact List.length_replicate.symm) ho
  unfold fitsPool
  rcases this with ⟨e, e1, e2⟩ | ⟨x, y, e1, e2, _⟩
  · rw [e1, e2]
  · rw [e1, e2]; rfl

end AC
