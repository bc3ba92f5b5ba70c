import Verif.Spec.Space
import Verif.Proofs.SpaceRmq
import Verif.Proofs.InvertedIndex
import Verif.Proofs.ForwardIndex
/-!
# The sizes of the indexes
-/
namespace AC

theorem lowWidth_eq {n u : Nat} : EF.lowWidth n u = Spec.lowDigits n u := by
  unfold EF.lowWidth Spec.lowDigits msbNat
  split
  · rfl
  · rename_i h
    by_cases hn : n = 0
    · subst hn; simp
    · have : u / n = 0 := by
        apply Classical.byContradiction
        intro hc
        exact h ⟨hn, hc⟩
      rw [this]; rfl

theorem toWords_getLast? (xs : List Nat) : (toWords xs).getLast? = xs.getLast?.map (BitVec.ofNat 64) := by
  unfold toWords; rw [List.getLast?_map]

theorem toWords_sorted_space {xs : List Nat} (hs : xs.Pairwise (· ≤ ·)) (hx : ∀ x ∈ xs, x < 2 ^ 64) :
    (toWords xs).Pairwise (fun a b => a.toNat ≤ b.toNat) := by
  unfold toWords
  rw [List.pairwise_map]
  refine List.Pairwise.imp_of_mem ?_ hs
  intro a b ha hb hab
  rw [BitVec.toNat_ofNat, BitVec.toNat_ofNat, Nat.mod_eq_of_lt (hx a ha), Nat.mod_eq_of_lt (hx b hb)]
  exact hab

/-- an Elias-Fano sequence: its size, with `o` positions stored apart -/
theorem EF.words_bytes {xs : List Nat} {u : Nat} (hs : xs.Pairwise (· ≤ ·)) (hu : xs.getLast? = some u) (hx : ∀ x ∈ xs, x < 2 ^ 64)
    {e : EF} (h : EF.build (toWords xs) = .ok e) :
    ∃ o, e.bytes = Spec.sortedBytes xs.length u o ∧ 64 * o ≤ Spec.unary xs.length u ∧ (Spec.unary xs.length u ≤ 65536 → o = 0) := by
  have hl : (toWords xs).length = xs.length := by simp [toWords]
  have hum : u ∈ xs := List.mem_of_getLast? hu
  have hu' : (BitVec.ofNat 64 u).toNat = u := by rw [BitVec.toNat_ofNat, Nat.mod_eq_of_lt (hx u hum)]
  obtain ⟨h1, _, h3, h4, h5, h6, h7, h8, h9, h10⟩ := EF.build_sizes (toWords_sorted_space hs hx)
    (u := BitVec.ofNat 64 u) (by rw [toWords_getLast?, hu]; rfl) h
  rw [hl, hu', lowWidth_eq] at h1
  rw [hl, hu', h1] at h3
  rw [hl] at h5 h6 h7 h8
  have h3' : e.high.size = Spec.unary xs.length u := h3
  refine ⟨e.d1.over.length, ?_, by omega, fun hh => by rw [h10 (by omega)]; rfl⟩
  unfold EF.bytes DA.bytes BV.bytes vecBytes Spec.sortedBytes Spec.packed
  rw [h4, h5, h7, h8, h1, ← h3']
  unfold wordsFor ceilDiv
  simp only [Nat.mul_one]
  omega

theorem unary_le {n u : Nat} (hn : n ≠ 0) : Spec.unary n u ≤ 3 * n := by
  unfold Spec.unary
  have := EF.high_le (u := u) hn
  rw [lowWidth_eq] at this
  omega

theorem sortedBytes_le {n u o : Nat} (hn : n ≠ 0) (ho : 64 * o ≤ Spec.unary n u) :
    128 * Spec.sortedBytes n u o ≤ n * (16 * Spec.lowDigits n u + 105) + 12640 := by
  have := unary_le (u := u) hn
  unfold Spec.sortedBytes Spec.packed
  rw [Nat.mul_add n, Nat.mul_left_comm]
  generalize n * Spec.lowDigits n u = nl
  omega

namespace CEF

theorem lowerBits_eq {n u : Nat} (hn : n ≠ 0) (hu : n ≤ u) : lowerBits u n = Spec.lowDigits n u := by
  unfold lowerBits Spec.lowDigits msbNat
  split
  · rfl
  · have : u = n := by omega
    rw [this, Nat.div_self (by omega)]
    rfl

end CEF

theorem offsets_last {base u n : Nat} (hn : n ≠ 0) (hu : n ≤ u) : (CEF.offsets base u n).last = base + Spec.setBits u n := by
  unfold CEF.offsets
  dsimp only
  rw [CEF.lowerBits_eq hn hu]
  unfold Spec.setBits
  dsimp only
  have hc : ceilLog2 (n + u / 2 ^ Spec.lowDigits n u + 2) = Spec.digits (n + u / 2 ^ Spec.lowDigits n u + 2 - 1) := by
    generalize u / 2 ^ Spec.lowDigits n u = H
    unfold ceilLog2 Spec.digits msbNat
    rw [if_pos (by omega)]
  rw [hc, Nat.add_mul]
  unfold CEF.logSampling0 CEF.logSampling1
  rw [show (2 ^ 9 : Nat) = 512 from rfl, show (2 ^ 8 : Nat) = 256 from rfl]
  omega

theorem listEnd_eq {p u : Nat} {vs : List Nat} (h : CEF.Valid u vs) (hu : vs.length ≤ u) (hl : vs.length < 2 ^ 64) :
    listEnd p u vs = p + Spec.listBits u vs.length := by
  have hn : vs.length ≠ 0 := fun hc => h.ne (List.length_eq_zero_iff.mp hc)
  unfold listEnd
  rw [offsets_last hn hu]
  unfold Spec.listBits gammaLen
  rw [lenW_add, BitVec.toNat_ofNat, Nat.mod_eq_of_lt hl]
  unfold msbNat
  omega

theorem sorted_length_le {u : Nat} : ∀ {l : List Nat} {k : Nat}, l.Pairwise (· < ·) → (∀ x ∈ l, k ≤ x ∧ x < u) → k ≤ u → l.length + k ≤ u
  | [], _, _, _, h => by simpa using h
  | a :: l, k, hs, hx, hk => by
      rw [List.pairwise_cons] at hs
      have ha := hx a (List.mem_cons_self ..)
      have := sorted_length_le (l := l) (k := a + 1) hs.2 (fun x hx' => ⟨hs.1 x hx', (hx x (List.mem_cons_of_mem _ hx')).2⟩) (by omega)
      rw [List.length_cons]
      omega

namespace InvBuilder

/-- the bits of the lists one after the other -/
theorem add_size {b : InvBuilder} {u : Nat} {done : List (List Nat)} {init l : List Nat} (h : b.Inv u done init) (hv : CEF.Valid u l)
    (hu : l.length ≤ u) (hl : l.length < 2 ^ 64) {b' : InvBuilder} (ha : b.add l = .ok b') :
    b'.bvb.size = b.bvb.size + Spec.listBits u l.length := by
  obtain ⟨b1, b2, e1, e2, e3, e4, _⟩ := writeList_spec b.bvb u l h.wf hv
  unfold add at ha
  obtain ⟨x, _, ha⟩ := bind_ok ha
  rw [e1, M.ok_bind, h.docs, e2, M.ok_bind] at ha
  cases ha
  dsimp only
  rw [e4, listEnd_eq hv hu hl]

theorem addAll_size {u : Nat} (hu32 : u < 2 ^ 32) : ∀ (ls : List (List Nat)) (b b' : InvBuilder) (done : List (List Nat)) (init : List Nat), b.Inv u done init →
    (∀ l ∈ ls, CEF.Valid u l ∧ l.length ≤ u) → b.addAll ls = .ok b' →
    b'.bvb.WF ∧ b'.bvb.size = b.bvb.size + (ls.map fun l => Spec.listBits u l.length).sum
  | [], b, b', _, _, h, _, ha => by
      unfold addAll at ha
      cases ha
      exact ⟨h.wf, by simp⟩
  | l :: ls, b, b', done, init, h, hv, ha => by
      unfold addAll at ha
      obtain ⟨b1, h1, ha⟩ := bind_ok ha
      obtain ⟨v1, v2⟩ := hv l (List.mem_cons_self ..)
      have hs := add_size h v1 v2 (by omega) h1
      obtain ⟨b1', h1', hi⟩ := add_spec h v1
      obtain rfl : b1 = b1' := by rw [h1] at h1'; cases h1'; rfl
      obtain ⟨r1, r2⟩ := addAll_size hu32 ls b1 b' _ _ hi (fun l hl => hv l (List.mem_cons_of_mem _ hl)) ha
      refine ⟨r1, ?_⟩
      rw [r2, hs, List.map_cons, List.sum_cons]
      omega

theorem build_bytes {u : Nat} {lists : List (List Nat)} (h : InvLists u lists) {b : InvBuilder} {after : W} {ii : InvIdx}
    (hb : mk' u lists = .ok b) (hi : b.build after = .ok ii) :
    ii.dataBytes = 16 + Spec.packed ((lists.map fun l => Spec.listBits u l.length).sum) 1 ∧
      ∃ last o, last ≤ (lists.map fun l => Spec.listBits u l.length).sum ∧ ii.pointerBytes = Spec.sortedBytes lists.length last o ∧
        64 * o ≤ Spec.unary lists.length last ∧ ii.bytes = 16 + ii.pointerBytes + ii.dataBytes := by
  have hv : ∀ l ∈ lists, CEF.Valid u l ∧ l.length ≤ u := by
    intro l hl
    refine ⟨h.valid hl, ?_⟩
    obtain ⟨_, e2, e3⟩ := h.each l hl
    exact sorted_length_le (k := 0) e2 (fun x hx => ⟨Nat.zero_le _, e3 x hx⟩) (Nat.zero_le _)
  have hstart : Inv ⟨0, u, [0], [], BVB.empty⟩ u [] [] := by
    refine ⟨?_, rfl, rfl, rfl, rfl, rfl, by simp, by intro i l hl; simp at hl, by simp [BVB.empty]⟩
    exact BVB.empty_wf
  obtain ⟨b', init, e1, e2⟩ := addAll_spec lists _ [] [] hstart (fun l hl => (hv l hl).1)
  obtain ⟨r1, r2⟩ := addAll_size h.univ lists _ b' [] [] hstart hv e1
  have r2' : b'.bvb.size = (lists.map fun l => Spec.listBits u l.length).sum := by rw [r2]; simp [BVB.empty]
  unfold mk' at hb
  rw [e1, M.ok_bind] at hb
  cases hb
  have hinit : b'.pointers.dropLast = init := by rw [e2.ptrs]; simp
  unfold build at hi
  dsimp only at hi
  rw [hinit] at hi
  obtain ⟨p, h1, hi⟩ := bind_ok hi
  cases hi
  have hs : init.Pairwise (· ≤ ·) ∧ ∀ x ∈ init, x ≤ b'.bvb.size := by
    have hs := e2.sorted
    rw [e2.ptrs, List.pairwise_append] at hs
    exact ⟨hs.1, fun x hx => hs.2.2 x hx _ (by simp)⟩
  have hlen : init.length = lists.length := by rw [e2.len]; simp
  have hne : init ≠ [] := by
    intro hc
    rw [hc] at hlen
    exact h.ne (List.length_eq_zero_iff.mp hlen.symm)
  have hsz := e2.size
  have hcnt := count_le_sum (lists := lists) (fun l hl => (h.each l hl).1)
  have ht := h.total
  rw [List.nil_append] at hsz
  obtain ⟨o, o1, o2, o3⟩ := EF.words_bytes hs.1 (u := init.getLast hne) (List.getLast?_eq_some_getLast hne)
    (fun x hx => by have := hs.2 x hx; omega) h1
  refine ⟨?_, init.getLast hne, o, ?_, ?_, ?_, ?_⟩
  · unfold InvIdx.dataBytes BV.bytes vecBytes BV.build Spec.packed
    dsimp only
    rw [r1.len, r2', wordsFor]
    omega
  · rw [← r2']; exact hs.2 _ (List.getLast_mem hne)
  · show p.bytes = _
    rw [o1, hlen]
  · rw [← hlen]; exact o2
  · rfl

end InvBuilder

theorem listBits_le {u n : Nat} (hn : n ≠ 0) (hu : n ≤ u) (hu32 : u < 2 ^ 32) : Spec.listBits u n ≤ n * (Spec.lowDigits n u + 4) + 64 := by
  unfold Spec.listBits Spec.setBits
  dsimp only
  have h1 := EF.high_le (u := u) hn
  rw [lowWidth_eq] at h1
  generalize hh : u / 2 ^ Spec.lowDigits n u = H at h1
  have hlog : Nat.log2 n ≤ 31 := by
    have := (Nat.log2_lt (n := n) (k := 32) hn).mpr (by omega)
    omega
  have hd : Spec.digits (n + H + 2 - 1) ≤ 34 := by
    unfold Spec.digits
    have := (Nat.log2_lt (n := n + H + 2 - 1) (k := 34) (by omega)).mpr (by omega)
    omega
  have hm : ((n + H + 2 - n) / 512 + n / 256) * Spec.digits (n + H + 2 - 1) ≤ ((n + H + 2 - n) / 512 + n / 256) * 34 := Nat.mul_le_mul_left _ hd
  rw [Nat.mul_add]
  omega

theorem FwdIdx.build_bytes {numTerms : Nat} {lists : List (List Nat)} (hf : FwdLists numTerms lists) {after : W} {fi : FwdIdx}
    (h : FwdIdx.build numTerms lists after = .ok fi) :
    fi.dataBytes = 32 + Spec.packed (lists.map List.length).sum (Spec.digits numTerms) ∧
      ∃ o, fi.pointerBytes = Spec.sortedBytes (lists.length + 1) (lists.map List.length).sum o ∧
        64 * o ≤ Spec.unary (lists.length + 1) (lists.map List.length).sum ∧ fi.bytes = 16 + fi.pointerBytes + fi.dataBytes := by
  unfold FwdIdx.build at h
  rw [readLists_eq] at h
  dsimp only at h
  obtain ⟨c, h1, h⟩ := bind_ok h
  obtain ⟨e, h2, h⟩ := bind_ok h
  cases h
  have hc := CV.build_bytes h1
  rw [ceilLog2_succ (by have := hf.terms; omega)] at hc
  have hlast : ∀ (ls : List (List Nat)) (p : Nat), ([p] ++ ends p ls).getLast? = some (p + (ls.map List.length).sum) := by
    intro ls
    induction ls with
    | nil => intro p; simp [ends]
    | cons l ls ih =>
        intro p
        have := ih (p + l.length)
        rw [ends]
        simp only [List.cons_append, List.nil_append, List.getLast?_cons_cons, List.map_cons, List.sum_cons] at this ⊢
        rw [this, Nat.add_assoc]
  obtain ⟨o, o1, o2, _⟩ := EF.words_bytes (xs := [0] ++ ends 0 lists) (u := (lists.map List.length).sum) (ends_sorted 0 lists)
    (by have := hlast lists 0; rw [Nat.zero_add] at this; exact this)
    (by
      intro x hx
      have ht := hf.total
      rcases List.mem_append.mp hx with hx | hx
      · simp at hx; omega
      · have := ends_le 0 lists x hx; omega) h2
  have hl : ([0] ++ ends 0 lists).length = lists.length + 1 := by simp [ends_length]
  rw [hl] at o1 o2
  refine ⟨?_, o, o1, o2, rfl⟩
  show c.bytes = _
  rw [hc]
  unfold Spec.packed Spec.digits
  rw [show (toWords ([] ++ lists.flatten)).length = (lists.map List.length).sum by
    unfold toWords; rw [List.length_map, List.nil_append, List.length_flatten]]

theorem UL.build_bytes {v : List Nat} {after1 after2 : W} {x : UL} (hlen : v.length < 2 ^ 30 - 1) {m : Nat} (hm : m ∈ v) (hmax : ∀ y ∈ v, y ≤ m)
    (h0 : m ≠ 0) (h32 : m < 2 ^ 32) (h : UL.build v after1 after2 = .ok x) :
    x.list.bytes = 32 + Spec.packed v.length (Spec.digits m) ∧ v.length ≤ 4 * x.rmq.bytes ∧ 1024 * x.rmq.bytes ≤ 355 * v.length + 1024 * 126 ∧
      x.bytes = x.rmq.bytes + x.list.bytes := by
  unfold UL.build at h
  obtain ⟨t, h1, h⟩ := bind_ok h
  obtain ⟨c, h2, h⟩ := bind_ok h
  cases h
  refine ⟨?_, CT.le_bytes hlen h1, CT.bytes_le hlen h1, rfl⟩
  unfold CV.buildAuto at h2
  have hmx : ((toWords v).map BitVec.toNat).max? = some m := by
    have : (toWords v).map BitVec.toNat = v := by
      unfold toWords
      rw [List.map_map]
      conv => rhs; rw [← List.map_id v]
      apply List.map_congr_left
      intro y hy
      have := hmax y hy
      simp only [Function.comp, BitVec.toNat_ofNat, id]
      omega
    rw [this]
    rw [List.max?_eq_some_iff]
    exact ⟨hm, hmax⟩
  rw [hmx] at h2
  dsimp only at h2
  have := CV.build_bytes h2
  rw [this, Nat.mod_eq_of_lt (by omega), ceilLog2_succ h0]
  unfold Spec.packed Spec.digits
  rw [show (toWords v).length = v.length by simp [toWords]]

end AC
