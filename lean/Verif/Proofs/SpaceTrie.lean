import Verif.Proofs.SpaceIdx
import Verif.Proofs.SpaceBlk
import Verif.Proofs.TrieLocate
/-!
# What the levels of the trie take
-/
namespace AC.Trie
open AC.Props

theorem keys_count {L : List Ids} (hL : Compl L) (i : Nat) : (keys i L).length = Spec.beginnings i L := by
  have hmem : ∀ k, k ∈ ((L.filter fun c => i ≤ c.length).map fun c => (c ++ [0]).take (i + 1)).eraseDups ↔ k ∈ keys i L := by
    intro k
    rw [List.mem_eraseDups, List.mem_map]
    constructor
    · rintro ⟨c, hc, rfl⟩
      obtain ⟨h1, h2⟩ := List.mem_filter.mp hc
      exact keys_mem h1 (by simpa using h2)
    · intro hk
      obtain ⟨c, h1, h2, rfl⟩ := mem_keys hk
      exact ⟨c, List.mem_filter.mpr ⟨h1, by simpa using h2⟩, rfl⟩
  unfold Spec.beginnings
  apply Nat.le_antisymm
  · have hk : (keys i L).Nodup := (keys_sorted hL).imp (fun {a b} (h : a < b) (e : a = b) => by subst e; exact List.lt_irrefl _ h)
    exact nodup_subset_length' hk (fun x hx => (hmem x).mpr hx)
  · exact nodup_subset_length' (nodup_eraseDups _ _ (Nat.le_refl _)) (fun x hx => (hmem x).mp hx)

/-- the numbers written for the runs: in the run `k` they are at most `k + 1` times the largest -/
theorem runs_last {ps : List Nat} {vs : List W} (h : Pointers ps vs.length) (hne : vs ≠ []) (B : Nat)
    (hv : ∀ v ∈ vs, v.toNat ≤ B) (hB : (vs.length + 1) * B < 2 ^ 64) (hr : RunsMono ps (vs.map BitVec.toNat)) {e : EF} (he : EF.buildRuns vs ps = .ok e) :
    ∃ xs : List Nat, EF.build (toWords xs) = .ok e ∧ xs.length = vs.length ∧ xs.Pairwise (· ≤ ·) ∧ (∀ x ∈ xs, x < 2 ^ 64) ∧
      ∀ i (hi : i < xs.length) k (hk : k + 1 < ps.length), ps[k] ≤ i → i < ps[k + 1] → xs[i] ≤ (k + 1) * B := by
  have h2 := h.len
  have h0 := h.zero
  rw [List.getElem?_eq_getElem (by omega)] at h0
  have h0 := Option.some.inj h0
  obtain ⟨xs, x1, x2, x3⟩ := EF.sumLoop_spec h vs [] 0 (by omega) (by simp) (by intro k hk i hi; simp at hi) (by simp [h0])
    (by simp)
  rw [List.length_nil, Nat.zero_add] at x2
  have hup : upperW [] ps[0] = 0 := by rw [h0]; rfl
  rw [hup, List.length_nil, Nat.zero_sub] at x1
  have hb := x3.bound h x2 B hv hB
  have hs := x3.sorted h x2 B hv hB hr
  have hw : toWords (xs.map BitVec.toNat) = xs := by
    unfold toWords
    rw [List.map_map]
    exact List.map_id'' (fun x => by simp) xs
  refine ⟨xs.map BitVec.toNat, ?_, by simpa using x2, by rw [List.pairwise_map]; exact hs, ?_, ?_⟩
  · rw [hw]
    unfold EF.buildRuns at he
    rw [rd_ok (show 0 < ps.length by omega), rd_ok (show 1 < ps.length by omega)] at he
    simp only [M.ok_bind] at he
    have : ps[1] - ps[0] = ps[0 + 1] - ps[0] := rfl
    rw [x1] at he
    exact he
  · intro x hx
    obtain ⟨w, _, rfl⟩ := List.mem_map.mp hx
    exact w.isLt
  · intro i
    induction i using Nat.strongRecOn with
    | _ i ih =>
        intro hi k hk h1 h2
        simp only [List.length_map] at hi
        rw [List.getElem_map, (hb i hi).2 k hk h1 h2]
        have h4 := hv (vs[i]'(by omega)) (List.getElem_mem _)
        have hu : (upperW xs ps[k]).toNat ≤ k * B := by
          unfold upperW
          split
          · simp
          · rename_i hz
            rw [List.getD_eq_getElem?_getD, List.getElem?_eq_getElem (by omega), Option.getD_some]
            obtain ⟨k', hk', g1, g2⟩ := h.find (ps[k] - 1) (by omega)
            have hlt : k' < k := by
              apply Classical.byContradiction
              intro hc
              have : ps[k] ≤ ps[k'] := by
                rcases Nat.eq_or_lt_of_le (Nat.le_of_not_lt hc) with h | h
                · simp only [h, Nat.le_refl]
                · exact List.pairwise_iff_getElem.mp ‹Pointers ps vs.length›.mono k k' (by omega) (by omega) h
              omega
            have := ih (ps[k] - 1) (by omega) (by simp; omega) k' hk' g1 g2
            rw [List.getElem_map] at this
            exact Nat.le_trans this (Nat.mul_le_mul_right _ hlt)
        rw [Nat.add_mul, Nat.one_mul]
        omega

section
variable {levels : Nat} {L : List Ids} {i : Nat} {t t' : Level} {A B A' B' : List Nat}

/-- the size of a sorted list of numbers, of which a bound is known -/
theorem sized {xs : List Nat} {m : Nat} (hne : xs ≠ []) (hs : xs.Pairwise (· ≤ ·)) (hx : ∀ x ∈ xs, x < 2 ^ 64) (hm : ∀ (_ : 0 < xs.length), xs[xs.length - 1]'(by omega) ≤ m)
    {e : EF} (he : EF.build (words xs) = .ok e) : ∃ u, u ≤ m ∧ Spec.Sized xs.length u e.bytes := by
  have hpos := List.length_pos_iff.mpr hne
  have hg : xs.getLast? = some (xs[xs.length - 1]'(by omega)) := by rw [List.getLast?_eq_getElem?, List.getElem?_eq_getElem (by omega)]
  obtain ⟨o, o1, o2, o3⟩ := EF.words_bytes hs hg hx he
  exact ⟨_, hm hpos, o, o1, o2, o3⟩

theorem Done.left_bytes (d : Done levels L i t A B) (hL : Compl L) (hne : keys i L ≠ []) (hn : L.length < 2 ^ 32) {l : EF} (h : EF.build (words t.left) = .ok l) :
    ∃ u, u + (keys i L).length ≤ L.length ∧ Spec.Sized (keys i L).length u l.bytes := by
  have hlen : A.length = B.length := by rw [d.lenA, d.lenB]
  have hpos : 0 < (keys i L).length := List.length_pos_iff.mpr hne
  have lt1 : t.left.length = A.length := by rw [d.left]; simp
  have lget : ∀ k (hk : k < t.left.length), t.left[k] = A[k]'(by omega) - k := by
    intro k hk
    simp only [d.left, List.getElem_mapIdx]
  have hge := d.left_ge hL ((keys i L).length - 1) (by have := d.lenA; omega)
  have hab := d.ab (q := (keys i L).length - 1) (by have := d.lenA; omega) (by have := d.lenB; omega)
  obtain ⟨u, u1, u2⟩ := sized (m := L.length - (keys i L).length) (xs := t.left) (by intro hc; rw [hc] at lt1; simp at lt1; have := d.lenA; omega)
    (by
      apply pairwise_of_step
      intro k hk
      rw [lget k (by omega), lget (k + 1) hk]
      have h1 := d.disjoint hL (q := k) (q' := k + 1) (by omega) (by rw [← d.lenA]; omega) (by omega) (by omega)
      have h2 := d.ab (q := k) (by omega) (by omega)
      omega)
    (by
      intro x hx
      obtain ⟨k, hk, rfl⟩ := List.getElem_of_mem hx
      have := d.ab (q := k) (by omega) (by omega)
      rw [lget k hk]; omega)
    (by
      intro hp
      rw [lget]
      have e : t.left.length - 1 = (keys i L).length - 1 := by have := d.lenA; omega
      simp only [e]
      omega) h
  rw [lt1, d.lenA] at u2
  exact ⟨u, by omega, u2⟩

theorem Done.sums_gap (d : Done levels L i t A B) (hL : Compl L) : ∀ k (hk : k < B.length),
    (sumLoop 0 A B)[k]'(by rw [sumLoop_length]; exact hk) + k ≤ B[k]
  | 0, hk => by rw [sumLoop_zero 0 A B (by rw [d.lenA, d.lenB]) hk]; omega
  | k + 1, hk => by
      rw [sumLoop_succ k 0 A B (by rw [d.lenA, d.lenB]) hk]
      have := d.sums_gap hL k (by omega)
      have h1 := d.disjoint hL (q := k) (q' := k + 1) (by omega) (by rw [← d.lenB]; exact hk) (by omega)
        (by rw [d.lenA, ← d.lenB]; exact hk)
      have h2 := d.ab (q := k + 1) (by rw [d.lenA, ← d.lenB]; exact hk) hk
      omega

theorem Done.sizes_bytes (d : Done levels L i t A B) (hL : Compl L) (hne : keys i L ≠ []) (hn : L.length < 2 ^ 32) {s : EF} (h : EF.build (words t.sizes) = .ok s) :
    ∃ u, u + (keys i L).length ≤ L.length ∧ Spec.Sized (keys i L).length u s.bytes := by
  have hlen : A.length = B.length := by rw [d.lenA, d.lenB]
  have hpos : 0 < (keys i L).length := List.length_pos_iff.mpr hne
  have st1 : t.sizes.length = B.length := by rw [d.sizes, sumLoop_length]
  have sget : ∀ k (hk : k < t.sizes.length), t.sizes[k] = (sumLoop 0 A B)[k]'(by rw [sumLoop_length]; omega) := by
    intro k hk
    simp only [d.sizes]
  have hgap := d.sums_gap hL ((keys i L).length - 1) (by have := d.lenB; omega)
  have hab := d.ab (q := (keys i L).length - 1) (by have := d.lenA; omega) (by have := d.lenB; omega)
  obtain ⟨u, u1, u2⟩ := sized (m := L.length - (keys i L).length) (xs := t.sizes) (by intro hc; rw [hc] at st1; simp at st1; have := d.lenB; omega)
    (by
      apply pairwise_of_step
      intro k hk
      rw [sget k (by omega), sget (k + 1) hk, sumLoop_succ k 0 A B hlen (by omega)]
      omega)
    (by
      intro x hx
      obtain ⟨k, hk, rfl⟩ := List.getElem_of_mem hx
      have := d.sums_le hL k (by omega)
      have := d.ab (q := k) (by omega) (by omega)
      rw [sget k hk]; omega)
    (by
      intro hp
      rw [sget]
      have e : t.sizes.length - 1 = (keys i L).length - 1 := by have := d.lenB; omega
      simp only [e]
      omega) h
  rw [st1, d.lenB] at u2
  exact ⟨u, by omega, u2⟩

theorem DonePtrs.bytes (P : DonePtrs L i t) (hn : L.length < 2 ^ 32) {p : EF} (h : EF.build (words t.ptrs) = .ok p) :
    ∃ n, (keys i L).length + 1 ≤ n ∧ n ≤ (keys i L).length + 2 ∧ Spec.Sized n (keys (i + 1) L).length p.bytes := by
  have hple : ∀ p ∈ t.ptrs, p ≤ (keys (i + 1) L).length := by
    intro p hp
    obtain ⟨k, hk, rfl⟩ := List.getElem_of_mem hp
    exact (P.par k _ (List.getElem?_eq_getElem hk)).1
  have hcard := keys_card (i + 1) L
  have hpos : 0 < t.ptrs.length := by have := P.len; omega
  have hg : t.ptrs.getLast? = some (keys (i + 1) L).length := by
    rw [List.getLast?_eq_getElem?, List.getElem?_eq_getElem (by omega)]
    congr 1
    obtain ⟨j, hj, e⟩ := List.getElem_of_mem P.cover
    have h1 := hple _ (List.getElem_mem (l := t.ptrs) (n := t.ptrs.length - 1) (by omega))
    rcases Nat.lt_or_ge j (t.ptrs.length - 1) with h2 | h2
    · have := List.pairwise_iff_getElem.mp P.mono j (t.ptrs.length - 1) hj (by omega) h2
      omega
    · have : j = t.ptrs.length - 1 := by omega
      simp only [this] at e
      exact e
  obtain ⟨o, o1, o2, o3⟩ := EF.words_bytes P.mono hg (fun x hx => by have := hple x hx; omega) h
  exact ⟨_, P.len, P.len_le, o, o1, o2, o3⟩

theorem last_le {m : Nat} (hm : ∀ s ∈ L, ∀ x ∈ s, x ≤ m) {k : Ids} (hk : k ∈ keys i L) : k.getLastD 0 ≤ m := by
  obtain ⟨c, c1, c2, c3⟩ := mem_keys hk
  rw [c3, pre_last c2, List.getD_eq_getElem?_getD]
  rcases Nat.lt_or_ge i c.length with h | h
  · rw [List.getElem?_append_left h, List.getElem?_eq_getElem h]
    exact hm c c1 _ (List.getElem_mem _)
  · have : i = c.length := by omega
    subst this; simp

theorem Done.root_bytes (d : Done levels L 0 t A B) (hL : Compl L) (hne : keys 0 L ≠ []) {m : Nat} (hm : ∀ s ∈ L, ∀ x ∈ s, x ≤ m) (hm2 : m < 2 ^ 32)
    {e : EF} (h : EF.build (words t.nodes) = .ok e) : ∃ u, u ≤ m ∧ Spec.Sized (keys 0 L).length u e.bytes := by
  have hall : ∀ x ∈ t.nodes, x ≤ m := by
    intro x hx
    rw [d.nodes] at hx
    obtain ⟨k, hk, rfl⟩ := List.mem_map.mp hx
    exact last_le hm hk
  have hlen : t.nodes.length = (keys 0 L).length := by rw [d.nodes]; simp
  have hpos := List.length_pos_iff.mpr hne
  have hs : t.nodes.Pairwise (· ≤ ·) := by
    rw [d.nodes, List.pairwise_map]
    refine (keys_sorted hL).imp_of_mem ?_
    intro a b ha hb hab
    have h1 : a.length = 0 + 1 := keys_length ha
    have h2 : b.length = 0 + 1 := keys_length hb
    obtain ⟨x, rfl⟩ := List.length_eq_one_iff.mp h1
    obtain ⟨y, rfl⟩ := List.length_eq_one_iff.mp h2
    simp only [List.cons_lt_cons_iff, List.not_lt_nil, and_false, or_false] at hab
    simp only [List.getLastD_cons, List.getLastD_nil]
    omega
  have := sized (xs := t.nodes) (m := m) (by intro hc; rw [hc] at hlen; simp at hlen; omega) hs (fun x hx => by have := hall x hx; omega)
    (fun _ => hall _ (List.getElem_mem _)) h
  rwa [hlen] at this

theorem Done.below_bytes (P : DonePtrs L i t) (d' : Done levels L (i + 1) t' A' B') (hL : Compl L)
    (hn : L.length < 2 ^ 32) (hne : keys i L ≠ []) (hne' : keys (i + 1) L ≠ []) {m : Nat} (hm : ∀ s ∈ L, ∀ x ∈ s, x ≤ m) (hm2 : m < 2 ^ 32)
    {e : EF} (h : EF.buildRuns (words t'.nodes) t.ptrs = .ok e) :
    ∃ u, u ≤ (keys i L).length * m ∧ Spec.Sized (keys (i + 1) L).length u e.bytes := by
  have hnl : t'.nodes.length = (keys (i + 1) L).length := by rw [d'.nodes]; simp
  have hwl : (words t'.nodes).length = t'.nodes.length := by simp [words]
  have hcard := keys_card (i + 1) L
  have hpos := List.length_pos_iff.mpr hne'
  have hsm : ∀ x ∈ t'.nodes, x ≤ m := by
    intro x hx
    rw [d'.nodes] at hx
    obtain ⟨k, hk, rfl⟩ := List.mem_map.mp hx
    exact last_le hm hk
  have hsm' : ∀ x ∈ t'.nodes, x < 2 ^ 64 := fun x hx => by have := hsm x hx; omega
  have hptr : Pointers t.ptrs (words t'.nodes).length := by rw [hwl, hnl]; exact ptrs_pointers P hne
  obtain ⟨xs, x1, x2, x3, x4, x5⟩ := runs_last hptr (by rw [Ne, ← List.length_eq_zero_iff, hwl, hnl]; omega) m
    (by
      intro v hv
      obtain ⟨k, hk, rfl⟩ := List.getElem_of_mem hv
      rw [words_get hsm' k (by omega)]
      exact hsm _ (List.getElem_mem _))
    (by
      have h1 : (words t'.nodes).length + 1 ≤ 2 ^ 32 := by omega
      have h2 := Nat.mul_le_mul h1 (show m ≤ 2 ^ 32 - 1 by omega)
      exact Nat.lt_of_le_of_lt h2 (by decide))
    (runsMono_of_ok hptr (by
      rw [hwl, hnl]
      intro p hp
      obtain ⟨k, hk, rfl⟩ := List.getElem_of_mem hp
      exact (P.par k _ (List.getElem?_eq_getElem hk)).1) (runs_ok P d' hL (fun s hs x hx => by have := hm s hs x hx; omega))) h
  have hxl : xs.length = (keys (i + 1) L).length := by rw [x2, hwl, hnl]
  have := sized (xs := xs) (m := (keys i L).length * m) (by intro hc; rw [hc] at hxl; simp at hxl; omega) x3 x4
    (by
      intro hp
      obtain ⟨k, hk, g1, g2⟩ := hptr.find (xs.length - 1) (by omega)
      have := (run_members P hk (xs.length - 1) (by omega)).mp ⟨g1, g2⟩
      obtain ⟨hlt, _⟩ := List.getElem?_eq_some_iff.mp this.1
      exact Nat.le_trans (x5 _ (by omega) k hk g1 g2) (Nat.mul_le_mul_right _ hlt)) x1
  rwa [hxl] at this

end

/-- what a level takes -/
theorem build_bytes {levels : Nat} {L : List Ids} (hL : Compl L) (hsh : Shape levels L) {m : Nat} (hm : ∀ s ∈ L, ∀ x ∈ s, x ≤ m) (hm2 : m < 2 ^ 32)
    (hn : L.length < 2 ^ 32) {T : List CLevel} (h : build levels L = .ok T) : T.length = levels ∧ ∀ i c, T[i]? = some c →
      (∃ u, u ≤ (if i = 0 then 1 else Spec.beginnings (i - 1) L) * m ∧ Spec.Sized (Spec.beginnings i L) u c.nodes.bytes) ∧
      (∃ u, u + Spec.beginnings i L ≤ L.length ∧ Spec.Sized (Spec.beginnings i L) u c.left.bytes) ∧
      (∃ u, u + Spec.beginnings i L ≤ L.length ∧ Spec.Sized (Spec.beginnings i L) u c.sizes.bytes) ∧
      (i + 1 < levels → ∃ p, c.ptrs = some p ∧ ∃ n, Spec.beginnings i L + 1 ≤ n ∧ n ≤ Spec.beginnings i L + 2 ∧
        Spec.Sized n (Spec.beginnings (i + 1) L) p.bytes) := by
  have hneL : L ≠ [] := by obtain ⟨c, c1, _⟩ := hsh.max; exact List.ne_nil_of_mem c1
  obtain ⟨ts, t1, t2, t3⟩ := collect_spec hL hneL hsh.lt
  unfold build at h
  rw [t1] at h
  simp only [M.ok_bind] at h
  obtain ⟨h1, h2⟩ := tabM_get h
  refine ⟨h1, ?_⟩
  intro i c hc
  have hi : i < levels := by
    obtain ⟨h3, _⟩ := List.getElem?_eq_some_iff.mp hc
    omega
  have hb := h2 i c hc
  unfold buildLevel at hb
  rw [rd_ok (show i < ts.length by omega)] at hb
  simp only [M.ok_bind] at hb
  obtain ⟨p, p1, hb⟩ := bind_ok hb
  obtain ⟨l, l1, hb⟩ := bind_ok hb
  obtain ⟨s, s1, hb⟩ := bind_ok hb
  obtain ⟨nd, n1, hb⟩ := bind_ok hb
  cases hb
  obtain ⟨A, B, d⟩ := t3 i (by omega)
  simp only [← keys_count hL]
  refine ⟨?_, d.left_bytes hL (hsh.keys_ne hi) hn l1, d.sizes_bytes hL (hsh.keys_ne hi) hn s1, ?_⟩
  · unfold buildNodes at n1
    split at n1
    · rename_i h0
      rw [if_neg h0]
      obtain ⟨j, rfl⟩ : ∃ j, i = j + 1 := ⟨i - 1, by omega⟩
      rw [Nat.add_sub_cancel, rd_ok (show j < ts.length by omega)] at n1
      obtain ⟨A', B', d'⟩ := t3 j (by omega)
      exact Done.below_bytes (d'.ptrs hi) d hL hn (hsh.keys_ne (by omega)) (hsh.keys_ne hi) hm hm2 n1
    · rename_i h0
      have h0 : i = 0 := by omega
      subst h0
      rw [if_pos rfl, Nat.one_mul]
      exact d.root_bytes hL (hsh.keys_ne hi) hm hm2 n1
  · intro h3
    unfold buildPtrs at p1
    rw [if_pos (by omega)] at p1
    obtain ⟨q, q1, q2⟩ := bind_ok p1
    cases q2
    exact ⟨q, rfl, (d.ptrs h3).bytes hn q1⟩

/-- the sum of the levels -/
theorem bytesLoop_eq : ∀ (ts : List CLevel) (levels i b : Nat), i + ts.length = levels →
    (∀ k c, ts[k]? = some c → (i + k + 1 < levels → ∃ p, c.ptrs = some p)) →
    ∃ n, bytesLoop levels i ts b = .ok n ∧
      n = b + (ts.map fun c => c.nodes.bytes + c.left.bytes + c.sizes.bytes).sum + (ts.dropLast.map fun c => (c.ptrs.map EF.bytes).getD 0).sum
  | [], _, _, b, _, _ => ⟨b, rfl, by simp⟩
  | t :: ts, levels, i, b, hl, hp => by
      rw [List.length_cons] at hl
      have hp' : ∀ k c, ts[k]? = some c → (i + 1 + k + 1 < levels → ∃ p, c.ptrs = some p) := by
        intro k c hc hk
        exact hp (k + 1) c (by simpa using hc) (by omega)
      unfold bytesLoop ptrBytesIf
      by_cases h1 : i = levels - 1
      · have : ts = [] := List.length_eq_zero_iff.mp (by omega)
        subst this
        rw [if_neg (by simpa using h1)]
        refine ⟨_, rfl, ?_⟩
        simp
        omega
      · rw [if_pos h1]
        obtain ⟨p, hpt⟩ := hp 0 t rfl (by omega)
        have : ts ≠ [] := by intro hc; rw [hc] at hl; simp at hl; omega
        unfold ptrBytes
        rw [hpt]
        simp only [M.ok_bind]
        obtain ⟨n, n1, n2⟩ := bytesLoop_eq ts levels (i + 1) (b + t.nodes.bytes + t.left.bytes + t.sizes.bytes + p.bytes) (by omega) hp'
        refine ⟨n, n1, ?_⟩
        rw [n2, List.dropLast_cons_of_ne_nil this]
        simp only [List.map_cons, List.sum_cons, hpt, Option.map_some, Option.getD_some]
        omega

end AC.Trie
