import Verif.Proofs.SpaceIdx
import Verif.Proofs.SpaceBlk
import Verif.Proofs.SpaceFc
import Verif.Proofs.StdLib
import Verif.Proofs.SpaceTrie
/-!
# C76: the structures are as small as announced
-/
namespace AC.Props

open Spec

/-- **C76**, `compact_vector`: `n` numbers of which the largest has `digits m` digits take that many bits each, rounded up to 8 bytes, and 32 bytes. -/
theorem C76_compact_vector {vs : List W} {after : W} {c : CV} {m : Nat} (hm : m ∈ vs.map BitVec.toNat) (hmax : ∀ x ∈ vs, x.toNat ≤ m)
    (h0 : m ≠ 0) (h64 : m < 2 ^ 64 - 1) (h : CV.buildAuto vs after = .ok c) : c.bytes = 32 + packed vs.length (digits m) := by
  unfold CV.buildAuto at h
  rw [show (vs.map BitVec.toNat).max? = some m from List.max?_eq_some_iff.mpr ⟨hm, fun b hb => by
    obtain ⟨x, hx, rfl⟩ := List.mem_map.mp hb; exact hmax x hx⟩] at h
  dsimp only at h
  have := CV.build_bytes h
  rw [this, Nat.mod_eq_of_lt (by omega), ceilLog2_succ h0]
  rfl

/-- seven numbers of 10 digits: 70 bits, two words -/
example : (CV.buildAuto (toWords [5, 1023, 0, 7, 512, 3, 3]) 0).map CV.bytes = .ok 48 ∧ packed 7 (digits 1023) = 16 := by decide +kernel

/-- **C76**, `ef_sequence`: a sorted list of `n` numbers up to `u` takes `sortedBytes n u o` bytes, of which the `o` positions stored apart are no
more than the high bits themselves, and none if those are at most 65536; all in all, at most `log2 (u/n) + 6.5625` bits for each number and 790
bits. -/
theorem C76_elias_fano {xs : List Nat} {u : Nat} (hs : xs.Pairwise (· ≤ ·)) (hu : xs.getLast? = some u) (hx : u < 2 ^ 64) {e : EF}
    (h : EF.build (toWords xs) = .ok e) :
    (∃ o, e.bytes = sortedBytes xs.length u o ∧ 64 * o ≤ unary xs.length u ∧ (unary xs.length u ≤ 65536 → o = 0)) ∧
      16 * (8 * e.bytes) ≤ xs.length * (16 * lowDigits xs.length u + 105) + 16 * 790 := by
  have hn : xs.length ≠ 0 := by
    intro hc
    rw [List.length_eq_zero_iff.mp hc] at hu
    cases hu
  have hall : ∀ x ∈ xs, x < 2 ^ 64 := by
    intro x hxm
    obtain ⟨ys, rfl⟩ := List.getLast?_eq_some_iff.mp hu
    rcases List.mem_append.mp hxm with h | h
    · have := (List.pairwise_append.mp hs).2.2 x h u (by simp)
      omega
    · simp at h; omega
  obtain ⟨o, o1, o2, o3⟩ := EF.words_bytes hs hu hall h
  refine ⟨⟨o, o1, o2, o3⟩, ?_⟩
  have := sortedBytes_le hn o2
  rw [← o1] at this
  omega

example : (EF.build (toWords [3, 10, 10, 500])).map EF.bytes = .ok (sortedBytes 4 500 0) ∧ sortedBytes 4 500 0 = 99 := by decide +kernel

/-- **C76**, `unsorted_list` and `minimal_docids`: the numbers take the digits of the largest each, and the structure for the minima between 2 and
2.78 bits for each and 126 bytes. -/
theorem C76_minima {v : List Nat} {after1 after2 : W} {x : UL} (hlen : v.length < 2 ^ 30 - 1) {m : Nat} (hm : m ∈ v) (hmax : ∀ y ∈ v, y ≤ m)
    (h0 : m ≠ 0) (h32 : m < 2 ^ 32) (h : UL.build v after1 after2 = .ok x) :
    x.list.bytes = 32 + packed v.length (digits m) ∧ 2 * v.length ≤ 8 * x.rmq.bytes ∧
      100 * (8 * x.rmq.bytes) ≤ 278 * v.length + 100 * (8 * 126) ∧ x.bytes = x.rmq.bytes + x.list.bytes := by
  obtain ⟨h1, h2, h3, h4⟩ := UL.build_bytes hlen hm hmax h0 h32 h
  exact ⟨h1, by omega, by omega, h4⟩

example : (UL.build [5, 9, 2, 7, 1] 0 0).map UL.bytes = .ok (122 + (32 + packed 5 (digits 9))) := by decide +kernel

/-- **C76**, `fc_dictionary`: the first term of each group of 17 in full, for the others two bytes and what differs from the term before, two
pointers for each group, and 168 bytes, 128 of them padding. -/
theorem C76_dictionary {L : List Str} (hn : L.length % 17 ≠ 0) {d : FC} (h : FcDict.build L = .ok d) :
    d.bytes 4 1 = 40 + 8 * ((L.length + 16) / 17 + 1) + 128 + coded 1 0 [] L ∧
      d.bytes 4 1 ≤ 176 + 8 * ((L.length + 16) / 17) + 2 * L.length + (L.map List.length).sum := by
  have h1 := FC.build_bytes FC.good_byte 4 (fun i a b _ _ => FC.lcp_common b a) hn h
  have h2 := FC.coded_le 1 L 0 []
  have h3 : d.bytes 4 1 = 40 + 2 * 4 * ((L.length + 16) / 17 + 1) + 128 + coded 1 0 [] L := h1
  exact ⟨by omega, by omega⟩

/-- the words in common are not written again -/
example : (FcDict.build [[97, 98, 99], [97, 98, 99, 100], [97, 98, 122]]).map (FC.bytes 4 1) = .ok (40 + 16 + 128 + (3 + (2 + 1) + (2 + 1))) := by
  decide +kernel

/-- **C76**, `integer_fc_dictionary`: the same for the completions, with four bytes for each id and pointers of eight. -/
theorem C76_completions {L : List Ids} (hn : L.length % 17 ≠ 0) (hd : ∀ i a b, L[i]? = some a → L[i + 1]? = some b → a ≠ b)
    (hp : ∀ s ∈ L, ∀ x ∈ s, 0 < x) (_hl : ∀ s ∈ L, s.length < 256) {d : FC} (h : FC.build Elem.u32 IntDict.lcpT L = .ok d) :
    d.bytes 8 4 = 40 + 16 * ((L.length + 16) / 17 + 1) + 256 + coded 4 0 [] L ∧
      d.bytes 8 4 ≤ 312 + 16 * ((L.length + 16) / 17) + 2 * L.length + 4 * (L.map List.length).sum := by
  have h1 := FC.build_bytes FC.good_u32 8 (fun i a b ha hb => by
    rw [IntDict.lcpT_eq (fun hc => hd i a b ha hb hc.symm) (hp b (List.mem_of_getElem? hb)) (hp a (List.mem_of_getElem? ha))]
    exact FC.lcp_common b a) hn h
  have h2 := FC.coded_le 4 L 0 []
  have h3 : d.bytes 8 4 = 40 + 2 * 8 * ((L.length + 16) / 17 + 1) + 256 + coded 4 0 [] L := h1
  exact ⟨by omega, by omega⟩

example : (FC.build Elem.u32 IntDict.lcpT [[1, 2], [1, 2, 3], [4]]).map (FC.bytes 8 4) = .ok (40 + 32 + 256 + (8 + (2 + 4) + (2 + 4))) := by
  decide +kernel

/-- **C76**, `compact_forward_index`: as many bits for each term of each document as the number of terms has digits, and a sorted list with where
the documents begin. -/
theorem C76_forward {numTerms : Nat} {lists : List (List Nat)} (hf : FwdLists numTerms lists) {after : W} {fi : FwdIdx}
    (h : FwdIdx.build numTerms lists after = .ok fi) :
    fi.dataBytes = 32 + packed (lists.map List.length).sum (digits numTerms) ∧
      (∃ o, fi.pointerBytes = sortedBytes (lists.length + 1) (lists.map List.length).sum o ∧
        64 * o ≤ unary (lists.length + 1) (lists.map List.length).sum) ∧ fi.bytes = 16 + fi.pointerBytes + fi.dataBytes := by
  obtain ⟨h1, o, h2, h3, h4⟩ := FwdIdx.build_bytes hf h
  exact ⟨h1, ⟨o, h2, h3⟩, h4⟩

example : FwdLists 3 [[1, 3], [2], [3, 2, 1]] ∧
    (FwdIdx.build 3 [[1, 3], [2], [3, 2, 1]] 0).map FwdIdx.bytes = .ok (16 + sortedBytes 4 6 0 + (32 + packed 6 (digits 3))) :=
  ⟨⟨by decide, by decide, by decide, by decide⟩, by decide +kernel⟩

/-- **C76**, `inverted_index`: each list takes exactly the bits of `listBits`, which are at most `log2 (u/n) + 4` for each of its `n` documents and
64, and there is a sorted list with where the lists begin. -/
theorem C76_inverted {u : Nat} {lists : List (List Nat)} (h : InvLists u lists) {b : InvBuilder} {after : W} {ii : InvIdx}
    (hb : InvBuilder.mk' u lists = .ok b) (hi : b.build after = .ok ii) :
    ii.dataBytes = 16 + packed ((lists.map fun l => listBits u l.length).sum) 1 ∧
      (∀ l ∈ lists, listBits u l.length ≤ l.length * (lowDigits l.length u + 4) + 64) ∧
      (∃ last o, last ≤ (lists.map fun l => listBits u l.length).sum ∧ ii.pointerBytes = sortedBytes lists.length last o ∧
        64 * o ≤ unary lists.length last) ∧ ii.bytes = 16 + ii.pointerBytes + ii.dataBytes := by
  obtain ⟨h1, last, o, h2, h3, h4, h5⟩ := InvBuilder.build_bytes h hb hi
  refine ⟨h1, ?_, ⟨last, o, h2, h3, h4⟩, h5⟩
  intro l hl
  obtain ⟨e1, e2, e3⟩ := h.each l hl
  exact listBits_le (fun hc => e1 (List.length_eq_zero_iff.mp hc))
    (sorted_length_le (k := 0) e2 (fun x hx => ⟨Nat.zero_le _, e3 x hx⟩) (Nat.zero_le _)) h.univ

example : InvLists 9 [[0, 4, 8], [5], [1, 2, 3, 4, 5, 6, 7]] ∧
    (InvBuilder.mk' 9 [[0, 4, 8], [5], [1, 2, 3, 4, 5, 6, 7]] >>= fun b => b.build 0).map InvIdx.dataBytes =
      .ok (16 + packed (listBits 9 3 + listBits 9 1 + listBits 9 7) 1) :=
  ⟨⟨by decide, by decide, by decide, by decide⟩, by decide +kernel⟩

/-- **C76**, `blocked_inverted_index`: for each block its distinct documents as a set with their number in front, where their terms begin as a
list with its number and bound in front, and each posting in as many digits as the last term of the block, counted from the end of the block
before, has. -/
theorem C76_blocked {u : Nat} {lists : List (List Nat)} (h : BlkLists u lists) (std : StdLib) {m : Nat} {b : BlkBuilder} {mem : Nat → W} {ii : BlkIdx}
    (hb : BlkBuilder.mk' std m u lists = .ok b) (hi : b.build mem = .ok ii) :
    ii.docsBytes = 16 + packed (perBlock (fun lo hi => 32 + setBits u (documents lists lo hi)) 0 ii.blocks) 1 ∧
      ii.offsetsBytes = 16 + packed (perBlock (fun lo hi => 64 + setBits (postingCount lists lo hi + 1) (documents lists lo hi + 1)) 0 ii.blocks) 1 ∧
      ii.termsBytes = 16 + packed (perBlock (fun lo hi => 6 + postingCount lists lo hi * digits (hi - max lo 1)) 0 ii.blocks) 1 ∧
      ii.bytes = 24 + ii.blocksBytes + ii.pointersBytes + ii.docsBytes + ii.offsetsBytes + ii.termsBytes := by
  obtain ⟨h1, h2, h3⟩ := BlkBuilder.build_bytes h std hb hi
  refine ⟨h1, h2, h3, ?_⟩
  unfold BlkIdx.bytes BlkIdx.blocksBytes BlkIdx.pointersBytes BlkIdx.docsBytes BlkIdx.offsetsBytes BlkIdx.termsBytes
  omega

/-- three blocks: the terms up to the second, the third, the others -/
example : BlkLists 9 [[0, 3, 8], [3], [1, 3, 5, 8], [2], [0, 2, 5]] ∧
    (BlkBuilder.mk' StdLib.bySorting 4 9 [[0, 3, 8], [3], [1, 3, 5, 8], [2], [0, 2, 5]] >>= fun b => b.build fun _ => 0).map
        (fun ii => (ii.blocks, ii.docsBytes, ii.offsetsBytes, ii.termsBytes)) =
      .ok ([2, 3, 5], 16 + packed ((32 + setBits 9 3) + (32 + setBits 9 4) + (32 + setBits 9 3)) 1,
        16 + packed ((64 + setBits 5 4) + (64 + setBits 5 5) + (64 + setBits 5 4)) 1,
        16 + packed ((6 + 4 * 1) + (6 + 4 * 1) + (6 + 4 * 2)) 1) :=
  ⟨⟨⟨by decide, by decide, by decide, by decide⟩, by decide⟩, by decide +kernel⟩

/-- **C76**, `completion_trie`: at each level there are as many nodes as beginnings of completions of that many terms, and the terms, the first
completions and the numbers of completions below the nodes are three sorted lists of that many numbers: the terms end below as many times the largest
term as there are nodes above, the other two below the number of completions. The positions where the nodes below begin are another one, up to the number
of nodes of the next level. All in all, that and 36 bytes. -/
theorem C76_trie {L : List Ids} (v : ValidIds L) (hne : ∀ s ∈ L, s ≠ []) {levels : Nat} (hmax : ∃ c ∈ L, c.length + 1 = levels)
    (hlt : ∀ c ∈ L, c.length < levels) {m : Nat} (hm : ∀ s ∈ L, ∀ x ∈ s, x ≤ m) (hm2 : m < 2 ^ 32) {T : List Trie.CLevel}
    (h : Trie.build levels L = .ok T) :
    T.length = levels ∧
      (∀ i c, T[i]? = some c →
        (∃ u, u ≤ (if i = 0 then 1 else beginnings (i - 1) L) * m ∧ Sized (beginnings i L) u c.nodes.bytes) ∧
        (∃ u, u + beginnings i L ≤ L.length ∧ Sized (beginnings i L) u c.left.bytes) ∧
        (∃ u, u + beginnings i L ≤ L.length ∧ Sized (beginnings i L) u c.sizes.bytes) ∧
        (i + 1 < levels → ∃ p, c.ptrs = some p ∧ ∃ n, beginnings i L + 1 ≤ n ∧ n ≤ beginnings i L + 2 ∧ Sized n (beginnings (i + 1) L) p.bytes)) ∧
      Trie.bytes T = .ok (36 + (T.map fun c => c.nodes.bytes + c.left.bytes + c.sizes.bytes).sum +
        (T.dropLast.map fun c => (c.ptrs.map EF.bytes).getD 0).sum) := by
  have hL : Trie.Compl L := ⟨v.sorted, fun s hs x hx => (v.elems s hs x hx).1, hne⟩
  have hn := v.count
  obtain ⟨h1, h2⟩ := Trie.build_bytes hL ⟨hlt, hmax⟩ hm hm2 (by omega) h
  refine ⟨h1, h2, ?_⟩
  obtain ⟨n, n1, n2⟩ := Trie.bytesLoop_eq T T.length 0 36 (by omega) (fun k c hc hk => by
    obtain ⟨p, hp, _⟩ := (h2 k c hc).2.2.2 (by omega)
    exact ⟨p, hp⟩)
  unfold Trie.bytes
  rw [n1, n2]

/-- four levels with 2, 5, 5 and 3 nodes -/
example : ValidIds [[1], [1, 2, 3], [1, 3], [2, 1], [2, 3, 3], [2, 3, 4]] ∧
    (List.range 4).map (fun i => beginnings i [[1], [1, 2, 3], [1, 3], [2, 1], [2, 3, 3], [2, 3, 4]]) = [2, 5, 5, 3] ∧
    (Trie.build 4 [[1], [1, 2, 3], [1, 3], [2, 1], [2, 3, 3], [2, 3, 4]]).map (fun T => T.map fun c => c.left.bytes) =
      .ok [sortedBytes 2 2 0, sortedBytes 5 0 0, sortedBytes 5 1 0, sortedBytes 3 3 0] :=
  ⟨⟨by decide, by decide, by decide, by decide⟩, by decide +kernel, by decide +kernel⟩

end AC.Props
