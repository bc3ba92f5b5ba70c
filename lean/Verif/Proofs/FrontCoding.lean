import Verif.Model.FrontCoding
/-!
# Lemmas on front coding: what the builder writes is what the decoder reads
-/
namespace AC
namespace FC

/-- A character type whose characters satisfying `P` survive being stored. -/
structure Good (E : Elem) (P : Nat → Prop) : Prop where
  wpos : 0 < E.width
  capLt : E.cap < 256
  len : ∀ x, (E.enc x).length = E.width
  rt : ∀ x, P x → E.dec (E.enc x) = x

theorem good_byte : Good Elem.byte (fun c => c < 256) where
  wpos := by decide
  capLt := by decide
  len := by intro x; rfl
  rt := by intro x h; simp [Elem.byte, Nat.mod_eq_of_lt h]

theorem good_u32 : Good Elem.u32 (fun c => c < 2 ^ 32) where
  wpos := by decide
  capLt := by decide
  len := by intro x; rfl
  rt := by intro x h; simp [Elem.u32]; omega

/-- What `lcpOf` must satisfy on consecutive strings -/
def LcpOk (lcpOf : List Nat → List Nat → Nat) (curr prev : List Nat) : Prop :=
  lcpOf curr prev ≤ curr.length ∧ lcpOf curr prev ≤ prev.length ∧
    curr.take (lcpOf curr prev) = prev.take (lcpOf curr prev)

theorem lcp_ok : ∀ a b : List Nat, LcpOk lcp a b
  | [], b => by simp [LcpOk, lcp]
  | a :: as, [] => by simp [LcpOk, lcp]
  | a :: as, b :: bs => by
      have ih := lcp_ok as bs
      by_cases h : a = b
      · subst h
        simp [LcpOk, lcp] at *
        exact ih
      · simp [LcpOk, lcp, h]

/-- The bytes of the strings `ss` coming after `prev` -/
def encode (E : Elem) (lcpOf : List Nat → List Nat → Nat) : List Nat → List (List Nat) → List Nat
  | _, [] => []
  | prev, s :: ss =>
      [lcpOf s prev % 256] ++ [(s.length + 256 - lcpOf s prev % 256) % 256] ++
        bytesOf E (s.drop (lcpOf s prev)) ++ encode E lcpOf s ss

theorem bytesOf_length {E : Elem} {P} (g : Good E P) (s : List Nat) :
    (bytesOf E s).length = s.length * E.width := by
  induction s with
  | nil => simp [bytesOf]
  | cons a s ih =>
      simp only [bytesOf, List.flatMap_cons, List.length_append, List.length_cons] at *
      rw [ih, g.len, Nat.succ_mul, Nat.add_comm]

theorem buildBucket_eq (E : Elem) (lcpOf) : ∀ (n : Nat) (prev : List Nat) (input : List (List Nat))
    (bk : List Nat), n ≤ input.length →
    buildBucket E lcpOf n prev input bk =
      .ok (input.drop n, bk ++ encode E lcpOf prev (input.take n))
  | 0, prev, input, bk, _ => by simp [buildBucket, encode]
  | n + 1, prev, [], bk, h => by simp at h
  | n + 1, prev, s :: input, bk, h => by
      simp only [buildBucket]
      rw [buildBucket_eq E lcpOf n s input _ (by simpa using h)]
      simp [write, encode]

/-- an upper bound of the bytes of the strings `L` -/
def weight (E : Elem) (L : List (List Nat)) : Nat := (L.map fun s => s.length * E.width + 2).sum

theorem weight_append (E : Elem) (A B : List (List Nat)) : weight E (A ++ B) = weight E A + weight E B := by
  simp [weight]

theorem weight_cons (E : Elem) (s : List Nat) (A : List (List Nat)) : weight E (s :: A) = s.length * E.width + 2 + weight E A := by
  simp [weight]

theorem encode_length_le {E : Elem} {P} (g : Good E P) (lcpOf) : ∀ (ss : List (List Nat)) (prev : List Nat),
    (encode E lcpOf prev ss).length ≤ weight E ss
  | [], _ => by simp [encode, weight]
  | s :: ss, prev => by
      have ih := encode_length_le g lcpOf ss s
      have h : (s.length - lcpOf s prev) * E.width ≤ s.length * E.width := Nat.mul_le_mul_right _ (Nat.sub_le _ _)
      simp only [encode, List.length_append, bytesOf_length g, List.length_drop, List.length_singleton, weight_cons]
      omega

/-- Bucket `b` of `d` holds header `h` and strings `ss`, with at least `pad` bytes after them. -/
def Holds (E : Elem) (lcpOf : List Nat → List Nat → Nat) (pad : Nat) (d : FC) (b : Nat) (h : List Nat) (ss : List (List Nat)) :
    Prop :=
  (∃ A B, d.headers = A ++ h ++ B ∧ d.ptrHeaders[b]? = some A.length ∧
      d.ptrHeaders[b + 1]? = some (A.length + h.length)) ∧
  (∃ A B, d.buckets = A ++ encode E lcpOf h ss ++ B ∧ d.ptrBuckets[b]? = some A.length ∧
      pad ≤ B.length)

/-- `d'` extends `d` -/
structure Ext (d d' : FC) : Prop where
  size : d'.size = d.size
  ph : d.ptrHeaders <+: d'.ptrHeaders
  pb : d.ptrBuckets <+: d'.ptrBuckets
  hd : d.headers <+: d'.headers
  bk : d.buckets <+: d'.buckets

theorem Ext.refl (d : FC) : Ext d d := ⟨rfl, List.prefix_rfl, List.prefix_rfl, List.prefix_rfl, List.prefix_rfl⟩

theorem Ext.trans {a b c : FC} (h : Ext a b) (h' : Ext b c) : Ext a c :=
  ⟨h'.size.trans h.size, h.ph.trans h'.ph, h.pb.trans h'.pb, h.hd.trans h'.hd, h.bk.trans h'.bk⟩

theorem prefix_getElem? {α} {l l' : List α} (h : l <+: l') {i : Nat} {a : α} (e : l[i]? = some a) :
    l'[i]? = some a := by
  obtain ⟨t, rfl⟩ := h
  have := (List.getElem?_eq_some_iff.mp e).1
  rw [List.getElem?_append_left this, e]

theorem Holds.ext {E lcpOf pad} {d d' : FC} {b h ss} (H : Holds E lcpOf pad d b h ss)
    (x : Ext d d') : Holds E lcpOf pad d' b h ss := by
  obtain ⟨⟨A, B, e1, e2, e3⟩, ⟨A', B', e4, e5, e6⟩⟩ := H
  obtain ⟨t1, ht1⟩ := x.hd
  obtain ⟨t2, ht2⟩ := x.bk
  refine ⟨⟨A, B ++ t1, ?_, prefix_getElem? x.ph e2, prefix_getElem? x.ph e3⟩,
    ⟨A', B' ++ t2, ?_, prefix_getElem? x.pb e5, ?_⟩⟩
  · rw [← ht1, e1]; simp
  · rw [← ht2, e4]; simp
  · simp; omega

theorem buildLoop_spec {E : Elem} {P} (g : Good E P) (lcpOf) (tl : Nat) : ∀ (nb : Nat) (L : List (List Nat)) (d : FC) (b0 : Nat),
    nb = (L.length + 16) / 17 → (nb ≠ 0 → L.length % 17 ≠ 0 ∧ tl = L.length % 17 - 1) →
    d.ptrHeaders.length = b0 + 1 → d.ptrHeaders[b0]? = some d.headers.length →
    d.ptrBuckets.length = b0 + 1 → d.ptrBuckets[b0]? = some d.buckets.length →
    d.headers.length + weight E L < E.ptr → d.buckets.length + weight E L < E.ptr →
    ∃ d', buildLoop E lcpOf tl nb L d = .ok d' ∧ Ext d d' ∧ d'.ptrHeaders.length = b0 + nb + 1 ∧
      ∀ j < nb, ∀ h, L[17 * j]? = some h →
        Holds E lcpOf 0 d' (b0 + j) h ((L.drop (17 * j + 1)).take 16)
  | 0, L, d, b0, h1, h2, h3, h4, h5, h6, h7, h8 => by
      refine ⟨d, rfl, .refl d, by omega, ?_⟩
      intro j hj; omega
  | nb + 1, [], d, b0, h1, h2, h3, h4, h5, h6, h7, h8 => by simp at h1
  | nb + 1, h :: input, d, b0, h1, h2, h3, h4, h5, h6, h7, h8 => by
      obtain ⟨hmod, htl⟩ := h2 (by omega)
      simp only [List.length_cons] at h1 hmod htl
      have hsz : (if nb ≠ 0 then 16 else tl) = min 16 input.length := by
        split <;> omega
      simp only [buildLoop, hsz]
      rw [buildBucket_eq _ _ _ _ _ _ (by omega)]
      simp only [M.ok_bind]
      have hget : input.take (min 16 input.length) = input.take 16 := by
        by_cases hc : 16 ≤ input.length
        · rw [Nat.min_eq_left hc]
        · rw [Nat.min_eq_right (by omega), List.take_of_length_le (by omega), List.take_of_length_le (by omega)]
      rw [hget]
      have hw1 : (encode E lcpOf h (input.take 16)).length + weight E (input.drop (min 16 input.length)) ≤ weight E input := by
        have h1 := encode_length_le g lcpOf (input.take 16) h
        have h2 := weight_append E (input.take (min 16 input.length)) (input.drop (min 16 input.length))
        rw [List.take_append_drop, hget] at h2
        omega
      have hw2 : h.length ≤ h.length * E.width := Nat.le_mul_of_pos_right _ g.wpos
      rw [weight_cons] at h7 h8
      rw [Nat.mod_eq_of_lt (show (d.headers ++ h).length < E.ptr by rw [List.length_append]; omega),
        Nat.mod_eq_of_lt (show (d.buckets ++ encode E lcpOf h (input.take 16)).length < E.ptr by rw [List.length_append]; omega)]
      obtain ⟨d', hd', hext, hlen, hall⟩ := buildLoop_spec g lcpOf tl nb (input.drop (min 16 input.length))
        { d with headers := d.headers ++ h, buckets := d.buckets ++ encode E lcpOf h (input.take 16),
                 ptrHeaders := d.ptrHeaders ++ [(d.headers ++ h).length],
                 ptrBuckets := d.ptrBuckets ++ [(d.buckets ++ encode E lcpOf h (input.take 16)).length] }
        (b0 + 1) (by rw [List.length_drop]; omega) (by intro hne; rw [List.length_drop]; omega)
        (by simp [h3]) (by simp [← h3]) (by simp [h5]) (by simp [← h5])
        (by rw [List.length_append]; omega) (by rw [List.length_append]; omega)
      refine ⟨d', hd', ?_, by omega, ?_⟩
      · refine Ext.trans ?_ hext
        exact ⟨rfl, List.prefix_append .., List.prefix_append .., List.prefix_append .., List.prefix_append ..⟩
      · intro j hj h' hh'
        rcases j with _ | j
        · simp only [Nat.mul_zero, List.getElem?_cons_zero, Option.some.injEq] at hh'
          subst hh'
          refine Holds.ext ?_ hext
          refine ⟨⟨d.headers, [], by simp, ?_, ?_⟩, ⟨d.buckets, [], by simp, ?_, by simp⟩⟩
          · simpa using prefix_getElem? (List.prefix_append _ _) h4
          · simp [← h3]
          · simpa using prefix_getElem? (List.prefix_append _ _) h6
        · have hge : 16 ≤ input.length := by
            have := (List.getElem?_eq_some_iff.mp hh').1
            simp at this; omega
          have := hall j (by omega) h' (by
            rw [List.getElem?_drop, Nat.min_eq_left hge, ← hh']
            rw [show 17 * (j + 1) = (16 + 17 * j) + 1 by omega, List.getElem?_cons_succ])
          rw [List.drop_drop, Nat.min_eq_left hge] at this
          rw [show b0 + (j + 1) = b0 + 1 + j by omega]
          rw [show 17 * (j + 1) + 1 = (16 + (17 * j + 1)) + 1 by omega, List.drop_succ_cons]
          exact this

theorem tail_eq {n : Nat} (h : n % 17 ≠ 0) : tail n = n % 17 - 1 := by
  simp only [tail]; split <;> omega

/-- The builder succeeds and every bucket holds its strings, if the number of strings is not a multiple of 17 and pointers
can hold their sizes. -/
theorem build_spec {E : Elem} {P} (g : Good E P) {lcpOf} {L : List (List Nat)} (hn : L.length % 17 ≠ 0) (hw : weight E L < E.ptr) :
    ∃ d, build E lcpOf L = .ok d ∧ d.size = L.length ∧ d.nBuckets = (L.length + 16) / 17 ∧
      ∀ b < d.nBuckets, ∀ h, L[17 * b]? = some h →
        Holds E lcpOf (E.cap * E.width) d b h ((L.drop (17 * b + 1)).take 16) := by
  obtain ⟨d', hd', hext, hlen, hall⟩ := buildLoop_spec g lcpOf (tail L.length) ((L.length + 16) / 17) L
    { size := L.length, ptrHeaders := [0], ptrBuckets := [0], headers := [], buckets := [] } 0
    rfl (by intro _; exact ⟨hn, tail_eq hn⟩) rfl rfl rfl rfl (by simpa using hw) (by simpa using hw)
  refine ⟨{ d' with buckets := d'.buckets ++ List.replicate (E.cap * E.width) 0 }, ?_, ?_, ?_, ?_⟩
  · simp only [build, hd', M.ok_bind]
  · simpa using hext.size
  · simp only [nBuckets] ; omega
  · intro b hb h hh
    have hb' : b < (L.length + 16) / 17 := by simp only [nBuckets] at hb; omega
    obtain ⟨H1, ⟨A, B, e1, e2, e3⟩⟩ := hall b hb' h hh
    rw [Nat.zero_add] at *
    refine ⟨H1, ⟨A, B ++ List.replicate (E.cap * E.width) 0, ?_, e2, ?_⟩⟩
    · simp [e1]
    · simp

/-! ## Reading -/

theorem header_of_holds {E lcpOf pad} {d : FC} {b h ss} (H : Holds E lcpOf pad d b h ss) :
    d.header b = .ok h := by
  obtain ⟨⟨A, B, e1, e2, e3⟩, _⟩ := H
  simp only [header, rd_of_getElem? e2, rd_of_getElem? e3, M.ok_bind, e1]
  rw [if_pos (by simp)]
  simp

theorem bytesOf_slice {E : Elem} {P} (g : Good E P) (R : List Nat) : ∀ (s : List Nat) (i : Nat)
    (hi : i < s.length), ((bytesOf E s ++ R).drop (i * E.width)).take E.width = E.enc s[i]
  | [], i, hi => by simp at hi
  | a :: s, 0, hi => by
      simp [bytesOf, g.len]
  | a :: s, i + 1, hi => by
      have := bytesOf_slice g R s i (by simpa using hi)
      simp only [bytesOf, List.flatMap_cons, List.append_assoc, List.getElem_cons_succ] at *
      rw [← this, List.drop_append, g.len]
      rw [List.drop_of_length_le (by rw [g.len, Nat.succ_mul]; omega)]
      rw [show (i + 1) * E.width - E.width = i * E.width by rw [Nat.succ_mul]; omega]
      simp

theorem readElems_spec {E : Elem} {P} (g : Good E P) {A B s : List Nat} {n : Nat}
    (hP : ∀ c ∈ s, P c) (hn : s.length ≤ n) (hB : n * E.width ≤ B.length) :
    ∃ chars, readElems E (A ++ bytesOf E s ++ B) A.length n = .ok chars ∧ chars.length = n ∧
      chars.take s.length = s := by
  refine ⟨(List.range n).map fun i =>
      E.dec (((A ++ bytesOf E s ++ B).drop (A.length + i * E.width)).take E.width), ?_, ?_, ?_⟩
  · simp only [readElems]
    rw [if_pos]
    simp; omega
  · simp
  · apply List.ext_getElem
    · simp; omega
    · intro i h1 h2
      simp only [List.getElem_take, List.getElem_map, List.getElem_range]
      rw [List.append_assoc, ← List.drop_drop, List.drop_left, bytesOf_slice g B s i h2]
      exact g.rt _ (hP _ (List.getElem_mem h2))

theorem decode_spec {E : Elem} {P} (g : Good E P) {lcpOf} {d : FC} {A B prev s : List Nat}
    {ss : List (List Nat)} {out : List Nat} {base : Nat}
    (hd : d.buckets = A ++ encode E lcpOf prev (s :: ss) ++ B)
    (hB : E.cap * E.width ≤ B.length) (hP : ∀ c ∈ s, P c) (hs : s.length ≤ E.cap)
    (hl : LcpOk lcpOf s prev) (hout : (out.drop base).take prev.length = prev)
    (hcap : base + lcpOf s prev + E.cap ≤ out.length) :
    ∃ out', decode E d A.length out base = .ok (out', s.length, lcpOf s prev) ∧
      out'.length = out.length ∧ out'.take base = out.take base ∧
      (out'.drop base).take s.length = s ∧
      ∃ A', d.buckets = A' ++ encode E lcpOf s ss ++ B ∧
        A'.length = A.length + 2 + s.length * E.width - lcpOf s prev * E.width := by
  obtain ⟨hl1, hl2, hl3⟩ := hl
  generalize hL : lcpOf s prev = l at *
  have hcl := g.capLt
  have hd' : d.buckets = (A ++ [l] ++ [s.length - l]) ++ bytesOf E (s.drop l) ++
      (encode E lcpOf s ss ++ B) := by
    rw [hd]
    simp only [encode, hL]
    rw [Nat.mod_eq_of_lt (show l < 256 by omega), show (s.length + 256 - l) % 256 = s.length - l by omega]
    simp
  have r1 : rd d.buckets A.length = .ok l := rd_of_getElem? (by rw [hd']; simp)
  have r2 : rd d.buckets (A.length + 1) = .ok (s.length - l) := rd_of_getElem? (by
    rw [hd']
    simp)
  obtain ⟨chars, c1, c2, c3⟩ := readElems_spec g (A := A ++ [l] ++ [s.length - l])
    (B := encode E lcpOf s ss ++ B) (s := s.drop l) (n := E.cap)
    (fun c hc => hP c (List.mem_of_mem_drop hc)) (by simp; omega) (by simp; omega)
  rw [← hd'] at c1
  have hAl : (A ++ [l] ++ [s.length - l]).length = A.length + 2 := by simp
  rw [hAl] at c1
  have hm := memcpy_ok (dst := out) (doff := base + l) (src := chars) (soff := 0) (n := E.cap)
    (by omega) (by omega)
  refine ⟨out.take (base + l) ++ (chars.drop 0).take E.cap ++ out.drop (base + l + E.cap),
    ?_, ?_, ?_, ?_, ?_⟩
  · simp only [decode, r1, r2, c1, hm, M.ok_bind]
    rw [show l + (s.length - l) = s.length by omega, Nat.mod_eq_of_lt (by omega)]
  · simp; omega
  · rw [List.append_assoc, List.take_append_of_le_length (by simp; omega), List.take_take]
    congr 1; omega
  · clear hm
    have hch : (chars.drop 0).take E.cap = chars := by
      rw [List.drop_zero, List.take_of_length_le (by omega)]
    rw [hch, List.append_assoc, List.drop_append_of_le_length (by simp; omega)]
    rw [List.drop_take, show base + l - base = l by omega]
    have h1 : ((out.drop base).take l).length = l := by simp; omega
    have h2 : (out.drop base).take l = s.take l := by
      rw [hl3, ← hout, List.take_take, Nat.min_eq_left hl2]
    rw [List.take_append, h1, List.take_append, c2, show s.length - l - E.cap = 0 by omega, h2]
    simp only [List.take_zero, List.append_nil, List.take_take]
    rw [Nat.min_eq_right hl1]
    rw [List.length_drop] at c3
    rw [c3, List.take_append_drop]
  · refine ⟨A ++ [l] ++ [s.length - l] ++ bytesOf E (s.drop l), ?_, ?_⟩
    · rw [hd']; simp
    · rw [List.length_append, hAl, bytesOf_length g, List.length_drop, Nat.sub_mul]
      have := Nat.mul_le_mul_right E.width hl1
      omega

/-- the copy of `decode` does not fit in the array -/
theorem decode_oob {E : Elem} {P} (g : Good E P) {lcpOf} {d : FC} {A B prev s : List Nat}
    {ss : List (List Nat)} {out : List Nat} {base : Nat}
    (hd : d.buckets = A ++ encode E lcpOf prev (s :: ss) ++ B)
    (hB : E.cap * E.width ≤ B.length) (hP : ∀ c ∈ s, P c) (hs : s.length ≤ E.cap)
    (hl : LcpOk lcpOf s prev) (hcap : out.length < base + lcpOf s prev + E.cap) :
    decode E d A.length out base = .error .oob := by
  obtain ⟨hl1, hl2, hl3⟩ := hl
  generalize hL : lcpOf s prev = l at *
  have hcl := g.capLt
  have hd' : d.buckets = (A ++ [l] ++ [s.length - l]) ++ bytesOf E (s.drop l) ++
      (encode E lcpOf s ss ++ B) := by
    rw [hd]
    simp only [encode, hL]
    rw [Nat.mod_eq_of_lt (show l < 256 by omega), show (s.length + 256 - l) % 256 = s.length - l by omega]
    simp
  have r1 : rd d.buckets A.length = .ok l := rd_of_getElem? (by rw [hd']; simp)
  have r2 : rd d.buckets (A.length + 1) = .ok (s.length - l) := rd_of_getElem? (by
    rw [hd']
    simp)
  obtain ⟨chars, c1, c2, c3⟩ := readElems_spec g (A := A ++ [l] ++ [s.length - l])
    (B := encode E lcpOf s ss ++ B) (s := s.drop l) (n := E.cap)
    (fun c hc => hP c (List.mem_of_mem_drop hc)) (by simp; omega) (by simp; omega)
  rw [← hd'] at c1
  have hAl : (A ++ [l] ++ [s.length - l]).length = A.length + 2 := by simp
  rw [hAl] at c1
  have hm : memcpy out (base + l) chars 0 E.cap = .error .oob := by
    unfold memcpy
    rw [if_neg (by omega)]
  simp only [decode, r1, r2, c1, hm, M.ok_bind, M.error_bind]

/-- consecutive strings of a bucket have a valid common prefix length -/
def ChainOk (lcpOf : List Nat → List Nat → Nat) : List Nat → List (List Nat) → Prop
  | _, [] => True
  | prev, s :: ss => LcpOk lcpOf s prev ∧ ChainOk lcpOf s ss

theorem extractLoop_spec {E : Elem} {P} (g : Good E P) {lcpOf} {d : FC} {B : List Nat} {base m : Nat}
    (hB : E.cap * E.width ≤ B.length) (hm : m ≤ E.cap) :
    ∀ (k : Nat) (A prev : List Nat) (ss : List (List Nat)) (out : List Nat),
    d.buckets = A ++ encode E lcpOf prev ss ++ B → ChainOk lcpOf prev ss →
    (∀ s ∈ ss, s.length ≤ m ∧ ∀ c ∈ s, P c) → (out.drop base).take prev.length = prev →
    base + m + E.cap ≤ out.length → k ≤ ss.length →
    ∀ s, (prev :: ss)[k]? = some s →
    ∃ out', extractLoop E d k A.length out base prev.length = .ok (out', s.length) ∧
      out'.length = out.length ∧ out'.take base = out.take base ∧
      (out'.drop base).take s.length = s
  | 0, A, prev, ss, out, hd, hc, hP, ho, hcap, hk, s, hs => by
      simp only [List.getElem?_cons_zero, Option.some.injEq] at hs
      subst hs
      exact ⟨out, rfl, rfl, rfl, ho⟩
  | k + 1, A, prev, [], out, hd, hc, hP, ho, hcap, hk, s, hs => by simp at hk
  | k + 1, A, prev, s1 :: ss, out, hd, hc, hP, ho, hcap, hk, s, hs => by
      obtain ⟨hlen, hPs⟩ := hP s1 (by simp)
      obtain ⟨out1, e1, e2, e3, e4, A', e5, e6⟩ := decode_spec g hd hB hPs (by omega) hc.1 ho (by have := hc.1.1; omega)
      obtain ⟨out2, f1, f2, f3, f4⟩ := extractLoop_spec g hB hm k A' s1 ss out1 e5 hc.2
        (fun s hs => hP s (List.mem_cons_of_mem _ hs)) e4 (by omega) (by simpa using hk) s (by simpa using hs)
      refine ⟨out2, ?_, by omega, by rw [f3, e3], f4⟩
      simp only [extractLoop, e1, M.ok_bind]
      rw [← e6]
      exact f1

theorem extractAt_spec {E : Elem} {P} (g : Good E P) {lcpOf} {d : FC} {b base m k : Nat}
    {h : List Nat} {ss : List (List Nat)}
    (H : Holds E lcpOf (E.cap * E.width) d b h ss) (hm : m ≤ E.cap) (hc : ChainOk lcpOf h ss)
    (hP : ∀ s ∈ h :: ss, s.length ≤ m ∧ ∀ c ∈ s, P c) (out : List Nat)
    (hcap : base + m + E.cap ≤ out.length) {s : List Nat} (hs : (h :: ss)[k]? = some s) :
    ∃ out', extractAt E d k b out base = .ok (out', s.length) ∧
      out'.length = out.length ∧ out'.take base = out.take base ∧
      (out'.drop base).take s.length = s := by
  have hh := header_of_holds H
  obtain ⟨_, A, B, e1, e2, e3⟩ := H
  have hhl : h.length ≤ m := (hP h (by simp)).1
  have hcl := g.capLt
  have hk : k ≤ ss.length := by
    have := (List.getElem?_eq_some_iff.mp hs).1
    simp at this; omega
  have hmc := memcpy_ok (dst := out) (doff := base) (src := h) (soff := 0) (n := h.length)
    (by omega) (by omega)
  obtain ⟨out', f1, f2, f3, f4⟩ := extractLoop_spec (base := base) g e3 hm k A h ss
    (out.take base ++ (h.drop 0).take h.length ++ out.drop (base + h.length)) e1 hc
    (fun s hs => hP s (List.mem_cons_of_mem _ hs)) (by
      rw [List.append_assoc, List.drop_left' (l₁ := out.take base) (by simp; omega)]; simp) (by simp; omega) hk s hs
  refine ⟨out', ?_, ?_, ?_, f4⟩
  · simp only [extractAt, hh, hmc, rd_of_getElem? e2, M.ok_bind]
    rw [Nat.mod_eq_of_lt (by omega), f1]
  · rw [f2]; simp; omega
  · rw [f3, List.append_assoc, List.take_left' (l₁ := out.take base) (by simp; omega)]

/-- whatever the room left in the array, the string is either decoded or the copy leaves the array -/
theorem extractLoop_any {E : Elem} {P} (g : Good E P) {lcpOf} {d : FC} {B : List Nat} {base m : Nat}
    (hB : E.cap * E.width ≤ B.length) (hm : m ≤ E.cap) :
    ∀ (k : Nat) (A prev : List Nat) (ss : List (List Nat)) (out : List Nat),
    d.buckets = A ++ encode E lcpOf prev ss ++ B → ChainOk lcpOf prev ss →
    (∀ s ∈ ss, s.length ≤ m ∧ ∀ c ∈ s, P c) → (out.drop base).take prev.length = prev →
    k ≤ ss.length →
    ∀ s, (prev :: ss)[k]? = some s →
    extractLoop E d k A.length out base prev.length = .error .oob ∨
    ∃ out', extractLoop E d k A.length out base prev.length = .ok (out', s.length) ∧
      out'.length = out.length ∧ out'.take base = out.take base ∧
      (out'.drop base).take s.length = s
  | 0, A, prev, ss, out, hd, hc, hP, ho, hk, s, hs => by
      simp only [List.getElem?_cons_zero, Option.some.injEq] at hs
      subst hs
      exact Or.inr ⟨out, rfl, rfl, rfl, ho⟩
  | k + 1, A, prev, [], out, hd, hc, hP, ho, hk, s, hs => by simp at hk
  | k + 1, A, prev, s1 :: ss, out, hd, hc, hP, ho, hk, s, hs => by
      obtain ⟨hlen, hPs⟩ := hP s1 (by simp)
      by_cases hcap : base + lcpOf s1 prev + E.cap ≤ out.length
      · obtain ⟨out1, e1, e2, e3, e4, A', e5, e6⟩ := decode_spec g hd hB hPs (by omega) hc.1 ho hcap
        simp only [extractLoop, e1, M.ok_bind]
        rw [← e6]
        rcases extractLoop_any g hB hm k A' s1 ss out1 e5 hc.2
          (fun s hs => hP s (List.mem_cons_of_mem _ hs)) e4 (by simpa using hk) s (by simpa using hs) with f | f
        · exact Or.inl f
        · obtain ⟨out2, f1, f2, f3, f4⟩ := f
          exact Or.inr ⟨out2, f1, by omega, by rw [f3, e3], f4⟩
      · left
        simp only [extractLoop, decode_oob g hd hB hPs (by omega) hc.1 (Nat.lt_of_not_le hcap), M.error_bind]

theorem extractAt_any {E : Elem} {P} (g : Good E P) {lcpOf} {d : FC} {b base m k : Nat}
    {h : List Nat} {ss : List (List Nat)}
    (H : Holds E lcpOf (E.cap * E.width) d b h ss) (hm : m ≤ E.cap) (hc : ChainOk lcpOf h ss)
    (hP : ∀ s ∈ h :: ss, s.length ≤ m ∧ ∀ c ∈ s, P c) (out : List Nat)
    {s : List Nat} (hs : (h :: ss)[k]? = some s) :
    extractAt E d k b out base = .error .oob ∨
    ∃ out', extractAt E d k b out base = .ok (out', s.length) ∧ base ≤ out.length ∧
      out'.length = out.length ∧ out'.take base = out.take base ∧
      (out'.drop base).take s.length = s := by
  have hh := header_of_holds H
  obtain ⟨_, A, B, e1, e2, e3⟩ := H
  have hhl : h.length ≤ m := (hP h (by simp)).1
  have hcl := g.capLt
  have hk : k ≤ ss.length := by
    have := (List.getElem?_eq_some_iff.mp hs).1
    simp at this; omega
  by_cases hcap : base + h.length ≤ out.length
  · have hmc := memcpy_ok (dst := out) (doff := base) (src := h) (soff := 0) (n := h.length)
      (by omega) (by omega)
    simp only [extractAt, hh, hmc, rd_of_getElem? e2, M.ok_bind]
    rw [Nat.mod_eq_of_lt (by omega)]
    rcases extractLoop_any (base := base) g e3 hm k A h ss
      (out.take base ++ (h.drop 0).take h.length ++ out.drop (base + h.length)) e1 hc
      (fun s hs => hP s (List.mem_cons_of_mem _ hs)) (by
        rw [List.append_assoc, List.drop_left' (l₁ := out.take base) (by simp; omega)]; simp) hk s hs with f | f
    · exact Or.inl f
    · obtain ⟨out', f1, f2, f3, f4⟩ := f
      refine Or.inr ⟨out', f1, by omega, ?_, ?_, f4⟩
      · rw [f2]; simp; omega
      · rw [f3, List.append_assoc, List.take_left' (l₁ := out.take base) (by simp; omega)]
  · left
    have hmc : memcpy out base h 0 h.length = .error .oob := by
      unfold memcpy
      rw [if_neg (by omega)]
    simp only [extractAt, hh, hmc, M.ok_bind, M.error_bind]

/-- the first result given by `stop` along `ss`, whose first string has index `i` -/
def firstSome {ρ : Type} (stop : Nat → List Nat → Option ρ) : Nat → List (List Nat) → Option ρ
  | _, [] => none
  | i, s :: ss => match stop i s with
    | some r => some r
    | none => firstSome stop (i + 1) ss

theorem scanLoop_spec {ρ : Type} {E : Elem} {P} (g : Good E P) {lcpOf} {d : FC} {B : List Nat} {m : Nat}
    (hB : E.cap * E.width ≤ B.length) (hm : m ≤ E.cap) (stop : Nat → List Nat → Option ρ) :
    ∀ (ss : List (List Nat)) (i : Nat) (A prev : List Nat) (out : List Nat),
    d.buckets = A ++ encode E lcpOf prev ss ++ B → ChainOk lcpOf prev ss →
    (∀ s ∈ ss, s.length ≤ m ∧ ∀ c ∈ s, P c) → out.take prev.length = prev →
    m + E.cap ≤ out.length →
    ∃ out', scanLoop E d stop ss.length i A.length out = .ok (firstSome stop i ss, out') ∧
      out'.length = out.length
  | [], i, A, prev, out, hd, hc, hP, ho, hcap => ⟨out, rfl, rfl⟩
  | s1 :: ss, i, A, prev, out, hd, hc, hP, ho, hcap => by
      obtain ⟨hlen, hPs⟩ := hP s1 (by simp)
      obtain ⟨out1, e1, e2, e3, e4, A', e5, e6⟩ := decode_spec (base := 0) g hd hB hPs (by omega) hc.1
        (by simpa using ho) (by have := hc.1.1; omega)
      simp only [List.drop_zero] at e4
      obtain ⟨out2, f1, f2⟩ := scanLoop_spec g hB hm stop ss (i + 1) A' s1 out1 e5 hc.2
        (fun s hs => hP s (List.mem_cons_of_mem _ hs)) e4 (by omega)
      simp only [scanLoop, List.length_cons, e1, M.ok_bind, e4, firstSome]
      cases hst : stop i s1 with
      | some r => exact ⟨out1, rfl, e2⟩
      | none =>
          simp only
          rw [← e6]
          exact ⟨out2, f1, by omega⟩

theorem scan_spec {ρ : Type} {E : Elem} {P} (g : Good E P) {lcpOf} {d : FC} {b m : Nat}
    {h : List Nat} {ss : List (List Nat)}
    (H : Holds E lcpOf (E.cap * E.width) d b h ss) (hm : m ≤ E.cap) (hc : ChainOk lcpOf h ss)
    (hP : ∀ s ∈ h :: ss, s.length ≤ m ∧ ∀ c ∈ s, P c) (stop : Nat → List Nat → Option ρ)
    (hbs : d.bucketSize b = ss.length) (buf : List Nat) (hcap : m + E.cap ≤ buf.length) :
    ∃ buf', scan E d stop h b buf = .ok (firstSome stop 1 ss, buf') ∧ buf'.length = buf.length := by
  obtain ⟨_, A, B, e1, e2, e3⟩ := H
  have hhl : h.length ≤ m := (hP h (by simp)).1
  have hmc := memcpy_ok (dst := buf) (doff := 0) (src := h) (soff := 0) (n := h.length)
    (by omega) (by omega)
  obtain ⟨out', f1, f2⟩ := scanLoop_spec g e3 hm stop ss 1 A h
    (buf.take 0 ++ (h.drop 0).take h.length ++ buf.drop (0 + h.length)) e1 hc
    (fun s hs => hP s (List.mem_cons_of_mem _ hs)) (by simp) (by simp; omega)
  refine ⟨out', ?_, ?_⟩
  · simp only [scan, hmc, rd_of_getElem? e2, M.ok_bind, hbs]
    exact f1
  · rw [f2]; simp; omega

end FC
end AC
