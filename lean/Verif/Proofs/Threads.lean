import Verif.Proofs.FcSearch
import Verif.Model.Threads
/-!
# Lemmas on lookups by several threads
-/
namespace AC
namespace FC

/-- `decode` into an array with any content -/
theorem decode_into {E : Elem} {P} (g : Good E P) {lcpOf} {d : FC} {A B prev s : List Nat}
    {ss : List (List Nat)} {out : List Nat}
    (hd : d.buckets = A ++ encode E lcpOf prev (s :: ss) ++ B)
    (hB : E.cap * E.width ≤ B.length) (hP : ∀ c ∈ s, P c) (hs : s.length ≤ E.cap)
    (hl : LcpOk lcpOf s prev) (hcap : s.length + E.cap ≤ out.length) :
    ∃ out', decode E d A.length out 0 = .ok (out', s.length, lcpOf s prev) ∧ out'.length = out.length ∧
      (out.take prev.length = prev → out'.take s.length = s) ∧
      ∃ A', d.buckets = A' ++ encode E lcpOf s ss ++ B ∧ A'.length = A.length + 2 + s.length * E.width - lcpOf s prev * E.width := by
  by_cases ho : out.take prev.length = prev
  · obtain ⟨out', h1, h2, _, h4, h5⟩ := decode_spec (base := 0) g hd hB hP hs hl (by simpa using ho) (by have := hl.1; omega)
    exact ⟨out', h1, h2, fun _ => by simpa using h4, h5⟩
  · -- the same steps with an array that holds the previous string
    obtain ⟨hl1, hl2, hl3⟩ := hl
    generalize hL : lcpOf s prev = l at *
    have hcl := g.capLt
    have hd' : d.buckets = (A ++ [l] ++ [s.length - l]) ++ bytesOf E (s.drop l) ++
        (encode E lcpOf s ss ++ B) := by
      rw [hd]
      simp only [encode, hL]
      rw [Nat.mod_eq_of_lt (show l < 256 by omega), show (s.length + 256 - l) % 256 = s.length - l by omega]
      simp
    have r1 : rd d.buckets A.length = .ok l := rd_of_getElem? (by rw [hd']; simp)
    have r2 : rd d.buckets (A.length + 1) = .ok (s.length - l) := rd_of_getElem? (by
      rw [hd']
      simp)
    obtain ⟨chars, c1, c2, c3⟩ := readElems_spec g (A := A ++ [l] ++ [s.length - l])
      (B := encode E lcpOf s ss ++ B) (s := s.drop l) (n := E.cap)
      (fun c hc => hP c (List.mem_of_mem_drop hc)) (by simp; omega) (by simp; omega)
    rw [← hd'] at c1
    have hAl : (A ++ [l] ++ [s.length - l]).length = A.length + 2 := by simp
    rw [hAl] at c1
    have hm := memcpy_ok (dst := out) (doff := 0 + l) (src := chars) (soff := 0) (n := E.cap)
      (by omega) (by omega)
    refine ⟨out.take (0 + l) ++ (chars.drop 0).take E.cap ++ out.drop (0 + l + E.cap), ?_, ?_, fun h => absurd h ho, ?_⟩
    · simp only [decode, r1, r2, c1, hm, M.ok_bind]
      rw [show l + (s.length - l) = s.length by omega, Nat.mod_eq_of_lt (by omega)]
    · simp; omega
    · refine ⟨A ++ [l] ++ [s.length - l] ++ bytesOf E (s.drop l), ?_, ?_⟩
      · rw [hd']; simp
      · rw [List.length_append, hAl, bytesOf_length g, List.length_drop, Nat.sub_mul]
        have := Nat.mul_le_mul_right E.width hl1
        omega

/-- the bucket that a thread scans: its strings after the header -/
structure Bucket (E : Elem) (P : Nat → Prop) (lcpOf : List Nat → List Nat → Nat) (m : Nat) (d : FC) (c : Scan) (ss : List (List Nat)) : Prop where
  holds : Holds E lcpOf (E.cap * E.width) d c.b c.h ss
  chain : ChainOk lcpOf c.h ss
  chars : ∀ s ∈ c.h :: ss, s.length ≤ m ∧ ∀ x ∈ s, P x
  size : d.bucketSize c.b = ss.length

/-- what is known of a thread, whatever the array contains -/
def Scan.At (E : Elem) (lcpOf : List Nat → List Nat → Nat) (d : FC) (c : Scan) (ss : List (List Nat)) : PC → Prop
  | .enter => True
  | .loop n i cur => ∃ A B prev rest, d.buckets = A ++ encode E lcpOf prev rest ++ B ∧ E.cap * E.width ≤ B.length ∧ cur = A.length ∧
      n = rest.length ∧ ChainOk lcpOf prev rest ∧ 1 ≤ i ∧ (c.h :: ss).drop (i - 1) = prev :: rest
  | .test n i cur len l => ∃ A B prev s rest, d.buckets = A ++ encode E lcpOf prev (s :: rest) ++ B ∧ E.cap * E.width ≤ B.length ∧
      cur = A.length ∧ n = rest.length ∧ ChainOk lcpOf prev (s :: rest) ∧ 1 ≤ i ∧ (c.h :: ss).drop (i - 1) = prev :: s :: rest ∧
      len = s.length ∧ l = lcpOf s prev
  | .done r => r = none ∨ ∃ i x, 1 ≤ i ∧ i ≤ ss.length ∧ c.stop i x = r

variable {E : Elem} {P : Nat → Prop} {lcpOf : List Nat → List Nat → Nat} {m : Nat} {d : FC} {c : Scan} {ss : List (List Nat)}

theorem drop_next {α} {l : List α} {i : Nat} {a : α} {r : List α} (h : l.drop i = a :: r) : l.drop (i + 1) = r := by
  rw [← List.drop_drop, h, List.drop_succ_cons, List.drop_zero]

/-- no step fails -/
theorem Scan.step_ok (g : Good E P) (hm : m ≤ E.cap) (b : Bucket E P lcpOf m d c ss) {p : PC} (hp : c.At E lcpOf d ss p) {buf : List Nat}
    (hbuf : m + E.cap ≤ buf.length) : ∃ p' buf', c.step E d p buf = .ok (p', buf') ∧ buf'.length = buf.length ∧ c.At E lcpOf d ss p' := by
  cases p with
  | enter =>
      obtain ⟨_, A, B, e1, e2, e3⟩ := b.holds
      have hhl := (b.chars c.h (List.mem_cons_self ..)).1
      refine ⟨.loop (d.bucketSize c.b) 1 A.length, buf.take 0 ++ (c.h.drop 0).take c.h.length ++ buf.drop (0 + c.h.length), ?_, ?_, A, B, c.h, ss, e1, e3, rfl,
        b.size, b.chain, Nat.le_refl 1, rfl⟩
      · simp only [Scan.step]
        rw [memcpy_ok (by omega) (by omega), M.ok_bind, rd_of_getElem? e2, M.ok_bind]
      · simp; omega
  | loop n i cur =>
      obtain ⟨A, B, prev, rest, e1, e2, rfl, rfl, e5, e6, e7⟩ := hp
      cases rest with
      | nil => exact ⟨_, _, rfl, rfl, Or.inl rfl⟩
      | cons s rest =>
          obtain ⟨hlen, hPs⟩ := b.chars s (List.mem_of_mem_drop (i := i - 1) (by rw [e7]; simp))
          obtain ⟨out, f1, f2, _, _⟩ := decode_into g e1 e2 hPs (by omega) e5.1 (by omega : s.length + E.cap ≤ buf.length)
          refine ⟨.test rest.length i A.length s.length (lcpOf s prev), out, ?_, f2, A, B, prev, s, rest, e1, e2, rfl, rfl, e5, e6, e7, rfl, rfl⟩
          simp only [List.length_cons, Scan.step, f1, M.ok_bind]
  | test n i cur len l =>
      obtain ⟨A, B, prev, s, rest, e1, e2, rfl, rfl, e5, e6, e7, rfl, rfl⟩ := hp
      obtain ⟨hlen, hPs⟩ := b.chars s (List.mem_of_mem_drop (i := i - 1) (by rw [e7]; simp))
      have hi : i ≤ ss.length := by
        have := congrArg List.length e7
        simp at this
        omega
      cases hst : c.stop i (buf.take s.length) with
      | some r =>
          refine ⟨.done (some r), buf, ?_, rfl, Or.inr ⟨i, buf.take s.length, e6, hi, hst⟩⟩
          simp only [Scan.step, hst]
      | none =>
          obtain ⟨out, _, _, _, A', f4, f5⟩ := decode_into (out := List.replicate (s.length + E.cap) 0) g e1 e2 hPs (by omega) e5.1 (by simp)
          refine ⟨.loop rest.length (i + 1) (A.length + 2 + s.length * E.width - lcpOf s prev * E.width), buf, ?_, rfl, A', B, s, rest, f4, e2, f5.symm, rfl,
            e5.2, by omega, ?_⟩
          · simp only [Scan.step, hst]
          · rw [show i + 1 - 1 = i - 1 + 1 by omega]
            exact drop_next e7
  | done r => exact ⟨_, _, rfl, rfl, hp⟩

/-! ## One thread -/

/-- `n` steps of a thread alone -/
def Scan.go (E : Elem) (d : FC) (c : Scan) : Nat → PC → List Nat → M (PC × List Nat)
  | 0, p, buf => .ok (p, buf)
  | n + 1, p, buf => do
      let (p, buf) ← c.step E d p buf
      c.go E d n p buf

theorem Scan.go_add {n n' : Nat} : ∀ {p p' p'' : PC} {buf buf' buf'' : List Nat}, c.go E d n p buf = .ok (p', buf') →
    c.go E d n' p' buf' = .ok (p'', buf'') → c.go E d (n + n') p buf = .ok (p'', buf'') := by
  induction n with
  | zero =>
      intro p p' p'' buf buf' buf'' h h'
      cases h
      rw [Nat.zero_add]
      exact h'
  | succ n ih =>
      intro p p' p'' buf buf' buf'' h h'
      rw [Nat.succ_add]
      unfold Scan.go at h ⊢
      cases hs : c.step E d p buf with
      | error e => rw [hs] at h; cases h
      | ok x =>
          rw [hs] at h
          exact ih h h'

theorem World.run_append {calls : Nat → Scan} : ∀ {s s' : List Nat} {w w' : World}, World.run E d calls s w = .ok w' →
    World.run E d calls (s ++ s') w = World.run E d calls s' w' := by
  intro s
  induction s with
  | nil => intro s' w w' h; cases h; rfl
  | cons k s ih =>
      intro s' w w' h
      simp only [List.cons_append, World.run] at h ⊢
      cases hs : World.step E d calls k w with
      | error e => rw [hs] at h; cases h
      | ok x =>
          rw [hs] at h
          exact ih h

theorem World.run_alone {calls : Nat → Scan} (k : Nat) : ∀ (n : Nat) {w : World} {p : PC} {buf : List Nat},
    (calls k).go E d n (w.pc k) w.decoded = .ok (p, buf) →
    World.run E d calls (List.replicate n k) w = .ok ⟨fun j => if j = k then p else w.pc j, buf⟩ := by
  intro n
  induction n with
  | zero =>
      intro w p buf h
      cases h
      simp only [List.replicate, World.run]
      obtain ⟨pc, buf⟩ := w
      congr 2
      funext j
      by_cases hj : j = k
      · rw [if_pos hj, hj]
      · rw [if_neg hj]
  | succ n ih =>
      intro w p buf h
      unfold Scan.go at h
      cases hs : (calls k).step E d (w.pc k) w.decoded with
      | error e => rw [hs] at h; cases h
      | ok x =>
          rw [hs] at h
          simp only [List.replicate, World.run, World.step, hs, M.ok_bind]
          rw [ih (w := ⟨fun j => if j = k then x.1 else w.pc j, x.2⟩) (p := p) (buf := buf) (by simpa using h)]
          congr
          funext j
          by_cases hj : j = k
          · rw [if_pos hj, if_pos hj]
          · rw [if_neg hj, if_neg hj]
            exact if_neg hj

/-- a thread alone does what `scanLoop` does -/
theorem Scan.go_loop : ∀ (n i cur : Nat) (buf : List Nat) {r : Option Nat} {buf' : List Nat},
    scanLoop E d c.stop n i cur buf = .ok (r, buf') → ∃ N, c.go E d N (.loop n i cur) buf = .ok (.done r, buf') := by
  intro n
  induction n with
  | zero =>
      intro i cur buf r buf' h
      cases h
      exact ⟨1, rfl⟩
  | succ n ih =>
      intro i cur buf r buf' h
      unfold scanLoop at h
      cases hd : decode E d cur buf 0 with
      | error e => rw [hd] at h; cases h
      | ok x =>
          obtain ⟨out, len, l⟩ := x
          rw [hd] at h
          simp only [M.ok_bind] at h
          have h1 : c.step E d (.loop (n + 1) i cur) buf = .ok (.test n i cur len l, out) := by
            simp only [Scan.step, hd, M.ok_bind]
          cases hst : c.stop i (out.take len) with
          | some r' =>
              rw [hst] at h
              cases h
              refine ⟨2, ?_⟩
              simp only [Scan.go, h1, M.ok_bind]
              simp only [Scan.step, hst, M.ok_bind]
          | none =>
              rw [hst] at h
              obtain ⟨N, hN⟩ := ih _ _ _ h
              refine ⟨N + 1 + 1, ?_⟩
              simp only [Scan.go, h1, M.ok_bind]
              simp only [Scan.step, hst, M.ok_bind]
              exact hN

/-- a thread alone does what `scan` does -/
theorem Scan.go_scan {buf : List Nat} {r : Option Nat} {buf' : List Nat} (h : scan E d c.stop c.h c.b buf = .ok (r, buf')) :
    ∃ N, c.go E d N .enter buf = .ok (.done r, buf') := by
  unfold scan at h
  cases h1 : memcpy buf 0 c.h 0 c.h.length with
  | error e => rw [h1] at h; cases h
  | ok out =>
      rw [h1, M.ok_bind] at h
      cases h2 : rd d.ptrBuckets c.b with
      | error e => simp only [h2, M.error_bind] at h; cases h
      | ok cur =>
          simp only [h2, M.ok_bind] at h
          obtain ⟨N, hN⟩ := Scan.go_loop _ _ _ _ h
          refine ⟨N + 1, ?_⟩
          simp only [Scan.go, Scan.step, h1, h2, M.ok_bind]
          exact hN

/-- a thread alone gets to the test of a string, which is then in the array, if it does not stop before -/
theorem Scan.go_to (g : Good E P) (hm : m ≤ E.cap) (b : Bucket E P lcpOf m d c ss) {s : List Nat} {post : List (List Nat)} :
    ∀ (pre : List (List Nat)) (A B prev : List Nat) (i : Nat) (buf : List Nat), d.buckets = A ++ encode E lcpOf prev (pre ++ s :: post) ++ B →
      E.cap * E.width ≤ B.length → ChainOk lcpOf prev (pre ++ s :: post) → 1 ≤ i → (c.h :: ss).drop (i - 1) = prev :: (pre ++ s :: post) →
      m + E.cap ≤ buf.length → buf.take prev.length = prev → (∀ q (hq : q < pre.length), c.stop (i + q) pre[q] = none) →
      ∃ N cur l buf', c.go E d N (.loop (pre.length + 1 + post.length) i A.length) buf = .ok (.test post.length (i + pre.length) cur s.length l, buf') ∧
        buf'.length = buf.length ∧ buf'.take s.length = s ∧ c.At E lcpOf d ss (.test post.length (i + pre.length) cur s.length l) := by
  intro pre
  induction pre with
  | nil =>
      intro A B prev i buf e1 e2 e5 e6 e7 hbuf hp _
      obtain ⟨hlen, hPs⟩ := b.chars s (List.mem_of_mem_drop (i := i - 1) (by rw [e7]; simp))
      obtain ⟨out, f1, f2, f3, _⟩ := decode_into g e1 e2 hPs (by omega) e5.1 (by omega : s.length + E.cap ≤ buf.length)
      refine ⟨1, A.length, lcpOf s prev, out, ?_, f2, f3 hp, A, B, prev, s, post, e1, e2, rfl, rfl, e5, e6, e7, rfl, rfl⟩
      rw [List.length_nil, show 0 + 1 + post.length = post.length + 1 by omega]
      simp only [Scan.go, Scan.step, f1, M.ok_bind, Nat.add_zero]
  | cons s1 pre ih =>
      intro A B prev i buf e1 e2 e5 e6 e7 hbuf hp hno
      obtain ⟨hlen, hPs⟩ := b.chars s1 (List.mem_of_mem_drop (i := i - 1) (by rw [e7]; simp))
      obtain ⟨out, f1, f2, f3, A', f4, f5⟩ := decode_into (s := s1) (ss := pre ++ s :: post) g e1 e2 hPs (by omega) e5.1
        (by omega : s1.length + E.cap ≤ buf.length)
      obtain ⟨N, cur, l, buf', g1, g2, g3, g4⟩ := ih A' B s1 (i + 1) out f4 e2 e5.2 (by omega)
        (by rw [show i + 1 - 1 = i - 1 + 1 by omega]; exact drop_next e7) (by omega) (f3 hp) (by
          intro q hq
          have := hno (q + 1) (by simpa using hq)
          rw [show i + 1 + q = i + (q + 1) by omega]
          simpa using this)
      have h0 := hno 0 (by simp)
      simp only [Nat.add_zero, List.getElem_cons_zero] at h0
      refine ⟨N + 1 + 1, cur, l, buf', ?_, by omega, g3, ?_⟩
      · rw [List.length_cons, show pre.length + 1 + 1 + post.length = pre.length + 1 + post.length + 1 by omega]
        simp only [Scan.go, Scan.step, f1, M.ok_bind, f3 hp, h0]
        rw [← f5, g1, show i + 1 + pre.length = i + (pre.length + 1) by omega]
      · rw [List.length_cons, show i + (pre.length + 1) = i + 1 + pre.length by omega]
        exact g4

/-- a thread alone gets to its end; what it returns is given by a string it has still to test -/
theorem Scan.go_end (g : Good E P) (hm : m ≤ E.cap) (b : Bucket E P lcpOf m d c ss) :
    ∀ (n i cur : Nat) (buf : List Nat), c.At E lcpOf d ss (.loop n i cur) → m + E.cap ≤ buf.length →
      ∃ N r buf', c.go E d N (.loop n i cur) buf = .ok (.done r, buf') ∧ (r = none ∨ ∃ j x, i ≤ j ∧ c.stop j x = r) := by
  intro n
  induction n with
  | zero => intro i cur buf _ _; exact ⟨1, none, buf, rfl, Or.inl rfl⟩
  | succ n ih =>
      intro i cur buf hp hbuf
      obtain ⟨p1, out, h1, h2, h3⟩ := c.step_ok g hm b hp hbuf
      obtain ⟨p2, out2, k1, k2, k3⟩ := c.step_ok g hm b h3 (by omega : m + E.cap ≤ out.length)
      have hshape : ∃ len l, p1 = .test n i cur len l := by
        simp only [Scan.step] at h1
        cases hd : decode E d cur buf 0 with
        | error e => rw [hd] at h1; cases h1
        | ok x =>
            rw [hd] at h1
            cases h1
            exact ⟨_, _, rfl⟩
      obtain ⟨len, l, rfl⟩ := hshape
      simp only [Scan.step] at k1
      cases hst : c.stop i (out.take len) with
      | some r =>
          rw [hst] at k1
          cases k1
          refine ⟨2, some r, out, ?_, Or.inr ⟨i, _, Nat.le_refl i, hst⟩⟩
          simp only [Scan.go, h1, M.ok_bind]
          simp only [Scan.step, hst, M.ok_bind]
      | none =>
          rw [hst] at k1
          cases k1
          obtain ⟨N, r, buf', q1, q2⟩ := ih _ _ out k3 (by omega)
          refine ⟨N + 1 + 1, r, buf', ?_, ?_⟩
          · simp only [Scan.go, h1, M.ok_bind]
            simp only [Scan.step, hst, M.ok_bind]
            exact q1
          · rcases q2 with q2 | ⟨j, x, q2, q3⟩
            · exact Or.inl q2
            · exact Or.inr ⟨j, x, by omega, q3⟩

/-- from the beginning to the test of a string -/
theorem Scan.go_from (g : Good E P) (hm : m ≤ E.cap) (b : Bucket E P lcpOf m d c ss) {j : Nat} (hj : j < ss.length)
    (hno : ∀ q (hq : q < j), c.stop (q + 1) (ss[q]'(by omega)) = none) {buf : List Nat} (hbuf : m + E.cap ≤ buf.length) :
    ∃ N n cur l buf', c.go E d N .enter buf = .ok (.test n (j + 1) cur ss[j].length l, buf') ∧ buf'.length = buf.length ∧
      buf'.take ss[j].length = ss[j] ∧ c.At E lcpOf d ss (.test n (j + 1) cur ss[j].length l) := by
  obtain ⟨_, A, B, e1, e2, e3⟩ := b.holds
  have hhl := (b.chars c.h (List.mem_cons_self ..)).1
  have hsplit : ss = ss.take j ++ ss[j] :: ss.drop (j + 1) := by
    rw [← List.drop_eq_getElem_cons hj, List.take_append_drop]
  have hlen : (ss.take j).length = j := by simp; omega
  have hb := b.chain
  obtain ⟨N, cur, l, buf', g1, g2, g3, g4⟩ := Scan.go_to g hm b (s := ss[j]) (post := ss.drop (j + 1)) (ss.take j) A B c.h 1
    (buf.take 0 ++ (c.h.drop 0).take c.h.length ++ buf.drop (0 + c.h.length)) (by rw [← hsplit]; exact e1) e3 (by rw [← hsplit]; exact hb)
    (Nat.le_refl 1) (by rw [← hsplit]; rfl) (by simp; omega) (by simp) (by
      intro q hq
      rw [List.getElem_take, Nat.add_comm]
      exact hno q (by omega))
  rw [hlen, Nat.add_comm 1 j] at g1 g4
  refine ⟨N + 1, (ss.drop (j + 1)).length, cur, l, buf', ?_, by rw [g2]; simp; omega, g3, g4⟩
  have hn : ss.length = j + 1 + (ss.drop (j + 1)).length := by rw [List.length_drop]; omega
  simp only [Scan.go, Scan.step]
  rw [memcpy_ok (by omega) (by omega), M.ok_bind, rd_of_getElem? e2, M.ok_bind, b.size, hn]
  simp only [M.ok_bind]
  exact g1

/-- Two threads, 0 and 1: thread 0 is about to test its string `j` when thread 1 writes its string `j'` into the array. -/
theorem race (g : Good E P) (hm : m ≤ E.cap) {calls : Nat → Scan} {s0 s1 : List (List Nat)} (b0 : Bucket E P lcpOf m d (calls 0) s0)
    (b1 : Bucket E P lcpOf m d (calls 1) s1) {j j' : Nat} (hj : j < s0.length) (hj' : j' < s1.length)
    (hno : ∀ q (hq : q < j), (calls 0).stop (q + 1) (s0[q]'(by omega)) = none)
    (hno' : ∀ q (hq : q < j'), (calls 1).stop (q + 1) (s1[q]'(by omega)) = none) {r0 : Nat}
    (hbad : ∀ x, x.length = s0[j].length → x.take s1[j'].length = s1[j'].take x.length → (calls 0).stop (j + 1) x ≠ some r0)
    (hlater : ∀ i x, j + 1 < i → (calls 0).stop i x ≠ some r0) {buf : List Nat} (hbuf : m + E.cap ≤ buf.length) :
    ∃ sched w r, World.run E d calls sched ⟨fun _ => .enter, buf⟩ = .ok w ∧ w.pc 0 = .done r ∧ r ≠ some r0 := by
  obtain ⟨N, n, cur, l, buf1, g1, g2, _, g4⟩ := Scan.go_from g hm b0 hj hno hbuf
  obtain ⟨N', n', cur', l', buf2, k1, k2, k3, _⟩ := Scan.go_from g hm b1 hj' hno' (by omega : m + E.cap ≤ buf1.length)
  have w1 := World.run_alone (calls := calls) 0 N (w := ⟨fun _ => .enter, buf⟩) g1
  have w2 := World.run_alone (calls := calls) 1 N' (w := ⟨fun i => if i = 0 then .test n (j + 1) cur s0[j].length l else .enter, buf1⟩) (p := _)
    (buf := buf2) (by simpa using k1)
  obtain ⟨hl0, _⟩ := b0.chars s0[j] (List.mem_cons_of_mem _ (List.getElem_mem hj))
  obtain ⟨hl1, _⟩ := b1.chars s1[j'] (List.mem_cons_of_mem _ (List.getElem_mem hj'))
  have hx : (buf2.take s0[j].length).length = s0[j].length := by simp; omega
  have hne := hbad (buf2.take s0[j].length) hx (by
    rw [hx]
    conv => rhs; rw [← k3]
    rw [List.take_take, List.take_take, Nat.min_comm])
  have hfin : ∃ N₃ r buf3, (calls 0).go E d N₃ (.test n (j + 1) cur s0[j].length l) buf2 = .ok (.done r, buf3) ∧ r ≠ some r0 := by
    obtain ⟨p', out, q1, q2, q3⟩ := (calls 0).step_ok g hm b0 g4 (by omega : m + E.cap ≤ buf2.length)
    cases hst : (calls 0).stop (j + 1) (buf2.take s0[j].length) with
    | some r =>
        refine ⟨1, some r, buf2, ?_, by rw [← hst]; exact hne⟩
        simp only [Scan.go, Scan.step, hst, M.ok_bind]
    | none =>
        simp only [Scan.step, hst] at q1
        cases q1
        obtain ⟨N₃, r, buf3, t1, t2⟩ := Scan.go_end g hm b0 _ _ _ buf2 q3 (by omega)
        refine ⟨N₃ + 1, r, buf3, ?_, ?_⟩
        · simp only [Scan.go, Scan.step, hst, M.ok_bind]
          exact t1
        · rcases t2 with t2 | ⟨i, x, t2, t3⟩
          · rw [t2]; simp
          · rw [← t3]
            exact hlater i x (by omega)
  obtain ⟨N₃, r, buf3, t1, t2⟩ := hfin
  have w3 := World.run_alone (calls := calls) 0 N₃ (w := ⟨fun i => if i = 1 then .test n' (j' + 1) cur' s1[j'].length l' else
    if i = 0 then .test n (j + 1) cur s0[j].length l else .enter, buf2⟩) (p := .done r) (buf := buf3) (by simpa using t1)
  exact ⟨List.replicate N 0 ++ (List.replicate N' 1 ++ List.replicate N₃ 0), _, r,
    (World.run_append w1).trans ((World.run_append w2).trans w3), by simp, t2⟩

/-- every schedule of any number of threads -/
theorem run_ok (g : Good E P) (hm : m ≤ E.cap) {calls : Nat → Scan} {sss : Nat → List (List Nat)}
    (b : ∀ k, Bucket E P lcpOf m d (calls k) (sss k)) : ∀ (sched : List Nat) {w : World}, (∀ k, (calls k).At E lcpOf d (sss k) (w.pc k)) →
      m + E.cap ≤ w.decoded.length → ∃ w', World.run E d calls sched w = .ok w' ∧ (∀ k, (calls k).At E lcpOf d (sss k) (w'.pc k)) ∧
        w'.decoded.length = w.decoded.length := by
  intro sched
  induction sched with
  | nil => intro w hw _; exact ⟨w, rfl, hw, rfl⟩
  | cons k sched ih =>
      intro w hw hbuf
      obtain ⟨p, out, h1, h2, h3⟩ := (calls k).step_ok g hm (b k) (hw k) hbuf
      obtain ⟨w', k1, k2, k3⟩ := ih (w := ⟨fun j => if j = k then p else w.pc j, out⟩) (by
        intro j
        by_cases hj : j = k
        · subst hj; simpa using h3
        · simpa [hj] using hw j) (by simpa [h2] using hbuf)
      refine ⟨w', ?_, k2, by rw [k3]; exact h2⟩
      simp only [World.run, World.step, h1, M.ok_bind]
      exact k1

/-- also when steps are not atomic -/
theorem torn_ok (g : Good E P) (hm : m ≤ E.cap) {calls : Nat → Scan} {sss : Nat → List (List Nat)}
    (b : ∀ k, Bucket E P lcpOf m d (calls k) (sss k)) : ∀ (sched : List (Nat × List Nat)) {w : World}, (∀ k, (calls k).At E lcpOf d (sss k) (w.pc k)) →
      (∀ a ∈ sched, m + E.cap ≤ a.2.length) → ∃ w', World.torn E d calls sched w = .ok w' ∧ ∀ k, (calls k).At E lcpOf d (sss k) (w'.pc k) := by
  intro sched
  induction sched with
  | nil => intro w hw _; exact ⟨w, rfl, hw⟩
  | cons a sched ih =>
      intro w hw hbuf
      obtain ⟨k, buf⟩ := a
      obtain ⟨p, out, h1, h2, h3⟩ := (calls k).step_ok g hm (b k) (hw k) (hbuf _ (List.mem_cons_self ..))
      obtain ⟨w', k1, k2⟩ := ih (w := ⟨fun j => if j = k then p else w.pc j, out⟩) (by
        intro j
        by_cases hj : j = k
        · subst hj; simpa using h3
        · simpa [hj] using hw j) (fun a ha => hbuf a (List.mem_cons_of_mem _ ha))
      refine ⟨w', ?_, k2⟩
      simp only [World.torn, World.step, h1, M.ok_bind]
      exact k1

/-- the buckets of a dictionary -/
theorem bucket_of {L : List (List Nat)} (g : Good E P) (hm : m ≤ E.cap) (hn : L.length % 17 ≠ 0) (hw : weight E L < E.ptr)
    (hP : ∀ s ∈ L, s.length ≤ m ∧ ∀ c ∈ s, P c) (hc : ConsecOk lcpOf L) (hd : build E lcpOf L = .ok d) {b : Nat} (hb : 17 * b < L.length) (hch : c.h = L[17 * b]) (hcb : c.b = b) :
    Bucket E P lcpOf m d c ((L.drop (17 * b + 1)).take 16) := by
  obtain ⟨d', h1, hsize, hnb, hall⟩ := build_spec g (lcpOf := lcpOf) hn hw
  rw [hd] at h1
  cases h1
  refine ⟨?_, ?_, ?_, ?_⟩
  · rw [hch, hcb]
    exact hall b (by omega) _ (List.getElem?_eq_getElem hb)
  · rw [hch]
    apply chainOk_of
    rw [chunk_eq hb]
    intro i x y hx hy
    rw [List.getElem?_take] at hx hy
    split at hx <;> split at hy <;> try contradiction
    rw [List.getElem?_drop] at hx hy
    exact hc (17 * b + i) x y hx (by rw [← hy]; congr 1)
  · rw [hch]
    intro s hs
    rw [chunk_eq hb] at hs
    exact hP s (List.mem_of_mem_drop (List.mem_of_mem_take hs))
  · rw [hcb]
    simp only [bucketSize, hsize, tail_eq hn, hnb, List.length_take, List.length_drop]
    split <;> omega

end FC
end AC
