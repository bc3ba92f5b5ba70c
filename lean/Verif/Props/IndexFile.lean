import Verif.Props.Saved
import Verif.Proofs.Eats
import Verif.Proofs.FileBound1
import Verif.Model.Deploy
import Verif.Props.Sizes
/-!
# C92: an index file is read exactly to its end
-/
namespace AC.Props
open AC Spec Visitor

/-- from saving and loading to the whole statement -/
theorem file_exact {α : Type} {f : {σ : Type} → Visitor σ → α → σ → M (α × σ)} {x d y : α} {n k : Nat} {P : Prop} (h : Trip f x d y n P) (hP : P) (he : Eats (f loader d) k) :
    ∃ file, save f x = .ok file ∧ (∀ extra, load f d (file ++ extra) = .ok y) ∧ ∀ p q, file = p ++ q → q ≠ [] → load f d p = .error .oob := by
  obtain ⟨t, a, _, _, b⟩ := h
  refine ⟨t, ?_, fun extra => ?_, fun p q e hq => ?_⟩
  · unfold save
    rw [a]
    rfl
  · unfold load
    rw [b hP, M.ok_bind]
  · have b := b hP []
    rw [List.append_nil, e] at b
    have hs := he.short b hq
    unfold load
    show (f loader d p >>= _) = _
    rw [hs]
    rfl

/-- **C92**, type 1: the file that is saved is loaded whatever follows it, as the index that would have been built (see C45); when it is cut short anywhere, loading reads beyond
its end. -/
theorem C92_type1 {C : Coll} (hC : ValidColl C) {mem : Nat → W} {x : Index1} (h : Index1.build (Pre.run C) mem = .ok x) :
    ∃ file, save (fun V => V.index1) x = .ok file ∧
      (∀ mem', ∃ y, Index1.build (Pre.run C) mem' = .ok y ∧ ∀ extra, load (fun V => V.index1) (Index1.blank mem') (file ++ extra) = .ok y) ∧
      ∀ mem' p q, file = p ++ q → q ≠ [] → load (fun V => V.index1) (Index1.blank mem') p = .error .oob := by
  have key : ∀ mem', ∃ file, save (fun V => V.index1) x = .ok file ∧ (∃ y, Index1.build (Pre.run C) mem' = .ok y ∧
      ∀ extra, load (fun V => V.index1) (Index1.blank mem') (file ++ extra) = .ok y) ∧
      ∀ p q, file = p ++ q → q ≠ [] → load (fun V => V.index1) (Index1.blank mem') p = .error .oob := by
    intro mem'
    obtain ⟨h1, h2⟩ := Index1.build_put (mem' := mem') h
    obtain ⟨n, hn⟩ := Index1.bytes_ok h2
    obtain ⟨file, a, b, c⟩ := file_exact (Trip.index1 h2 hn mem') (Index1.build_fits hC.ready h) (Eats.index1 _)
    exact ⟨file, a, ⟨_, h1, b⟩, c⟩
  obtain ⟨file, a, _⟩ := key mem
  refine ⟨file, a, fun mem' => ?_, fun mem' => ?_⟩ <;> obtain ⟨file', a', b, c⟩ := key mem' <;> rw [a] at a' <;> cases a'
  · exact b
  · exact c

/-- **C92**, type 2 -/
theorem C92_type2 {C : Coll} (hC : ValidColl C) {mem : Nat → W} {x : Index2} (h : Index2.build (Pre.run C) mem = .ok x) :
    ∃ file, save (fun V => V.index2) x = .ok file ∧
      (∀ mem', ∃ y, Index2.build (Pre.run C) mem' = .ok y ∧ ∀ extra, load (fun V => V.index2) (Index2.blank mem') (file ++ extra) = .ok y) ∧
      ∀ mem' p q, file = p ++ q → q ≠ [] → load (fun V => V.index2) (Index2.blank mem') p = .error .oob := by
  have key : ∀ mem', ∃ file, save (fun V => V.index2) x = .ok file ∧ (∃ y, Index2.build (Pre.run C) mem' = .ok y ∧
      ∀ extra, load (fun V => V.index2) (Index2.blank mem') (file ++ extra) = .ok y) ∧
      ∀ p q, file = p ++ q → q ≠ [] → load (fun V => V.index2) (Index2.blank mem') p = .error .oob := by
    intro mem'
    obtain ⟨file, a, b, c⟩ := file_exact (Trip.index2 x mem') (Index2.build_fits hC.ready h) (Eats.index2 _)
    exact ⟨file, a, ⟨_, Index2.build_put (mem' := mem') h, b⟩, c⟩
  obtain ⟨file, a, _⟩ := key mem
  refine ⟨file, a, fun mem' => ?_, fun mem' => ?_⟩ <;> obtain ⟨file', a', b, c⟩ := key mem' <;> rw [a] at a' <;> cases a'
  · exact b
  · exact c

/-- **C92**, type 3 -/
theorem C92_type3 {C : Coll} (hC : ValidColl C) {mem : Nat → W} {x : Index3} (h : Index3.build (Pre.run C) mem = .ok x) :
    ∃ file, save (fun V => V.index3) x = .ok file ∧
      (∀ mem', ∃ y, Index3.build (Pre.run C) mem' = .ok y ∧ ∀ extra, load (fun V => V.index3) (Index3.blank mem') (file ++ extra) = .ok y) ∧
      ∀ mem' p q, file = p ++ q → q ≠ [] → load (fun V => V.index3) (Index3.blank mem') p = .error .oob := by
  have key : ∀ mem', ∃ file, save (fun V => V.index3) x = .ok file ∧ (∃ y, Index3.build (Pre.run C) mem' = .ok y ∧
      ∀ extra, load (fun V => V.index3) (Index3.blank mem') (file ++ extra) = .ok y) ∧
      ∀ p q, file = p ++ q → q ≠ [] → load (fun V => V.index3) (Index3.blank mem') p = .error .oob := by
    intro mem'
    obtain ⟨file, a, b, c⟩ := file_exact (Trip.index3 x mem') (Index3.build_fits hC.ready h) (Eats.index3 _)
    exact ⟨file, a, ⟨_, Index3.build_put (mem' := mem') h, b⟩, c⟩
  obtain ⟨file, a, _⟩ := key mem
  refine ⟨file, a, fun mem' => ?_, fun mem' => ?_⟩ <;> obtain ⟨file', a', b, c⟩ := key mem' <;> rw [a] at a' <;> cases a'
  · exact b
  · exact c

/-- **C92**, type 4 -/
theorem C92_type4 {C : Coll} (hC : ValidColl C) {std : StdLib} {m : Nat} {mem : Nat → W} {x : Index4} (h : Index4.build std m (Pre.run C) mem = .ok x) :
    ∃ file, save (fun V => V.index4) x = .ok file ∧
      (∀ mem', ∃ y, Index4.build std m (Pre.run C) mem' = .ok y ∧ ∀ extra, load (fun V => V.index4) (Index4.blank mem') (file ++ extra) = .ok y) ∧
      ∀ mem' p q, file = p ++ q → q ≠ [] → load (fun V => V.index4) (Index4.blank mem') p = .error .oob := by
  have key : ∀ mem', ∃ file, save (fun V => V.index4) x = .ok file ∧ (∃ y, Index4.build std m (Pre.run C) mem' = .ok y ∧
      ∀ extra, load (fun V => V.index4) (Index4.blank mem') (file ++ extra) = .ok y) ∧
      ∀ p q, file = p ++ q → q ≠ [] → load (fun V => V.index4) (Index4.blank mem') p = .error .oob := by
    intro mem'
    obtain ⟨file, a, b, c⟩ := file_exact (Trip.index4 x mem') (Index4.build_fits hC.ready h) (Eats.index4 _)
    exact ⟨file, a, ⟨_, Index4.build_put (mem' := mem') h, b⟩, c⟩
  obtain ⟨file, a, _⟩ := key mem
  refine ⟨file, a, fun mem' => ?_, fun mem' => ?_⟩ <;> obtain ⟨file', a', b, c⟩ := key mem' <;> rw [a] at a' <;> cases a'
  · exact b
  · exact c

theorem buildLoop_pointers {E : Elem} {lcpOf : List Nat → List Nat → Nat} {tl : Nat} : ∀ (nb : Nat) (L : List (List Nat)) (d d' : FC),
    FC.buildLoop E lcpOf tl nb L d = .ok d' → d'.ptrHeaders.length = d.ptrHeaders.length + nb
  | 0, _, _, _, h => by cases h; rfl
  | _ + 1, [], _, _, h => by cases h
  | nb + 1, s :: L, d, d', h => by
      unfold FC.buildLoop at h
      obtain ⟨⟨L', b⟩, _, h⟩ := bind_ok h
      rw [buildLoop_pointers nb _ _ d' h]
      simp only [List.length_append, List.length_singleton]
      omega

theorem base_pointers {C : Coll} (hC : ValidColl C) {mem : Nat → W} {x : Base} (h : Base.build (Pre.run C) mem = .ok x) :
    1 ≤ x.completions.ptrHeaders.length ∧ x.completions.ptrHeaders.length < 2 ^ 32 := by
  unfold Base.build at h
  obtain ⟨⟨d, v⟩, h1, h⟩ := bind_ok h
  obtain ⟨_, _, h⟩ := bind_ok h
  obtain ⟨_, _, h⟩ := bind_ok h
  obtain ⟨_, _, h⟩ := bind_ok h
  cases h
  unfold IntDict.build at h1
  obtain ⟨_, _, g1⟩ := bind_ok h1
  obtain ⟨d', g2, g3⟩ := bind_ok g1
  cases g3
  unfold FC.build at g2
  obtain ⟨d'', g4, g5⟩ := bind_ok g2
  cases g5
  have := buildLoop_pointers _ _ _ _ g4
  have := hC.ready.length_mapped
  have := hC.ready.count_le
  have := hC.size
  simp only [List.length_map, List.length_singleton] at *
  omega

/-- the bytes 4 to 11 of two numbers of 8 bytes, taken for one -/
theorem ofLe_append (s t : List Nat) : ofLe (s ++ t) = ofLe s + 256 ^ s.length * ofLe t := by
  induction s with
  | nil => simp [ofLe]
  | cons b s ih =>
      simp only [List.cons_append, ofLe, ih, List.length_cons, Nat.pow_succ]
      rw [Nat.mul_add, ← Nat.mul_assoc, Nat.mul_comm 256 (256 ^ s.length)]
      omega

theorem le_take : ∀ (a w x : Nat), a ≤ w → (le w x).take a = le a x
  | 0, _, _, _ => rfl
  | _ + 1, 0, _, h => by omega
  | a + 1, w + 1, x, h => by rw [le, le, List.take_succ_cons, le_take a w _ (by omega)]

/-- a file that begins with a dictionary of completions is not loaded as a trie -/
theorem trie_huge {a n : Nat} {r : List Nat} (h1 : 1 ≤ n) (h2 : n < 2 ^ 32) (hr : (le 8 a ++ (le 8 n ++ r)).length ≤ 73 * 2 ^ 32) :
    loader.trie 0 [] (le 8 a ++ (le 8 n ++ r)) = .error .oob := by
  have l1 := (le_bytes 8 a).1
  have l2 := (le_bytes 8 n).1
  obtain ⟨b, h4⟩ : ∃ b, le 8 a = le 4 a ++ b ∧ b.length = 4 := by
    refine ⟨(le 8 a).drop 4, ?_, by rw [List.length_drop]; omega⟩
    rw [← le_take 4 8 a (by decide), List.take_append_drop]
  have l4 := (le_bytes 4 a).1
  have h8 : (b ++ (le 8 n ++ r)).take 8 = b ++ le 4 n := by
    rw [List.take_append, List.take_of_length_le (by omega), h4.2, List.take_append_of_le_length (by omega), le_take 4 8 n (by decide)]
  unfold Visitor.trie
  rw [h4.1, List.append_assoc]
  have e0 : loader.nat 4 0 (le 4 a ++ (b ++ (le 8 n ++ r))) = .ok (ofLe (le 4 a), b ++ (le 8 n ++ r)) := by
    show (if 4 ≤ (le 4 a ++ (b ++ (le 8 n ++ r))).length then Except.ok (ofLe ((le 4 a ++ (b ++ (le 8 n ++ r))).take 4), (le 4 a ++ (b ++ (le 8 n ++ r))).drop 4) else Except.error Fault.oob) = _
    rw [if_pos (by rw [List.length_append]; omega), List.take_append_of_le_length (by omega), List.take_of_length_le (by omega),
      List.drop_append_of_le_length (by omega), List.drop_of_length_le (by omega), List.nil_append]
  rw [e0, M.ok_bind]
  simp only [List.map_nil]
  rw [Eats.vec_huge Eats.ef]
  · rfl
  · rw [h8, ofLe_append, h4.2, ofLe_le, Nat.mod_eq_of_lt (by omega)]
    have : (b ++ (le 8 n ++ r)).length < (le 8 a ++ (le 8 n ++ r)).length := by
      simp only [List.length_append, l1, l2, h4.2]
      omega
    have : 2 ^ 32 * 1 ≤ 256 ^ 4 * n := Nat.mul_le_mul (by decide) h1
    omega

theorem each_saver (w : Nat) : ∀ (xs : List Nat) (s : List Nat), each (saver.nat w) xs s = .ok (xs, s ++ xs.flatMap (le w))
  | [], s => by simp [each]
  | x :: xs, s => by
      unfold each
      show ((.ok (x, s ++ le w x) : M (Nat × List Nat)) >>= _) = _
      rw [M.ok_bind]
      dsimp only
      rw [each_saver w xs, M.ok_bind]
      simp

/-- a saved dictionary begins with the number of its strings and the number of its headers -/
theorem fc_front (p c : Nat) (x : FC) (s : List Nat) : ∃ r, saver.fc p c x s = .ok (x, s ++ (le 8 x.size ++ (le 8 x.ptrHeaders.length ++ r))) := by
  have key : ∀ (w : Nat) (xs : List Nat) (s : List Nat), saver.nats w xs s = .ok (xs, s ++ (le 8 xs.length ++ xs.flatMap (le w))) := by
    intro w xs s
    show each (saver.nat w) (resize 0 xs.length xs) (s ++ le 8 xs.length) = _
    rw [Trip.resize_length, each_saver, List.append_assoc]
  refine ⟨x.ptrHeaders.flatMap (le p) ++ (le 8 x.ptrBuckets.length ++ (x.ptrBuckets.flatMap (le p) ++ (le 8 x.headers.length ++ (x.headers.flatMap (le c) ++
    (le 8 x.buckets.length ++ x.buckets.flatMap (le 1)))))), ?_⟩
  unfold Visitor.fc
  show ((.ok (x.size, s ++ le 8 x.size) : M (Nat × List Nat)) >>= _) = _
  rw [M.ok_bind]
  dsimp only
  rw [key, M.ok_bind]
  dsimp only
  rw [key, M.ok_bind]
  dsimp only
  rw [key, M.ok_bind]
  dsimp only
  rw [key, M.ok_bind]
  simp only [List.append_assoc]

/-- from there to the index of type 1 -/
theorem not_type1 {a n : Nat} {file r : List Nat} (e : file = le 8 a ++ (le 8 n ++ r)) (h : 1 ≤ n ∧ n < 2 ^ 32) (hr : file.length ≤ 73 * 2 ^ 32) (mem : Nat → W) :
    load (fun V => V.index1) (Index1.blank mem) file = .error .oob := by
  unfold load
  dsimp only
  unfold Visitor.index1
  show ((loader.trie 0 [] file >>= _) >>= _) = _
  rw [e, trie_huge h.1 h.2 (by rw [← e]; exact hr)]
  rfl

/-- **C92**: the web server is for indexes of type 1. Given the file of an index of type 2, 3 or 4 it never starts: loading the file asks for at least 2^32 levels of a trie. -/
theorem C92_server {C : Coll} (hC : ValidColl C) (std : StdLib) (mem mem' : Nat → W) (rs : List (Option Str × Option Str)) {file : List Nat}
    (h : (∃ x, Index2.build (Pre.run C) mem = .ok x ∧ save (fun V => V.index2) x = .ok file) ∨
      (∃ x, Index3.build (Pre.run C) mem = .ok x ∧ save (fun V => V.index3) x = .ok file) ∨
      ∃ std' m x, Index4.build std' m (Pre.run C) mem = .ok x ∧ save (fun V => V.index4) x = .ok file) :
    Web.main std mem' file rs = .error .oob := by
  have hs : file.length ≤ 73 * 2 ^ 32 := by
    rcases h with ⟨x, hb, h⟩ | ⟨x, hb, h⟩ | ⟨std', m, x, hb, h⟩
    · obtain ⟨f, h1, h2⟩ := C60_file2 x
      obtain rfl : f = file := by rw [h] at h1; cases h1; rfl
      rw [← h2]
      exact Index2.build_bound hC.ready hb
    · obtain ⟨f, h1, h2⟩ := C60_file3 x
      obtain rfl : f = file := by rw [h] at h1; cases h1; rfl
      rw [← h2]
      exact Index3.build_bound hC.ready hb
    · obtain ⟨f, h1, h2⟩ := C60_file4 x
      obtain rfl : f = file := by rw [h] at h1; cases h1; rfl
      rw [← h2]
      exact Index4.build_bound hC.ready hb
  have key : ∃ (b : Base) (r : List Nat), Base.build (Pre.run C) mem = .ok b ∧ file = le 8 b.completions.size ++ (le 8 b.completions.ptrHeaders.length ++ r) := by
    rcases h with ⟨x, hb, h⟩ | ⟨x, hb, h⟩ | ⟨std', m, x, hb, h⟩
    · unfold Index2.build at hb
      obtain ⟨_, _, hb⟩ := bind_ok hb
      obtain ⟨b, h1, hb⟩ := bind_ok hb
      obtain ⟨min, _, hb⟩ := bind_ok hb
      obtain ⟨inv, _, hb⟩ := bind_ok hb
      cases hb
      obtain ⟨r, e⟩ := fc_front 8 4 b.completions []
      obtain ⟨t2, a2, _⟩ := Trip.ul b.docs 0 0
      obtain ⟨t3, a3, _⟩ := Trip.ul min 0 0
      obtain ⟨t4, a4, _⟩ := Trip.fc 4 1 b.dict
      obtain ⟨t5, a5, _⟩ := Trip.inv inv 0
      obtain ⟨t6, a6, _⟩ := Trip.cv b.lexids 0
      unfold save at h
      simp only [Visitor.index2, e, a2, a3, a4, a5, a6, M.ok_bind, List.append_assoc, List.nil_append] at h
      cases h
      exact ⟨b, _, h1, rfl⟩
    · unfold Index3.build at hb
      obtain ⟨_, _, hb⟩ := bind_ok hb
      obtain ⟨b, h1, hb⟩ := bind_ok hb
      obtain ⟨inv, _, hb⟩ := bind_ok hb
      cases hb
      obtain ⟨r, e⟩ := fc_front 8 4 b.completions []
      obtain ⟨t2, a2, _⟩ := Trip.ul b.docs 0 0
      obtain ⟨t4, a4, _⟩ := Trip.fc 4 1 b.dict
      obtain ⟨t5, a5, _⟩ := Trip.inv inv 0
      obtain ⟨t6, a6, _⟩ := Trip.cv b.lexids 0
      unfold save at h
      simp only [Visitor.index3, e, a2, a4, a5, a6, M.ok_bind, List.append_assoc, List.nil_append] at h
      cases h
      exact ⟨b, _, h1, rfl⟩
    · unfold Index4.build at hb
      obtain ⟨_, _, hb⟩ := bind_ok hb
      obtain ⟨b, h1, hb⟩ := bind_ok hb
      obtain ⟨inv, _, hb⟩ := bind_ok hb
      cases hb
      obtain ⟨r, e⟩ := fc_front 8 4 b.completions []
      obtain ⟨t2, a2, _⟩ := Trip.ul b.docs 0 0
      obtain ⟨t4, a4, _⟩ := Trip.fc 4 1 b.dict
      obtain ⟨t5, a5, _⟩ := Trip.blk inv (fun _ => 0)
      obtain ⟨t6, a6, _⟩ := Trip.cv b.lexids 0
      unfold save at h
      simp only [Visitor.index4, e, a2, a4, a5, a6, M.ok_bind, List.append_assoc, List.nil_append] at h
      cases h
      exact ⟨b, _, h1, rfl⟩
  obtain ⟨b, r, h1, e⟩ := key
  unfold Web.main
  rw [not_type1 e (base_pointers hC h1) hs]
  rfl

theorem each_saver_ef : ∀ (xs : List EF) (s : List Nat), ∃ t, each saver.ef xs s = .ok (xs, s ++ t)
  | [], s => ⟨[], by simp [each]⟩
  | x :: xs, s => by
      obtain ⟨t1, a1, _⟩ := Trip.ef x
      obtain ⟨t2, a2⟩ := each_saver_ef xs (s ++ t1)
      refine ⟨t1 ++ t2, ?_⟩
      simp only [each, a1, a2, M.ok_bind, List.append_assoc]

theorem each_saver_words : ∀ (xs : List W) (s : List Nat), each saver.word xs s = .ok (xs, s ++ xs.flatMap (fun w => le 8 w.toNat))
  | [], s => by simp [each]
  | x :: xs, s => by
      unfold each
      show ((.ok (x, s ++ le 8 x.toNat) : M (W × List Nat)) >>= _) = _
      rw [M.ok_bind]
      dsimp only
      rw [each_saver_words xs, M.ok_bind]
      simp

/-- a saved sequence begins with the number of low bits, the number of high bits and the number of words of these -/
theorem ef_front (x : EF) (s : List Nat) :
    ∃ r, saver.ef x s = .ok (x, s ++ (le 1 x.l ++ (le 8 x.high.size ++ (le 8 x.high.bits.length ++ r)))) := by
  have a1 : ∀ s, saver.words x.high.bits s = .ok (x.high.bits, s ++ (le 8 x.high.bits.length ++ x.high.bits.flatMap (fun w => le 8 w.toNat))) := by
    intro s
    show each saver.word (resize 0 x.high.bits.length x.high.bits) (s ++ le 8 x.high.bits.length) = _
    rw [Trip.resize_length, each_saver_words, List.append_assoc]
  obtain ⟨t2, a2, _⟩ := Trip.da x.d1
  obtain ⟨t3, a3, _⟩ := Trip.bv x.low 0
  have n1 : ∀ (w v : Nat) (s : List Nat), saver.nat w v s = .ok (v, s ++ le w v) := fun _ _ _ => rfl
  refine ⟨x.high.bits.flatMap (fun w => le 8 w.toNat) ++ (t2 ++ (t3 ++ le 8 x.size)), ?_⟩
  have hb : ∀ s, saver.bv x.high s = .ok (x.high, s ++ (le 8 x.high.size ++ (le 8 x.high.bits.length ++ x.high.bits.flatMap (fun w => le 8 w.toNat)))) := by
    intro s
    simp only [Visitor.bv, n1, a1, M.ok_bind, List.append_assoc]
  simp only [Visitor.ef, n1, hb, a2, a3, M.ok_bind, List.append_assoc]

/-- a saved trie begins with the numbers of completions and of levels and the sequence of the nodes of the first level -/
theorem trie_front {m : Nat} {x : List Trie.CLevel} {c : Trie.CLevel} {cs : List Trie.CLevel} (hx : x = c :: cs) {s s' : List Nat} {y : Nat × List Trie.CLevel}
    (h : saver.trie m x s = .ok (y, s')) :
    ∃ r, s' = s ++ (le 4 m ++ (le 8 x.length ++ (le 1 c.nodes.l ++ (le 8 c.nodes.high.size ++ (le 8 c.nodes.high.bits.length ++ r))))) := by
  have n1 : ∀ (w v : Nat) (s : List Nat), saver.nat w v s = .ok (v, s ++ le w v) := fun _ _ _ => rfl
  have vv : ∀ (xs : List EF) (s : List Nat), ∃ t, saver.vec EF.blank saver.ef xs s = .ok (xs, s ++ t) := by
    intro xs s
    obtain ⟨t, ht⟩ := each_saver_ef xs (s ++ le 8 xs.length)
    refine ⟨le 8 xs.length ++ t, ?_⟩
    simp only [Visitor.vec, n1, M.ok_bind, Trip.resize_length, ht, List.append_assoc]
  obtain ⟨r, e⟩ := ef_front c.nodes (s ++ le 4 m ++ le 8 x.length)
  obtain ⟨t1, e1⟩ := each_saver_ef (cs.map (·.nodes)) (s ++ le 4 m ++ le 8 x.length ++ (le 1 c.nodes.l ++ (le 8 c.nodes.high.size ++ (le 8 c.nodes.high.bits.length ++ r))))
  have ev : saver.vec EF.blank saver.ef (x.map (·.nodes)) (s ++ le 4 m) =
      .ok (x.map (·.nodes), s ++ le 4 m ++ le 8 x.length ++ (le 1 c.nodes.l ++ (le 8 c.nodes.high.size ++ (le 8 c.nodes.high.bits.length ++ r))) ++ t1) := by
    unfold Visitor.vec
    rw [n1, M.ok_bind]
    dsimp only
    rw [Trip.resize_length, List.length_map]
    subst hx
    rw [List.map_cons]
    unfold each
    rw [e, M.ok_bind]
    dsimp only
    rw [e1, M.ok_bind]
  unfold Visitor.trie at h
  rw [n1, M.ok_bind] at h
  dsimp only at h
  rw [ev, M.ok_bind] at h
  dsimp only at h
  obtain ⟨t2, e2⟩ := vv (x.filterMap (·.ptrs)) (s ++ le 4 m ++ le 8 x.length ++ (le 1 c.nodes.l ++ (le 8 c.nodes.high.size ++ (le 8 c.nodes.high.bits.length ++ r))) ++ t1)
  rw [e2, M.ok_bind] at h
  dsimp only at h
  obtain ⟨t3, e3⟩ := vv (x.map (·.left)) (s ++ le 4 m ++ le 8 x.length ++ (le 1 c.nodes.l ++ (le 8 c.nodes.high.size ++ (le 8 c.nodes.high.bits.length ++ r))) ++ t1 ++ t2)
  rw [e3, M.ok_bind] at h
  dsimp only at h
  obtain ⟨t4, e4⟩ := vv (x.map (·.sizes)) (s ++ le 4 m ++ le 8 x.length ++ (le 1 c.nodes.l ++ (le 8 c.nodes.high.size ++ (le 8 c.nodes.high.bits.length ++ r))) ++ t1 ++ t2 ++ t3)
  rw [e4, M.ok_bind] at h
  cases h
  refine ⟨r ++ (t1 ++ (t2 ++ (t3 ++ t4))), ?_⟩
  simp only [List.append_assoc]

/-- the first level of a trie -/
theorem trie_level {F : Files} (h0 : F.levels ≠ 0) {cs : List Ids} {x : List Trie.CLevel} (h : Trie.build F.levels cs = .ok x) :
    ∃ c r, x = c :: r ∧ x.length = F.levels ∧ c.nodes.l < 64 ∧ 1 ≤ c.nodes.high.size ∧ c.nodes.high.size ≤ 3 * (cs.length + 1) ∧
      c.nodes.high.bits.length = wordsFor c.nodes.high.size := by
  unfold Trie.build at h
  obtain ⟨ts, ht, h⟩ := bind_ok h
  obtain ⟨hl, hx⟩ := tabM_get h
  cases x with
  | nil => exact absurd hl.symm h0
  | cons c r =>
      refine ⟨c, r, rfl, hl, ?_⟩
      have hb := hx 0 c rfl
      unfold Trie.buildLevel at hb
      obtain ⟨t, hrd, hb⟩ := bind_ok hb
      obtain ⟨_, _, hb⟩ := bind_ok hb
      obtain ⟨_, _, hb⟩ := bind_ok hb
      obtain ⟨_, _, hb⟩ := bind_ok hb
      obtain ⟨n, hn, hb⟩ := bind_ok hb
      cases hb
      have hm := (Trie.collect_small ht t (by
        unfold rd at hrd
        split at hrd
        · cases hrd
          exact List.mem_of_getElem? (by assumption)
        · cases hrd)).nodes
      unfold Trie.buildNodes at hn
      rw [if_neg (by simp)] at hn
      obtain ⟨hne, hsw⟩ := EF.build_sorted hn
      obtain ⟨u, hu⟩ : ∃ u, (Trie.words t.nodes).getLast? = some u := ⟨_, List.getLast?_eq_some_getLast hne⟩
      obtain ⟨h1, h2, h3, h4, _⟩ := EF.build_sizes (EF.pairwise_of_sortedW _ hsw) hu hn
      have hz : (Trie.words t.nodes).length ≠ 0 := fun hc => hne (List.length_eq_zero_iff.mp hc)
      have hh := EF.high_le (u := u.toNat) hz
      rw [← h1] at hh
      have hlen : (Trie.words t.nodes).length = t.nodes.length := by simp [Trie.words]
      generalize u.toNat / 2 ^ n.l = q at h3 hh
      refine ⟨h2, ?_, ?_, h4⟩
      · show 1 ≤ n.high.size
        omega
      · show n.high.size ≤ _
        omega

theorem le_split : ∀ (a b x : Nat), le (a + b) x = le a x ++ le b (x / 256 ^ a)
  | 0, b, x => by simp [le]
  | a + 1, b, x => by
      rw [Nat.add_right_comm, le, le, le_split a b, List.cons_append, Nat.div_div_eq_div_mul, Nat.pow_succ, Nat.mul_comm]

theorem loader_nat8 {t q : List Nat} (hl : t.length = 8) : loader.nat 8 0 (t ++ q) = .ok (ofLe t, q) := by
  show (if 8 ≤ (t ++ q).length then Except.ok (ofLe ((t ++ q).take 8), (t ++ q).drop 8) else Except.error Fault.oob) = _
  rw [if_pos (by rw [List.length_append]; omega), List.take_append_of_le_length (by omega), List.take_of_length_le (by omega),
    List.drop_append_of_le_length (by omega), List.drop_of_length_le (by omega), List.nil_append]

/-- a container for which there are not enough bytes -/
theorem nats_huge {t q : List Nat} (hl : t.length = 8) (h : q.length < ofLe t * 8) : loader.nats 8 [] (t ++ q) = .error .oob := by
  refine Eats.vec_huge (Eats.nat 8) 0 ?_
  rw [List.take_append_of_le_length (by omega), List.take_of_length_le (by omega), List.length_append]
  omega

/-- an empty container -/
theorem nats_zero {t q : List Nat} (hl : t.length = 8) (h : ofLe t = 0) : loader.nats 8 [] (t ++ q) = .ok ([], q) := by
  show (loader.nat 8 0 (t ++ q) >>= _) = _
  rw [loader_nat8 hl, M.ok_bind, h]
  rfl

/-- a file that begins with a trie is not loaded as a dictionary of completions -/
theorem dict_huge {m n l hs w : Nat} {r : List Nat} (hn : n < 2 ^ 32) (hl : l < 64) (h1 : 1 ≤ hs) (h2 : hs < 2 ^ 30) (hw : w = wordsFor hs) (hr : r.length < 2 ^ 35 - 29) :
    loader.fc 8 4 FC.blank (le 4 m ++ (le 8 n ++ (le 1 l ++ (le 8 hs ++ (le 8 w ++ r))))) = .error .oob := by
  have L := fun w x => (le_bytes w x).1
  have e : le 4 m ++ (le 8 n ++ (le 1 l ++ (le 8 hs ++ (le 8 w ++ r)))) =
      (le 4 m ++ le 4 n) ++ ((le 4 0 ++ (le 1 l ++ le 3 hs)) ++ ((le 5 (hs / 256 ^ 3) ++ le 3 w) ++ (le 5 (w / 256 ^ 3) ++ r))) := by
    rw [le_split 4 4 n, le_split 3 5 hs, le_split 3 5 w, Nat.div_eq_of_lt (a := n) (by omega)]
    simp only [List.append_assoc]
  rw [e]
  unfold Visitor.fc FC.blank
  dsimp only
  rw [loader_nat8 (by simp [L]), M.ok_bind]
  dsimp only
  have c1 : ofLe (le 4 0 ++ (le 1 l ++ le 3 hs)) = 2 ^ 32 * (l + 256 * (hs % 2 ^ 24)) := by
    rw [ofLe_append, ofLe_append, ofLe_le, ofLe_le, ofLe_le, L, L, Nat.mod_eq_of_lt (a := l) (by omega)]
    omega
  have c2 : ofLe (le 5 (hs / 256 ^ 3) ++ le 3 w) = hs / 256 ^ 3 % 256 ^ 5 + 2 ^ 40 * (w % 2 ^ 24) := by
    rw [ofLe_append, ofLe_le, ofLe_le, L]
  by_cases hc : l + 256 * (hs % 2 ^ 24) = 0
  · rw [hc, Nat.mul_zero] at c1
    rw [nats_zero (by simp [L]) c1, M.ok_bind]
    dsimp only
    unfold wordsFor at hw
    rw [nats_huge (by simp [L]) (by
      rw [c2, List.length_append, L]
      omega)]
    rfl
  · rw [nats_huge (by simp [L]) (by
      rw [c1]
      simp only [List.length_append, L]
      omega)]
    rfl

/-- **C92**: the file of an index of type 1 (of less than 2^35 bytes, of less than 2^28 completions) is not loaded as an index of another type either: loading the
file asks for at least 2^32 numbers of 8 bytes. Missing from the claim: larger files, and more completions. -/
theorem C92_from1_partial {C : Coll} (hC : ValidColl C) {mem : Nat → W} {x : Index1} (h : Index1.build (Pre.run C) mem = .ok x) {file : List Nat}
    (hf : save (fun V => V.index1) x = .ok file) (hs : file.length < 2 ^ 35) (hn : C.length < 2 ^ 28) (mem' : Nat → W) :
    load (fun V => V.index2) (Index2.blank mem') file = .error .oob ∧ load (fun V => V.index3) (Index3.blank mem') file = .error .oob ∧
      load (fun V => V.index4) (Index4.blank mem') file = .error .oob := by
  have key : loader.fc 8 4 FC.blank file = .error .oob := by
    have hb := h
    unfold Index1.build at hb
    obtain ⟨_, _, hb⟩ := bind_ok hb
    obtain ⟨docs, _, hb⟩ := bind_ok hb
    obtain ⟨min, _, hb⟩ := bind_ok hb
    obtain ⟨T, hT, hb⟩ := bind_ok hb
    obtain ⟨dict, _, hb⟩ := bind_ok hb
    obtain ⟨inv, _, hb⟩ := bind_ok hb
    obtain ⟨fwd, _, hb⟩ := bind_ok hb
    cases hb
    have hlev : 1 ≤ (Pre.run C).levels ∧ (Pre.run C).levels < 2 ^ 32 := by
      obtain ⟨r, hr, he⟩ := hC.ready.files.levels
      have := hC.short r hr
      omega
    obtain ⟨c, cs, e, h1, h2, h3, h4, h5⟩ := trie_level (by omega) hT
    rw [List.length_map, hC.ready.length_mapped] at h4
    unfold save at hf
    obtain ⟨⟨y, f⟩, hf, g⟩ := bind_ok hf
    cases g
    unfold Visitor.index1 at hf
    dsimp only at hf
    obtain ⟨⟨t, s1⟩, g, hf⟩ := bind_ok hf
    obtain ⟨r, e1⟩ := trie_front e g
    rw [List.nil_append] at e1
    obtain ⟨t2, a2, _⟩ := Trip.ul docs 0 0
    obtain ⟨t3, a3, _⟩ := Trip.ul min 0 0
    obtain ⟨t4, a4, _⟩ := Trip.fc 4 1 dict
    obtain ⟨t5, a5, _⟩ := Trip.inv inv 0
    obtain ⟨t6, a6, _⟩ := Trip.fwd fwd 0
    simp only [a2, a3, a4, a5, a6, M.ok_bind, List.append_assoc] at hf
    cases hf
    rw [e1] at hs ⊢
    simp only [List.append_assoc]
    simp only [List.length_append] at hs
    have L := fun w x => (le_bytes w x).1
    simp only [L] at hs
    exact dict_huge (by omega) h2 h3 (by omega) h5 (by simp only [List.length_append]; omega)
  refine ⟨?_, ?_, ?_⟩
  · unfold load Visitor.index2
    show ((loader.fc 8 4 FC.blank file >>= _) >>= _) = _
    rw [key]
    rfl
  · unfold load Visitor.index3
    show ((loader.fc 8 4 FC.blank file >>= _) >>= _) = _
    rw [key]
    rfl
  · unfold load Visitor.index4
    show ((loader.fc 8 4 FC.blank file >>= _) >>= _) = _
    rw [key]
    rfl

/-- **C92**: the file of an index of type 1 is not loaded as an index of another type, for every collection of less than 2^26 terms (counted with repetitions) whose document ids
are below 2^28. Missing from the claim: larger collections. -/
theorem C92_words_partial {C : Coll} (hC : ValidColl C) (hw : (C.flatMap (·.2)).length < 2 ^ 26) (hd : ∀ r ∈ C, r.1 < 2 ^ 28) {mem : Nat → W} {x : Index1}
    (h : Index1.build (Pre.run C) mem = .ok x) {file : List Nat} (hf : save (fun V => V.index1) x = .ok file) (mem' : Nat → W) :
    load (fun V => V.index2) (Index2.blank mem') file = .error .oob ∧ load (fun V => V.index3) (Index3.blank mem') file = .error .oob ∧
      load (fun V => V.index4) (Index4.blank mem') file = .error .oob := by
  obtain ⟨file', g1, g2⟩ := C60_file1 h
  rw [hf] at g1
  cases g1
  have := hC.ready.count_le
  exact C92_from1_partial hC h hf (Index1.build_bound hC.ready h hw hd g2) (by omega) mem'

/-! ## A case -/

/-- the result, if there is one, is at most `n` -/
def okAtMost (m : M Nat) (n : Nat) : Bool := match m with | .ok x => x ≤ n | .error _ => false

theorem sample_size2 : ∃ x, Index2.build (Pre.run sampleColl) (fun _ => 0) = .ok x ∧ x.bytes ≤ 10000 := by
  have h : okAtMost (do let x ← Index2.build (Pre.run sampleColl) (fun _ => 0); .ok x.bytes) 10000 = true := by decide +kernel
  cases e : Index2.build (Pre.run sampleColl) (fun _ => 0) with
  | error e' => rw [e] at h; cases h
  | ok x =>
      rw [e] at h
      exact ⟨x, rfl, of_decide_eq_true h⟩

theorem sample_size1 : ∃ x n, Index1.build (Pre.run sampleColl) (fun _ => 0) = .ok x ∧ x.bytes = .ok n ∧ n ≤ 3000 := by
  have h : okAtMost (do let x ← Index1.build (Pre.run sampleColl) (fun _ => 0); x.bytes) 3000 = true := by decide +kernel
  cases e : Index1.build (Pre.run sampleColl) (fun _ => 0) with
  | error e' => rw [e] at h; cases h
  | ok x =>
      rw [e, M.ok_bind] at h
      cases eb : x.bytes with
      | error e' => rw [eb] at h; cases h
      | ok n =>
          rw [eb] at h
          exact ⟨x, n, rfl, eb, of_decide_eq_true h⟩

/-- the file of an index of type 2 of the sample: loaded with two bytes after it, not loaded without its last byte, and not served -/
example (mem' : Nat → W) (std : StdLib) (rs : List (Option Str × Option Str)) : ∃ file, file ≠ [] ∧
    (∃ y, Index2.build (Pre.run sampleColl) mem' = .ok y ∧ load (fun V => V.index2) (Index2.blank mem') (file ++ [1, 2]) = .ok y) ∧
    load (fun V => V.index2) (Index2.blank mem') file.dropLast = .error .oob ∧ Web.main std mem' file rs = .error .oob := by
  obtain ⟨x, h, hb⟩ := sample_size2
  obtain ⟨file, h1, h2, h3⟩ := C92_type2 sampleColl_valid h
  obtain ⟨file', g1, g2⟩ := C60_file2 x
  rw [h1] at g1
  cases g1
  have hne : file ≠ [] := by
    rintro rfl
    rw [List.length_nil] at g2
    unfold Index2.bytes FC.bytes at g2
    omega
  obtain ⟨y, a, b⟩ := h2 mem'
  exact ⟨file, hne, ⟨y, a, b _⟩, h3 mem' _ [file.getLast hne] (List.dropLast_concat_getLast hne).symm (by simp),
    C92_server sampleColl_valid std _ mem' rs (Or.inl ⟨x, h, h1⟩)⟩

/-- the file of an index of type 1 of the sample is not loaded as another type -/
example (mem' : Nat → W) : ∃ x file, Index1.build (Pre.run sampleColl) (fun _ => 0) = .ok x ∧ save (fun V => V.index1) x = .ok file ∧
    load (fun V => V.index2) (Index2.blank mem') file = .error .oob ∧ load (fun V => V.index4) (Index4.blank mem') file = .error .oob := by
  obtain ⟨x, n, h, hb, hn⟩ := sample_size1
  obtain ⟨file, g1, g2⟩ := C60_file1 h
  rw [hb] at g2
  cases g2
  obtain ⟨a, _, b⟩ := C92_words_partial sampleColl_valid (by decide) (by decide) h g1 mem'
  exact ⟨x, file, h, g1, a, b⟩

end AC.Props
