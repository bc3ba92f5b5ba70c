import Verif.Model.WebServer
import Verif.Spec.Json
/-!
# The response of the web server, decoded
-/
namespace AC
namespace Web
open Spec (Json)

/-! ## Strings -/

theorem string_quote (s : Str) : Json.string (34 :: s) = some ([], s) := by simp [Json.string]

theorem string_plain {c : Nat} (s : Str) (h1 : 32 ≤ c) (h2 : c ≠ 34) (h3 : c ≠ 92) :
    Json.string (c :: s) = (Json.string s).map (fun p => (c :: p.1, p.2)) := by
  conv => lhs; unfold Json.string
  split
  · rename_i h; cases h
  · rename_i h; cases h; exact absurd rfl h2
  · rename_i h; cases h; exact absurd rfl h3
  · rename_i h; cases h; exact absurd rfl h3
  · rename_i h
    cases h
    rw [if_neg (by omega)]
    cases Json.string s <;> rfl

theorem string_hex {a b c d u : Nat} (s : Str) (h : Json.hex a b c d = some u) :
    Json.string (92 :: 117 :: a :: b :: c :: d :: s) = (Json.string s).map (fun p => (Json.utf8 u ++ p.1, p.2)) := by
  conv => lhs; unfold Json.string
  simp only [h]
  cases Json.string s <;> rfl

theorem hex_hex4 : ∀ c, c < 128 → Json.hex (hexDigit (c / 4096 % 16)) (hexDigit (c / 256 % 16)) (hexDigit (c / 16 % 16)) (hexDigit (c % 16)) = some c := by
  have : ∀ c : Fin 128, Json.hex (hexDigit (c.val / 4096 % 16)) (hexDigit (c.val / 256 % 16)) (hexDigit (c.val / 16 % 16)) (hexDigit (c.val % 16)) = some c.val := by
    decide +kernel
  exact fun c hc => this ⟨c, hc⟩

theorem string_escapeByte (c : Nat) (s : Str) : Json.string (escapeByte c ++ s) = (Json.string s).map (fun p => (c :: p.1, p.2)) := by
  unfold escapeByte
  split
  · rename_i h
    have hc : c < 128 := by omega
    unfold hex4
    rw [show (92 :: 117 :: [hexDigit (c / 4096 % 16), hexDigit (c / 256 % 16), hexDigit (c / 16 % 16), hexDigit (c % 16)]) ++ s =
      92 :: 117 :: hexDigit (c / 4096 % 16) :: hexDigit (c / 256 % 16) :: hexDigit (c / 16 % 16) :: hexDigit (c % 16) :: s from rfl,
      string_hex s (hex_hex4 c hc)]
    unfold Json.utf8
    rw [if_pos hc]
    rfl
  · rename_i h
    exact string_plain s (by omega) (by omega) (by omega)

theorem string_escape : ∀ (t r : Str), Json.string (escape t ++ 34 :: r) = some (t, r)
  | [], r => string_quote r
  | c :: t, r => by
      unfold escape
      rw [List.append_assoc, string_escapeByte, string_escape t r]
      rfl

/-! ## Numbers -/

theorem digits_mem : ∀ (n x : Nat), ∀ c ∈ digits n x, 48 ≤ c ∧ c ≤ 57
  | 0, _, c, h => by simp [digits] at h
  | n + 1, x, c, h => by
      unfold digits at h
      split at h
      · simp at h; omega
      · rw [List.mem_append, List.mem_singleton] at h
        rcases h with h | h
        · exact digits_mem n _ c h
        · omega

theorem decimal_mem (i : Nat) : ∀ c ∈ decimal i, 48 ≤ c ∧ c ≤ 57 := digits_mem _ _

theorem ofDigits_append (s : Str) (c : Nat) : ofDigits (s ++ [c]) = 10 * ofDigits s + (c - 48) := by
  unfold ofDigits; rw [List.foldl_append]; rfl

theorem ofDigits_digits : ∀ (n x : Nat), x < 10 ^ n → 0 < n → ofDigits (digits n x) = x
  | 0, _, _, h => by omega
  | n + 1, x, h, _ => by
      unfold digits
      split
      · simp [ofDigits]
      · rename_i hx
        have h1 : x / 10 < 10 ^ n := by rw [Nat.pow_succ] at h; omega
        have hn : 0 < n := by
          cases n with
          | zero => simp at h1; omega
          | succ n => omega
        rw [ofDigits_append, ofDigits_digits n _ h1 hn]
        omega

theorem ofDigits_decimal (i : Nat) : ofDigits (decimal i) = i :=
  ofDigits_digits _ _ (Nat.lt_of_lt_of_le (Nat.lt_pow_self (by omega : 1 < 10)) (Nat.pow_le_pow_right (by omega) (by omega))) (by omega)

theorem digits_ne_nil : ∀ (n x : Nat), 0 < n → digits n x ≠ []
  | 0, _, h => by omega
  | n + 1, x, _ => by unfold digits; split <;> simp

theorem decimal_ne_nil (i : Nat) : decimal i ≠ [] := digits_ne_nil _ _ (by omega)

theorem digits_length_le : ∀ (m x n : Nat), x < 10 ^ m → 0 < m → 0 < n → ((digits m x).length ≤ n ↔ x < 10 ^ n)
  | 0, _, _, _, h, _ => by omega
  | m + 1, x, n, hx, _, hn => by
      unfold digits
      split
      · rename_i h
        have : 10 ^ 1 ≤ 10 ^ n := Nat.pow_le_pow_right (by omega) hn
        simp; omega
      · rename_i h
        have h1 : x / 10 < 10 ^ m := by rw [Nat.pow_succ] at hx; omega
        have hm : 0 < m := by
          cases m with
          | zero => simp at h1; omega
          | succ m => omega
        rw [List.length_append, List.length_singleton]
        cases n with
        | zero => omega
        | succ n =>
            cases n with
            | zero =>
                have := digits_ne_nil m (x / 10) hm
                have : 0 < (digits m (x / 10)).length := List.length_pos_iff.mpr this
                rw [show 10 ^ (0 + 1) = 10 from rfl]; omega
            | succ n =>
                have := digits_length_le m (x / 10) (n + 1) h1 hm (by omega)
                rw [Nat.pow_succ 10 (n + 1)]
                constructor
                · intro h; have := this.mp (by omega); omega
                · intro h; have := this.mpr (by omega); omega

theorem decimal_length_le {k n : Nat} (hn : 0 < n) : (decimal k).length ≤ n ↔ k < 10 ^ n :=
  digits_length_le _ _ _ (Nat.lt_of_lt_of_le (Nat.lt_pow_self (by omega : 1 < 10)) (Nat.pow_le_pow_right (by omega) (by omega))) (by omega) hn

theorem escape_digits : ∀ (s : Str), (∀ c ∈ s, 48 ≤ c ∧ c ≤ 57) → escape s = s
  | [], _ => rfl
  | c :: s, h => by
      have := h c (List.mem_cons_self ..)
      unfold escape escapeByte
      rw [if_neg (by omega), escape_digits s (fun d hd => h d (List.mem_cons_of_mem _ hd))]
      rfl

theorem string_decimal (i : Nat) (r : Str) : Json.string (decimal i ++ 34 :: r) = some (decimal i, r) := by
  have := string_escape (decimal i) r
  rwa [escape_digits _ (decimal_mem i)] at this

/-! ## The object of a result -/

/-- the text of an object, without the comma -/
def plain (i : Nat) (t : Str) : Str := valueKey ++ escape t ++ dataKey ++ decimal i ++ itemEnd

/-- `value` -/
def kValue : Str := [118, 97, 108, 117, 101]
/-- `data` -/
def kData : Str := [100, 97, 116, 97]
/-- `suggestions` -/
def kSug : Str := [115, 117, 103, 103, 101, 115, 116, 105, 111, 110, 115]

/-- what an object says -/
def entry (i : Nat) (t : Str) : Json := .obj [(kValue, .str t), (kData, .str (decimal i))]

theorem ws_cons {c : Nat} (s : Str) (h : ¬ (c = 32 ∨ c = 9 ∨ c = 10 ∨ c = 13)) : Json.ws (c :: s) = c :: s := by
  unfold Json.ws; rw [if_neg h]

theorem value_string (n : Nat) {s t r : Str} (h : Json.string s = some (t, r)) : Json.value (n + 1) (34 :: s) = some (.str t, r) := by
  unfold Json.value
  rw [ws_cons s (by omega)]
  simp only [Json.scalar, h, Option.map_some]

theorem members_more (n : Nat) {s key r r' : Str} {v : Json} (hs : Json.string s = some (key, 58 :: r)) (hv : Json.value n r = some (v, 44 :: r')) :
    Json.members (n + 1) (34 :: s) = (Json.members n r').map (fun p => ((key, v) :: p.1, p.2)) := by
  conv => lhs; unfold Json.members
  rw [ws_cons s (by omega)]
  simp only [hs]
  rw [ws_cons r (by omega)]
  simp only [hv]
  rw [ws_cons r' (by omega)]
  rfl

theorem members_last (n : Nat) {s key r r' : Str} {v : Json} (hs : Json.string s = some (key, 58 :: r)) (hv : Json.value n r = some (v, 125 :: r')) :
    Json.members (n + 1) (34 :: s) = some ([(key, v)], r') := by
  unfold Json.members
  rw [ws_cons s (by omega)]
  simp only [hs]
  rw [ws_cons r (by omega)]
  simp only [hv]
  rw [ws_cons r' (by omega)]
  rfl

theorem value_plain (n i : Nat) (t r : Str) : Json.value (n + 4) (plain i t ++ r) = some (entry i t, r) := by
  have e : plain i t ++ r = 123 :: 34 :: 118 :: 97 :: 108 :: 117 :: 101 :: 34 :: 58 :: 34 :: (escape t ++ 34 :: 44 :: 34 :: 100 :: 97 :: 116 :: 97 ::
      34 :: 58 :: 34 :: (decimal i ++ 34 :: 125 :: r)) := by
    simp [plain, valueKey, dataKey, itemEnd, List.append_assoc]
  have h1 : Json.members (n + 2) (34 :: 100 :: 97 :: 116 :: 97 :: 34 :: 58 :: 34 :: (decimal i ++ 34 :: 125 :: r)) = some ([(kData, .str (decimal i))], r) := by
    apply members_last (r := 34 :: (decimal i ++ 34 :: 125 :: r))
    · exact string_escape kData _
    · exact value_string n (string_decimal i _)
  have h2 : Json.members (n + 3) (34 :: 118 :: 97 :: 108 :: 117 :: 101 :: 34 :: 58 :: 34 :: (escape t ++ 34 :: 44 :: 34 :: 100 :: 97 :: 116 :: 97 ::
      34 :: 58 :: 34 :: (decimal i ++ 34 :: 125 :: r))) = some ([(kValue, .str t), (kData, .str (decimal i))], r) := by
    refine (members_more (n + 2) (key := kValue) (v := .str t) (r := 34 :: (escape t ++ 34 :: 44 :: 34 :: 100 :: 97 :: 116 :: 97 :: 34 :: 58 :: 34 :: (decimal i ++ 34 :: 125 :: r)))
      (r' := 34 :: 100 :: 97 :: 116 :: 97 :: 34 :: 58 :: 34 :: (decimal i ++ 34 :: 125 :: r))
      (string_escape kValue _) (value_string (n + 1) (string_escape t _))).trans ?_
    rw [h1]
    rfl
  rw [e]
  unfold Json.value
  rw [ws_cons _ (by omega)]
  simp only
  rw [ws_cons _ (by omega)]
  simp only [h2]
  rfl

/-! ## The array -/

/-- what the objects say, numbered from `i` -/
def entries : Nat → List Str → List Json
  | _, [] => []
  | i, t :: ts => entry i t :: entries (i + 1) ts

theorem item_pos (i : Nat) (t : Str) : item (i + 1) t = 44 :: plain (i + 1) t := by simp [item, plain]
theorem item_zero (t : Str) : item 0 t = plain 0 t := by simp [item, plain]

theorem elements_items : ∀ (ts : List Str) (i n : Nat) (t r : Str), ts.length + 5 ≤ n →
    Json.elements n (plain i t ++ items (i + 1) ts ++ 93 :: r) = some (entries i (t :: ts), r)
  | ts, i, n, t, r, hn => by
      obtain ⟨m, rfl⟩ : ∃ m, n = m + 5 := ⟨n - 5, by omega⟩
      unfold Json.elements
      rw [List.append_assoc, value_plain (m) i t]
      simp only
      match ts with
      | [] =>
          simp only [items, List.nil_append]
          rw [ws_cons _ (by omega)]
          rfl
      | u :: us =>
          simp only [items, item_pos, List.cons_append]
          rw [ws_cons _ (by omega)]
          simp only
          rw [elements_items us (i + 1) (m + 4) u r (by simp at hn; omega)]
          rfl

/-- what the response says -/
def suggestions (ts : List Str) : Json := .obj [(kSug, .arr (entries 0 ts))]

theorem plain_length (i : Nat) (t : Str) : 10 ≤ (plain i t).length := by
  simp [plain, valueKey]

theorem items_length : ∀ (i : Nat) (ts : List Str), 10 * ts.length ≤ (items i ts).length
  | _, [] => by simp
  | i, t :: ts => by
      have h1 := items_length (i + 1) ts
      have h2 := plain_length i t
      have h3 : (plain i t).length ≤ (item i t).length := by simp [item, plain]
      simp only [items, List.length_cons, List.length_append]
      omega

theorem decode_body {ts : List Str} (h : ts ≠ []) : Json.decode (body ts) = some (suggestions ts) := by
  cases ts with
  | nil => exact absurd rfl h
  | cons t ts =>
      have hb : body (t :: ts) = opening ++ items 0 (t :: ts) ++ closing := by simp [body]
      have hl := items_length 0 (t :: ts)
      have hlen : (t :: ts).length + 7 ≤ (body (t :: ts)).length := by
        rw [hb]
        simp only [List.length_append, List.length_cons] at hl ⊢
        simp [opening, closing]
        omega
      unfold Json.decode
      generalize hn : (body (t :: ts)).length + 1 = n
      obtain ⟨m, rfl⟩ : ∃ m, n = m + 3 := ⟨n - 3, by omega⟩
      have e : body (t :: ts) = 123 :: 34 :: 115 :: 117 :: 103 :: 103 :: 101 :: 115 :: 116 :: 105 :: 111 :: 110 :: 115 :: 34 :: 58 :: 91 ::
          (plain 0 t ++ items 1 ts ++ 93 :: 125 :: 10 :: []) := by
        rw [hb]
        simp [opening, closing, items, item_zero, List.append_assoc]
      have e123 : ∀ s, Json.ws (plain 0 t ++ s) = 123 :: 34 :: ((valueKey.drop 2 ++ escape t ++ dataKey ++ decimal 0 ++ itemEnd) ++ s) := by
        intro s
        rw [show plain 0 t ++ s = 123 :: 34 :: ((valueKey.drop 2 ++ escape t ++ dataKey ++ decimal 0 ++ itemEnd) ++ s) from by simp [plain, valueKey]]
        exact ws_cons _ (by omega)
      have hel := elements_items ts 0 m t [125, 10] (by simp at hlen; omega)
      have hv : Json.value (m + 1) (91 :: (plain 0 t ++ items 1 ts ++ 93 :: 125 :: 10 :: [])) = some (.arr (entries 0 (t :: ts)), [125, 10]) := by
        unfold Json.value
        rw [ws_cons _ (by omega)]
        simp only
        rw [show plain 0 t ++ items 1 ts ++ 93 :: 125 :: 10 :: [] = plain 0 t ++ (items 1 ts ++ 93 :: 125 :: 10 :: []) from List.append_assoc ..,
          e123]
        simp only
        rw [← List.append_assoc, hel]
        rfl
      have hm : Json.members (m + 2) (34 :: 115 :: 117 :: 103 :: 103 :: 101 :: 115 :: 116 :: 105 :: 111 :: 110 :: 115 :: 34 :: 58 :: 91 ::
          (plain 0 t ++ items 1 ts ++ 93 :: 125 :: 10 :: [])) = some ([(kSug, .arr (entries 0 (t :: ts)))], [10]) := by
        apply members_last (r := 91 :: (plain 0 t ++ items 1 ts ++ 93 :: 125 :: 10 :: []))
        · exact string_escape kSug _
        · exact hv
      have : Json.value (m + 3) (body (t :: ts)) = some (suggestions (t :: ts), [10]) := by
        rw [e]
        unfold Json.value
        rw [ws_cons _ (by omega)]
        simp only
        rw [ws_cons _ (by omega)]
        simp only [hm]
        rfl
      rw [this]
      rfl

/-! ## Sending -/

theorem format_plain : ∀ (p s : Str), (∀ c ∈ p, c ≠ 37 ∧ c ≠ 0) → format (p ++ s) = (format s).map (p ++ ·)
  | [], s, _ => by rw [List.nil_append]; cases format s <;> rfl
  | c :: p, s, h => by
      have h1 := h c (List.mem_cons_self ..)
      have h2 := format_plain p s (fun d hd => h d (List.mem_cons_of_mem _ hd))
      rw [List.cons_append]
      conv => lhs; unfold format
      split
      · rename_i e; cases e
      · rename_i e; injection e with e1 e2; exact absurd e1 h1.2
      · rename_i e; injection e with e1 e2; exact absurd e1 h1.1
      · rename_i e; injection e with e1 e2; exact absurd e1 h1.1
      · rename_i e
        injection e with e1 e2
        subst e1
        rw [← e2, h2]
        cases format s <;> rfl

theorem format_self {p : Str} (h : ∀ c ∈ p, c ≠ 37 ∧ c ≠ 0) : format p = .ok p := by
  have := format_plain p [] h
  rw [List.append_nil] at this
  rw [this]
  simp [format, Except.map]

theorem escapeByte_mem {c : Nat} : ∀ d ∈ escapeByte c, d ≠ 0 ∧ (d = 37 → c = 37) := by
  intro d hd
  unfold escapeByte at hd
  split at hd
  · rename_i h
    have hc : c < 128 := by omega
    have : ∀ c : Fin 128, ∀ d ∈ 92 :: 117 :: hex4 c.val, d ≠ 0 ∧ d ≠ 37 := by decide +kernel
    have := this ⟨c, hc⟩ d hd
    exact ⟨this.1, fun h => absurd h this.2⟩
  · simp at hd
    subst hd
    refine ⟨by omega, fun h => h⟩

theorem escape_mem : ∀ (t : Str), ∀ d ∈ escape t, d ≠ 0 ∧ (d = 37 → 37 ∈ t)
  | [], d, h => by simp [escape] at h
  | c :: t, d, h => by
      unfold escape at h
      rw [List.mem_append] at h
      rcases h with h | h
      · obtain ⟨h1, h2⟩ := escapeByte_mem d h
        exact ⟨h1, fun e => by rw [h2 e]; exact List.mem_cons_self ..⟩
      · obtain ⟨h1, h2⟩ := escape_mem t d h
        exact ⟨h1, fun e => List.mem_cons_of_mem _ (h2 e)⟩

theorem item_mem (i : Nat) (t : Str) : ∀ d ∈ item i t, d ≠ 0 ∧ (d = 37 → 37 ∈ t) := by
  intro d hd
  have hk : ∀ d ∈ valueKey ++ dataKey ++ itemEnd ++ [44], d ≠ 0 ∧ d ≠ 37 := by decide
  simp only [item, List.mem_append] at hd
  rcases hd with ((((h | h) | h) | h) | h) | h
  · have := hk d (by
      split at h
      · simp only [List.mem_append]; exact Or.inr h
      · cases h)
    exact ⟨this.1, fun e => absurd e this.2⟩
  · have := hk d (by simp only [List.mem_append]; exact Or.inl (Or.inl (Or.inl h)))
    exact ⟨this.1, fun e => absurd e this.2⟩
  · exact escape_mem t d h
  · have := hk d (by simp only [List.mem_append]; exact Or.inl (Or.inl (Or.inr h)))
    exact ⟨this.1, fun e => absurd e this.2⟩
  · have := decimal_mem i d h
    exact ⟨by omega, fun e => by omega⟩
  · have := hk d (by simp only [List.mem_append]; exact Or.inl (Or.inr h))
    exact ⟨this.1, fun e => absurd e this.2⟩

theorem items_mem : ∀ (ts : List Str) (i : Nat), ∀ d ∈ items i ts, d ≠ 0 ∧ (d = 37 → ∃ t ∈ ts, 37 ∈ t)
  | [], _, d, h => by simp [items] at h
  | t :: ts, i, d, h => by
      rw [items, List.mem_append] at h
      rcases h with h | h
      · obtain ⟨h1, h2⟩ := item_mem i t d h
        exact ⟨h1, fun e => ⟨t, List.mem_cons_self .., h2 e⟩⟩
      · obtain ⟨h1, h2⟩ := items_mem ts (i + 1) d h
        exact ⟨h1, fun e => by obtain ⟨u, hu, h3⟩ := h2 e; exact ⟨u, List.mem_cons_of_mem _ hu, h3⟩⟩

theorem frame_mem : ∀ d ∈ opening ++ emptyItem ++ closing, d ≠ 0 ∧ d ≠ 37 := by decide

theorem body_mem (ts : List Str) : ∀ d ∈ body ts, d ≠ 0 ∧ (d = 37 → ∃ t ∈ ts, 37 ∈ t) := by
  intro d hd
  unfold body at hd
  split at hd
  · have := frame_mem d hd
    exact ⟨this.1, fun e => absurd e this.2⟩
  · rw [List.mem_append, List.mem_append] at hd
    rcases hd with (h | h) | h
    · have := frame_mem d (by simp only [List.mem_append]; exact Or.inl (Or.inl h))
      exact ⟨this.1, fun e => absurd e this.2⟩
    · exact items_mem ts 0 d h
    · have := frame_mem d (by simp only [List.mem_append]; exact Or.inr h)
      exact ⟨this.1, fun e => absurd e this.2⟩

theorem format_body {ts : List Str} (h : ∀ t ∈ ts, 37 ∉ t) : format (body ts) = .ok (body ts) := by
  apply format_self
  intro c hc
  obtain ⟨h1, h2⟩ := body_mem ts c hc
  refine ⟨fun e => ?_, h1⟩
  obtain ⟨t, ht, h3⟩ := h2 e
  exact h t ht h3

/-! ## Percent signs -/

theorem escape_append : ∀ (a b : Str), escape (a ++ b) = escape a ++ escape b
  | [], b => rfl
  | c :: a, b => by simp [escape, escape_append a b]

theorem items_append : ∀ (us vs : List Str) (i : Nat), items i (us ++ vs) = items i us ++ items (i + us.length) vs
  | [], vs, i => by simp [items]
  | u :: us, vs, i => by
      simp only [List.cons_append, items, items_append us vs (i + 1), List.append_assoc, List.length_cons]
      rw [show i + 1 + us.length = i + (us.length + 1) from by omega]

/-- the part of the body before the contents of a text -/
def before (us : List Str) : Str := opening ++ items 0 us ++ (if us.length > 0 then [44] else []) ++ valueKey
/-- the part after -/
def after (us vs : List Str) : Str := dataKey ++ decimal us.length ++ itemEnd ++ items (us.length + 1) vs ++ closing

theorem body_split (us vs : List Str) (t : Str) : body (us ++ t :: vs) = before us ++ escape t ++ after us vs := by
  unfold body before after
  rw [if_neg (by simp), items_append]
  simp [items, item, List.append_assoc]

theorem before_mem (us : List Str) (h : ∀ t ∈ us, 37 ∉ t) : ∀ d ∈ before us, d ≠ 37 ∧ d ≠ 0 := by
  intro d hd
  unfold before at hd
  rw [List.mem_append, List.mem_append, List.mem_append] at hd
  rcases hd with ((hd | hd) | hd) | hd
  · have := frame_mem d (by simp only [List.mem_append]; exact Or.inl (Or.inl hd))
    exact ⟨this.2, this.1⟩
  · obtain ⟨h1, h2⟩ := items_mem us 0 d hd
    refine ⟨fun e => ?_, h1⟩
    obtain ⟨t, ht, h3⟩ := h2 e
    exact h t ht h3
  · split at hd
    · simp at hd; omega
    · cases hd
  · have : ∀ d ∈ valueKey, d ≠ 37 ∧ d ≠ 0 := by decide
    exact this d hd

theorem after_mem (us vs : List Str) (h : ∀ t ∈ vs, 37 ∉ t) : ∀ d ∈ after us vs, d ≠ 37 ∧ d ≠ 0 := by
  intro d hd
  unfold after at hd
  simp only [List.mem_append] at hd
  rcases hd with (((hd | hd) | hd) | hd) | hd
  · have : ∀ d ∈ dataKey, d ≠ 37 ∧ d ≠ 0 := by decide
    exact this d hd
  · have := decimal_mem us.length d hd
    omega
  · have : ∀ d ∈ itemEnd, d ≠ 37 ∧ d ≠ 0 := by decide
    exact this d hd
  · obtain ⟨h1, h2⟩ := items_mem vs (us.length + 1) d hd
    refine ⟨fun e => ?_, h1⟩
    obtain ⟨t, ht, h3⟩ := h2 e
    exact h t ht h3
  · have := frame_mem d (by simp only [List.mem_append]; exact Or.inr hd)
    exact ⟨this.2, this.1⟩

theorem escape_plain {a : Str} (h : 37 ∉ a) : ∀ d ∈ escape a, d ≠ 37 ∧ d ≠ 0 := by
  intro d hd
  obtain ⟨h1, h2⟩ := escape_mem a d hd
  exact ⟨fun e => h (h2 e), h1⟩

theorem format_percent {s : Str} (h : s.head? ≠ some 37) : format (37 :: s) = .error .oob := by
  conv => lhs; unfold format
  split <;> simp_all

theorem escape_head {b : Str} (rest : Str) (h : b.head? ≠ some 37) (hr : rest.head? ≠ some 37) : (escape b ++ rest).head? ≠ some 37 := by
  cases b with
  | nil => exact hr
  | cons c b =>
      simp only [List.head?_cons, ne_eq, Option.some.injEq] at h
      unfold escape escapeByte
      split
      · simp
      · simp [h]

/-- a percent sign that no other follows: the response is undefined -/
theorem format_body_percent {us vs : List Str} {a b : Str} (hu : ∀ t ∈ us, 37 ∉ t) (ha : 37 ∉ a) (hb : b.head? ≠ some 37) :
    format (body (us ++ (a ++ 37 :: b) :: vs)) = .error .oob := by
  rw [body_split, escape_append, show escape (37 :: b) = 37 :: escape b from rfl, List.append_assoc, List.append_assoc, List.cons_append,
    format_plain _ _ (before_mem us hu), format_plain _ _ (escape_plain ha), format_percent]
  · rfl
  · exact escape_head _ hb (by simp [after, dataKey])

theorem format_body_double {us vs : List Str} {a b : Str} (hu : ∀ t ∈ us, 37 ∉ t) (hv : ∀ t ∈ vs, 37 ∉ t) (ha : 37 ∉ a) (hb : 37 ∉ b) :
    format (body (us ++ (a ++ 37 :: 37 :: b) :: vs)) = .ok (body (us ++ (a ++ 37 :: b) :: vs)) := by
  have hpost : ∀ d ∈ escape b ++ after us vs, d ≠ 37 ∧ d ≠ 0 := by
    intro d hd
    rw [List.mem_append] at hd
    rcases hd with h | h
    · exact escape_plain hb d h
    · exact after_mem us vs hv d h
  rw [body_split, escape_append, show escape (37 :: 37 :: b) = 37 :: 37 :: escape b from rfl, List.append_assoc, List.append_assoc,
    List.cons_append, List.cons_append, format_plain _ _ (before_mem us hu), format_plain _ _ (escape_plain ha)]
  have : format (37 :: 37 :: (escape b ++ after us vs)) = .ok (37 :: (escape b ++ after us vs)) := by
    conv => lhs; unfold format
    simp only [format_self hpost]
    rfl
  rw [this, body_split, escape_append, show escape (37 :: b) = 37 :: escape b from rfl]
  simp [Except.map, List.append_assoc]

/-! ## The parameter `k` -/

theorem takeWhile_all {p : Nat → Bool} : ∀ (s : Str), (∀ c ∈ s, p c = true) → s.takeWhile p = s
  | [], _ => rfl
  | c :: s, h => by
      rw [List.takeWhile_cons, h c (List.mem_cons_self ..), takeWhile_all s (fun d hd => h d (List.mem_cons_of_mem _ hd))]
      rfl

theorem stoull_decimal {k : Nat} (hk : k < 2 ^ 64) : stoull (decimal k) = .ok k := by
  have hm := decimal_mem k
  have hn := decimal_ne_nil k
  have hd : ∀ c ∈ decimal k, isDigit c = true := by intro c hc; have := hm c hc; simp [isDigit]; omega
  have ho := ofDigits_decimal k
  have hs : signed false (decimal k) = .ok k := by
    unfold signed
    rw [takeWhile_all _ hd]
    simp only
    rw [if_neg (by simpa using hn), if_neg (by omega)]
    simp [ho]
  generalize decimal k = s at *
  match s, hn with
  | c :: s, _ =>
      have hc := hm c (List.mem_cons_self ..)
      unfold stoull
      have : isSpace c = false := by simp [isSpace]; omega
      rw [List.dropWhile_cons, this]
      simp only [Bool.false_eq_true, if_false]
      split
      · rename_i e; cases e; omega
      · rename_i e; cases e; omega
      · exact hs

end Web
end AC
