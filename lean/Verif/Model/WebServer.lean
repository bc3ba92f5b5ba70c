import Verif.Model.Autocomplete
/-!
# The web server, src/web_server.cpp

The request handler from the values of the parameters `q` and `k` to the bytes of the response's only chunk. Not modelled: the library
`mongoose` (not in the repository): reading the parameters from the request, the headers and the framing of the chunk, serving files, the
event loop.
-/
namespace AC
namespace Web

/-- a digit printed in base 16 -/
def hexDigit (d : Nat) : Nat := if d < 10 then 48 + d else 87 + d

/-- `std::hex << std::setw(4) << std::setfill('0') << n` for `n < 65536`, src/web_server.cpp:18-19 -/
def hex4 (n : Nat) : Str := [hexDigit (n / 4096 % 16), hexDigit (n / 256 % 16), hexDigit (n / 16 % 16), hexDigit (n % 16)]

/-- body of the loop of `escape_json`, src/web_server.cpp:17-22. `char` is signed: bytes from 128 are negative and not escaped. -/
def escapeByte (c : Nat) : Str := if c = 34 ∨ c = 92 ∨ c ≤ 31 then 92 :: 117 :: hex4 c else [c]

/-- `escape_json(s)`, src/web_server.cpp:14-25 -/
def escape : Str → Str
  | [] => []
  | c :: s => escapeByte c ++ escape s

/-- digits of a number in base 10, `n` being an upper bound of their number -/
def digits : Nat → Nat → Str
  | 0, _ => []
  | n + 1, x => if x < 10 then [48 + x] else digits n (x / 10) ++ [48 + x % 10]

/-- `std::to_string(i)` -/
def decimal (i : Nat) : Str := digits (i + 1) i

/-- `{"value":"` -/
def valueKey : Str := [123, 34, 118, 97, 108, 117, 101, 34, 58, 34]
/-- `",` and `"data":"` -/
def dataKey : Str := [34, 44, 34, 100, 97, 116, 97, 34, 58, 34]
/-- `{"suggestions":[` -/
def opening : Str := [123, 34, 115, 117, 103, 103, 101, 115, 116, 105, 111, 110, 115, 34, 58, 91]
/-- `"}` -/
def itemEnd : Str := [34, 125]
/-- `]}` and a newline -/
def closing : Str := [93, 125, 10]
/-- `"value":"","data":""` -/
def emptyItem : Str := [34, 118, 97, 108, 117, 101, 34, 58, 34, 34, 44, 34, 100, 97, 116, 97, 34, 58, 34, 34]

/-- body of the loop, src/web_server.cpp:66-72 -/
def item (i : Nat) (t : Str) : Str := (if i > 0 then [44] else []) ++ valueKey ++ escape t ++ dataKey ++ decimal i ++ itemEnd

/-- the loop, src/web_server.cpp:65-73 -/
def items : Nat → List Str → Str
  | _, [] => []
  | i, t :: ts => item i t ++ items (i + 1) ts

/-- `data`, src/web_server.cpp:61-75 -/
def body (ts : List Str) : Str :=
  if ts.isEmpty then opening ++ emptyItem ++ closing else opening ++ items 0 ts ++ closing

/-- `mg_printf_http_chunk(nc, data.c_str(), data.size())`, src/web_server.cpp:79: the second parameter of this function of `mongoose` is a
format, as that of `printf`. What is sent: up to a null byte, `%%` stands for `%`. Any other conversion is a fault here: most of them are
undefined for an argument of type `size_t` or for want of an argument (`%lu` would print the size). -/
def format : Str → M Str
  | [] => .ok []
  | 0 :: _ => .ok []
  | 37 :: 37 :: s => do
      let r ← format s
      .ok (37 :: r)
  | 37 :: _ => .error .oob
  | c :: s => do
      let r ← format s
      .ok (c :: r)

/-- a byte skipped by `std::isspace` in the default locale -/
def isSpace (c : Nat) : Bool := c == 32 || (9 ≤ c && c ≤ 13)

/-- a decimal digit -/
def isDigit (c : Nat) : Bool := 48 ≤ c && c ≤ 57

/-- the number written by digits -/
def ofDigits (s : Str) : Nat := s.foldl (fun n c => 10 * n + (c - 48)) 0

/-- sign and digits: the number, negated modulo `2^64` -/
def signed (neg : Bool) (s : Str) : M Nat :=
  let d := s.takeWhile isDigit
  if d.isEmpty then .error .thrown
  else if 2 ^ 64 ≤ ofDigits d then .error .thrown
  else .ok (if neg then (2 ^ 64 - ofDigits d) % 2 ^ 64 else ofDigits d)

/-- `std::stoull(s)`: spaces, an optional sign, digits; what follows is ignored. It throws when there is no digit or the number is too big. -/
def stoull (s : Str) : M Nat :=
  match s.dropWhile isSpace with
  | 43 :: r => signed false r
  | 45 :: r => signed true r
  | r => signed false r

/-- `mg_get_http_var` of `mongoose`, as documented there: a parameter that is absent, empty or, with its final zero, longer than the buffer
of `room` bytes is as if it was not given (the result is not positive) -/
def getVar (room : Nat) (v : Option Str) : Option Str :=
  match v with
  | none => none
  | some t => if t.isEmpty || decide (room ≤ t.length) then none else some t

/-- the query, src/web_server.cpp:42, 44-49 -/
def requestedQ (q : Option Str) : Str := (getVar MAX_CHARS q).getD []

/-- `k`, src/web_server.cpp:43, 50-54, and its conversion to `uint32_t` in the call of the search, 60 -/
def requestedK (k : Option Str) : M Nat :=
  match getVar 16 k with
  | none => .ok 10
  | some t => (stoull t).map (fun k => k % 2 ^ 32)

/-- the handler of `/topcomp`, src/web_server.cpp:41-81, from the parameters `q` and `k` of the request, decoded: what is sent, and the
state of the index -/
def respond (std : StdLib) (x : Index1) (q k : Option Str) (s : Scratch) : M (Str × Scratch) := do
  let k ← requestedK k
  let s ← x.conjTopk std (requestedQ q) k s
  let res ← s.pool.results
  let sent ← format (body (res.map (·.2)))
  .ok (sent, s)

end Web
end AC
