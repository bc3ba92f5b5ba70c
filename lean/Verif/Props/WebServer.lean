import Verif.Proofs.WebServer
import Verif.Props.Conjunctive
/-!
# C44: the responses of the web server
-/
namespace AC.Props
open AC Spec Web

/-- the JSON value with these suggestions: `{"suggestions":[{"value":t0,"data":"0"},{"value":t1,"data":"1"},…]}` -/
def SuggestionsOf (ts : List Str) (j : Json) : Prop :=
  ∃ l, j = .obj [([115, 117, 103, 103, 101, 115, 116, 105, 111, 110, 115], .arr l)] ∧ l.length = ts.length ∧
    ∀ (i : Nat) (t : Str), ts[i]? = some t →
      ∃ d, l[i]? = some (.obj [([118, 97, 108, 117, 101], .str t), ([100, 97, 116, 97], .str d)]) ∧ ofDigits d = i ∧ ∀ c ∈ d, 48 ≤ c ∧ c ≤ 57

theorem entries_length : ∀ (ts : List Str) (i : Nat), (entries i ts).length = ts.length
  | [], _ => rfl
  | t :: ts, i => by simp [entries, entries_length ts]

theorem entries_get : ∀ (ts : List Str) (i j : Nat) (t : Str), ts[j]? = some t → (entries i ts)[j]? = some (entry (i + j) t)
  | [], _, _, _, h => by simp at h
  | u :: ts, i, 0, t, h => by simp at h; subst h; rfl
  | u :: ts, i, j + 1, t, h => by
      simp only [List.getElem?_cons_succ] at h
      simp only [entries, List.getElem?_cons_succ]
      rw [entries_get ts (i + 1) j t h, show i + 1 + j = i + (j + 1) from by omega]

theorem suggestionsOf_suggestions (ts : List Str) : SuggestionsOf ts (suggestions ts) := by
  refine ⟨entries 0 ts, rfl, entries_length ts 0, ?_⟩
  intro i t h
  refine ⟨decimal i, ?_, ofDigits_decimal i, decimal_mem i⟩
  rw [entries_get ts 0 i t h, Nat.zero_add]
  rfl

variable {std : StdLib} {x : Index1} {qarg : Option Str} {karg : Option Str} {k : Nat} {s s' : Scratch} {res : List (Nat × Str)}

theorem respond_eq (hk : requestedK karg = .ok k) (ho : x.conjTopk std (requestedQ qarg) k s = .ok s') (hr : s'.pool.results = .ok res) :
    respond std x qarg karg s = (format (body (res.map (·.2)))).map (fun b => (b, s')) := by
  unfold respond
  rw [hk, M.ok_bind, ho, M.ok_bind, hr, M.ok_bind]
  cases format (body (res.map (·.2))) <;> rfl

/-- C44, partial: whatever the search returns, if it is something and there is no percent sign in it, the response is a JSON text with
exactly these texts, byte for byte, in order. Missing: no result (`C44_false_empty`) and percent signs (`C44_false_percent`,
`C44_false_double`). -/
theorem C44_json_partial (hk : requestedK karg = .ok k) (ho : x.conjTopk std (requestedQ qarg) k s = .ok s') (hr : s'.pool.results = .ok res)
    (hne : res ≠ []) (hp : ∀ r ∈ res, 37 ∉ r.2) :
    ∃ sent j, respond std x qarg karg s = .ok (sent, s') ∧ Json.decode sent = some j ∧ SuggestionsOf (res.map (·.2)) j := by
  refine ⟨body (res.map (·.2)), suggestions (res.map (·.2)), ?_, ?_, suggestionsOf_suggestions _⟩
  · rw [respond_eq hk ho hr, format_body]
    · rfl
    · intro t ht
      obtain ⟨r, h1, rfl⟩ := List.mem_map.mp ht
      exact hp r h1
  · exact decode_body (by simpa using hne)

/-- C44 is false: whenever nothing is found, the response is a fixed text that is not JSON -/
theorem C44_false_empty (hk : requestedK karg = .ok k) (ho : x.conjTopk std (requestedQ qarg) k s = .ok s') (hr : s'.pool.results = .ok []) :
    ∃ sent, respond std x qarg karg s = .ok (sent, s') ∧ Json.decode sent = none ∧
      sent = "{\"suggestions\":[\"value\":\"\",\"data\":\"\"]}\n".toList.map Char.toNat := by
  refine ⟨body [], ?_, by rfl, by decide⟩
  rw [respond_eq hk ho hr, List.map_nil, format_body (by simp)]
  rfl

/-- C44 is false: a text with a percent sign not followed by another makes the response undefined (it is used as a format) -/
theorem C44_false_percent (hk : requestedK karg = .ok k) (ho : x.conjTopk std (requestedQ qarg) k s = .ok s') (hr : s'.pool.results = .ok res)
    {us vs : List Str} {a b : Str} (he : res.map (·.2) = us ++ (a ++ 37 :: b) :: vs) (hu : ∀ t ∈ us, 37 ∉ t) (ha : 37 ∉ a)
    (hb : b.head? ≠ some 37) : respond std x qarg karg s = .error .oob := by
  rw [respond_eq hk ho hr, he, format_body_percent hu ha hb]
  rfl

/-- C44 is false: two percent signs in a text are sent as one -/
theorem C44_false_double (hk : requestedK karg = .ok k) (ho : x.conjTopk std (requestedQ qarg) k s = .ok s') (hr : s'.pool.results = .ok res)
    {us vs : List Str} {a b : Str} (he : res.map (·.2) = us ++ (a ++ 37 :: 37 :: b) :: vs) (hu : ∀ t ∈ us, 37 ∉ t) (hv : ∀ t ∈ vs, 37 ∉ t)
    (ha : 37 ∉ a) (hb : 37 ∉ b) :
    ∃ sent j, respond std x qarg karg s = .ok (sent, s') ∧ Json.decode sent = some j ∧ SuggestionsOf (us ++ (a ++ 37 :: b) :: vs) j := by
  refine ⟨_, _, ?_, decode_body (ts := us ++ (a ++ 37 :: b) :: vs) (by simp), suggestionsOf_suggestions _⟩
  rw [respond_eq hk ho hr, he, format_body_double hu hv ha hb]
  rfl

theorem joined_plain : ∀ c : List Str, (∀ t ∈ c, 37 ∉ t) → 37 ∉ joined c := by
  intro c
  induction c with
  | nil => intro _ h; simp [joined] at h
  | cons t c ih =>
      intro hc h
      cases c with
      | nil => simp [joined] at h; exact hc t (List.mem_cons_self ..) h
      | cons u c =>
          simp only [joined, List.mem_append, List.mem_cons] at h
          rcases h with h | h | h
          · exact hc t (List.mem_cons_self ..) h
          · exact absurd h (by decide)
          · exact ih (fun t ht => hc t (List.mem_cons_of_mem _ ht)) h

/-- C44 with the search: for every collection whose texts have no percent sign, the response lists the `k` best matching completions, or is
not JSON when there are none. The conditions are those of C03. -/
theorem C44_search_partial (std : StdLib) {C : Coll} (hC : ValidColl C) (hw : Suits1 C) (mem : Nat → W) (hp : ∀ r ∈ C, ∀ t ∈ r.2, 37 ∉ t) :
    ∃ x, Index1.build (Pre.run C) mem = .ok x ∧ ∀ qarg q karg k s, requestedQ qarg = q → IsText q → requestedK karg = .ok k → 1 ≤ k → k ≤ MAX_K → Scratch.WF s →
      LastOk C (lastTerm q) → (∀ r ∈ C, k * (joined r.2).length + 2 * MAX_CHARS ≤ POOL_SIZE) →
      ∃ sent s' res, respond std x qarg karg s = .ok (sent, s') ∧ s'.WF ∧ Answer C (ConjMatch C (completeTerms q) (lastTerm q)) k res ∧
        (res = [] → Json.decode sent = none) ∧ (res ≠ [] → ∃ j, Json.decode sent = some j ∧ SuggestionsOf (res.map (·.2)) j) := by
  obtain ⟨x, h1, h2⟩ := C03_conj1_partial std hC hw mem
  refine ⟨x, h1, ?_⟩
  intro qarg q karg k s hqq hq hk hk1 hk' hs hl hroom
  obtain ⟨s', res, e1, e2, e3, e4⟩ := h2 q k s hq hk1 hk' hs hl hroom
  subst hqq
  have hres : ∀ r ∈ res, 37 ∉ r.2 := by
    obtain ⟨E, b, hE⟩ := e4
    intro r hr
    rw [hE] at hr
    obtain ⟨e, he, rfl⟩ := List.mem_map.mp hr
    exact joined_plain e.2 (hp e (b.sound e he).1)
  by_cases hne : res = []
  · subst hne
    obtain ⟨sent, a1, a2, _⟩ := C44_false_empty hk e1 e3
    exact ⟨sent, s', [], a1, e2, e4, fun _ => a2, fun h => absurd rfl h⟩
  · obtain ⟨sent, j, a1, a2, a3⟩ := C44_json_partial hk e1 e3 hne hres
    exact ⟨sent, s', res, a1, e2, e4, fun h => absurd h hne, fun _ => ⟨j, a2, a3⟩⟩

/-- C44 is false for the answers of the search: in a collection where every text has a percent sign not followed by another, every
request that matches a completion has an undefined response. -/
theorem C44_false_search (std : StdLib) {C : Coll} (hC : ValidColl C) (hw : Suits1 C) (mem : Nat → W)
    (hp : ∀ r ∈ C, ∃ a b, joined r.2 = a ++ 37 :: b ∧ 37 ∉ a ∧ b.head? ≠ some 37) :
    ∃ x, Index1.build (Pre.run C) mem = .ok x ∧ ∀ qarg q karg k s, requestedQ qarg = q → IsText q → requestedK karg = .ok k → 1 ≤ k → k ≤ MAX_K → Scratch.WF s →
      LastOk C (lastTerm q) → (∀ r ∈ C, k * (joined r.2).length + 2 * MAX_CHARS ≤ POOL_SIZE) →
      (∃ r ∈ C, ConjMatch C (completeTerms q) (lastTerm q) r.2) → respond std x qarg karg s = .error .oob := by
  obtain ⟨x, h1, h2⟩ := C03_conj1_partial std hC hw mem
  refine ⟨x, h1, ?_⟩
  intro qarg q karg k s hqq hq hk hk1 hk' hs hl hroom ⟨r, hr, hm⟩
  obtain ⟨s', res, e1, _, e3, E, b, hE⟩ := h2 q k s hq hk1 hk' hs hl hroom
  subst hqq
  match E, b, hE with
  | [], b, _ =>
      have := (b.complete r hr hm (by simp)).1
      simp at this; omega
  | e :: E, b, hE =>
      obtain ⟨u, v, h4, h5, h6⟩ := hp e (b.sound e (List.mem_cons_self ..)).1
      exact C44_false_percent (us := []) (vs := E.map (fun e => (shown e).2)) (a := u) (b := v) hk e1 e3
        (by rw [hE]; simp [shown, h4]) (by simp) h5 h6

/-- the completions "100%" and "5% off" -/
def percentColl : Coll := [(3, [[49, 48, 48, 37]]), (8, [[53, 37], [111, 102, 102]])]

theorem percentColl_valid : ValidColl percentColl :=
  ⟨by decide, by decide, by decide, by decide, by decide, by decide, by decide, by decide, by decide, by decide⟩

theorem percentColl_suits : Suits1 percentColl :=
  { terms := ⟨_, percentColl_valid.ready.numTerms, by decide +kernel⟩
    doc0 := ⟨[53, 37], ⟨(8, [[53, 37], [111, 102, 102]]), by decide, by decide⟩, by
      intro c hc
      simp only [percentColl, List.mem_cons, Prod.mk.injEq, List.not_mem_nil, or_false] at hc
      rcases hc with ⟨h, _⟩ | ⟨h, _⟩ <;> omega⟩ }

/-- the request with `q=off` and no `k` meets the conditions of `C44_false_search` -/
example : (∀ r ∈ percentColl, ∃ a b, joined r.2 = a ++ 37 :: b ∧ 37 ∉ a ∧ b.head? ≠ some 37) ∧ requestedK none = .ok 10 ∧
    IsText [111, 102, 102] ∧ Scratch.WF Scratch.fresh ∧ LastOk percentColl (lastTerm [111, 102, 102]) ∧
    (∀ r ∈ percentColl, 10 * (joined r.2).length + 2 * MAX_CHARS ≤ POOL_SIZE) ∧
    ConjMatch percentColl (completeTerms [111, 102, 102]) (lastTerm [111, 102, 102]) [[53, 37], [111, 102, 102]] := by
  refine ⟨?_, rfl, by decide, Scratch.fresh_wf, lastOk_of percentColl_valid (by decide +kernel), by decide, ?_, [111, 102, 102], by decide, by decide⟩
  · intro r hr
    simp only [percentColl, List.mem_cons, List.not_mem_nil, or_false] at hr
    rcases hr with rfl | rfl
    · exact ⟨[49, 48, 48], [], by decide, by decide, by decide⟩
    · exact ⟨[53], [32, 111, 102, 102], by decide, by decide, by decide⟩
  · intro t ht
    rw [show completeTerms [111, 102, 102] = [] by decide] at ht
    simp at ht

/-- the sample meets the conditions of `C44_search_partial`, for a query that has results and one that has none -/
example : ValidColl sampleColl ∧ Suits1 sampleColl ∧ (∀ r ∈ sampleColl, ∀ t ∈ r.2, 37 ∉ t) ∧ requestedK (some [53]) = .ok 5 ∧
    LastOk sampleColl (lastTerm [99, 32, 98]) ∧ LastOk sampleColl (lastTerm [122]) ∧
    (∀ r ∈ sampleColl, 5 * (joined r.2).length + 2 * MAX_CHARS ≤ POOL_SIZE) ∧
    (∀ r ∈ sampleColl, ∀ t ∈ r.2, ¬ lastTerm [122] <+: t) :=
  ⟨sampleColl_valid, sampleColl_suits.toSuits1, by decide, by decide +kernel, lastOk_of sampleColl_valid (by decide +kernel),
    lastOk_of sampleColl_valid (by decide +kernel), by decide, by decide⟩

/-- a text with quotes, a backslash and a newline is sent and read back unchanged -/
example : Json.decode (body [[34, 92, 10, 97], [98]]) = some (suggestions [[34, 92, 10, 97], [98]]) ∧
    format (body [[53, 48, 37]]) = .error .oob ∧ format (body [[53, 37, 37]]) = .ok (body [[53, 37]]) :=
  ⟨decode_body (by simp), format_body_percent (us := []) (vs := []) (a := [53, 48]) (b := []) (by simp) (by decide) (by decide),
    format_body_double (us := []) (vs := []) (a := [53]) (b := []) (by simp) (by simp) (by decide) (by decide)⟩

/-- The parameter `k` of a request: absent, or a number written in base 10, which is taken modulo `2^32`; when it has more than 15 digits, it is
ignored. -/
theorem C44_k : requestedK none = .ok 10 ∧ (∀ k, k < 10 ^ 15 → requestedK (some (decimal k)) = .ok (k % 2 ^ 32)) ∧
    ∀ k, 10 ^ 15 ≤ k → requestedK (some (decimal k)) = .ok 10 := by
  refine ⟨rfl, fun k hk => ?_, fun k hk => ?_⟩
  · have hn := decimal_ne_nil k
    have hl := (decimal_length_le (k := k) (n := 15) (by omega)).mpr hk
    have hs := stoull_decimal (k := k) (by omega)
    unfold requestedK getVar
    simp only
    rw [if_neg (by simp; exact ⟨hn, by omega⟩)]
    simp only [hs]
    rfl
  · have hl := fun h => (decimal_length_le (k := k) (n := 15) (by omega)).mp h
    unfold requestedK getVar
    simp only
    rw [if_pos (by simp; exact Or.inr (Nat.lt_of_not_le fun h => by have := hl h; omega))]

/-- a parameter that is not a number makes the server throw; `-1` is taken for `2^32 - 1`, and 4294967296 for 0 -/
theorem C44_bad_k : requestedK (some [120]) = .error .thrown ∧ requestedK (some [45, 49]) = .ok (2 ^ 32 - 1) ∧
    requestedK (some (decimal (2 ^ 32))) = .ok 0 := by
  refine ⟨by decide +kernel, by decide +kernel, ?_⟩
  exact C44_k.2.1 _ (by decide)

/-- The query of a request: up to 127 bytes it is the one given; a longer one is replaced by the empty query, so that the response is
that for no query at all. -/
theorem C44_q : requestedQ none = [] ∧ (∀ q, q.length < MAX_CHARS → requestedQ (some q) = q) ∧
    ∀ q, MAX_CHARS ≤ q.length → requestedQ (some q) = [] ∧
      ∀ (std : StdLib) (x : Index1) (karg : Option Str) (s : Scratch), respond std x (some q) karg s = respond std x none karg s := by
  have h3 : ∀ q : Str, MAX_CHARS ≤ q.length → requestedQ (some q) = [] := by
    intro q hq
    unfold requestedQ getVar
    simp only
    rw [if_pos (by simp; exact Or.inr hq)]
    rfl
  refine ⟨rfl, fun q hq => ?_, fun q hq => ⟨h3 q hq, fun std x karg s => ?_⟩⟩
  · unfold requestedQ getVar
    simp only
    cases q with
    | nil => rfl
    | cons c q =>
        rw [if_neg (by simp; simpa using hq)]
        rfl
  · unfold respond
    rw [h3 q hq]
    rfl

/-- a query of 128 letters is too long -/
example : requestedQ (some (List.replicate 128 97)) = [] ∧ requestedQ (some (List.replicate 127 97)) = List.replicate 127 97 :=
  ⟨(C44_q.2.2 _ (by decide +kernel)).1, C44_q.2.1 _ (by decide +kernel)⟩

end AC.Props
