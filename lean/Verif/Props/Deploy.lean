import Verif.Proofs.BuildStd
import Verif.Proofs.Deploy
import Verif.Props.Text
import Verif.Props.WebServer
import Verif.Props.Saved
import Verif.Props.BlockSize
/-!
# C61: from the text to the responses of the server

`X` is the text given to the scripts, `junk` and `mem` what happens to be in memory when the index is built, `mem'` when it is loaded.
-/
namespace AC.Props
open AC Spec Web

theorem buildProgram_eq {α : Type} (build : Files → M α) (print : α → M (List Nat)) (visit : {σ : Type} → Visitor σ → α → σ → M (α × σ)) (junk : Nat)
    (X : Str) : buildProgram build print visit junk X = (do
      let x ← indexOf build junk X
      let out ← print x
      let file ← save visit x
      .ok (out, file)) := rfl

/-- from a way of building, loading and printing to the two programs -/
theorem programs {α : Type} {build : (Nat → W) → Files → M α} {print : α → M (List Nat)} {visit : {σ : Type} → Visitor σ → α → σ → M (α × σ)}
    {blank : (Nat → W) → α} {X : Str} {L : List (Str × Nat × List Str)} (hp : Pre.parse X = some L) (hv : ValidColl (Pre.collOf L))
    (hb : ∀ mem, ∃ x, build mem (Pre.run (Pre.collOf L)) = .ok x)
    (hsame : ∀ mem mem' x y, build mem (Pre.run (Pre.collOf L)) = .ok x → build mem' (Pre.run (Pre.collOf L)) = .ok y →
      ∃ out file, print x = .ok out ∧ print y = .ok out ∧ save visit x = .ok file ∧ save visit y = .ok file ∧ load visit (blank mem') file = .ok y) :
    ∃ out file, (∀ junk mem, buildProgram (build mem) print visit junk X = .ok (out, file)) ∧
      ∀ mem', statsProgram print visit (blank mem') file = .ok out := by
  obtain ⟨x, hx⟩ := hb (fun _ => 0)
  obtain ⟨out, file, h1, _, h2, _⟩ := hsame _ _ x x hx hx
  refine ⟨out, file, fun junk mem => ?_, fun mem' => ?_⟩
  · obtain ⟨y, hy⟩ := hb mem
    obtain ⟨out', file', g1, g2, g3, g4, _⟩ := hsame _ _ x y hx hy
    rw [h1] at g1
    rw [h2] at g3
    cases g1
    cases g3
    rw [buildProgram_eq, C48_index _ hp hv, hy, M.ok_bind, g2, M.ok_bind, g4, M.ok_bind]
  · obtain ⟨y, hy⟩ := hb mem'
    obtain ⟨out', file', g1, g2, g3, g4, g5⟩ := hsame _ _ x y hx hy
    rw [h1] at g1
    rw [h2] at g3
    cases g1
    cases g3
    unfold statsProgram
    rw [g5, M.ok_bind, g2]

/-- **C61**, type 1: the index file and the numbers printed when it is built depend on the text alone, and the program that prints the statistics of the
file prints the same numbers. -/
theorem C61_build1 {X : Str} {L : List (Str × Nat × List Str)} (hp : Pre.parse X = some L) (hv : ValidColl (Pre.collOf L)) (hw : Suits1 (Pre.collOf L)) :
    ∃ out file, (∀ junk mem, buildProgram (Index1.build · mem) Index1.printed (fun V => V.index1) junk X = .ok (out, file)) ∧
      ∀ mem', statsProgram Index1.printed (fun V => V.index1) (Index1.blank mem') file = .ok out := by
  refine programs (build := fun mem F => Index1.build F mem) (blank := Index1.blank) hp hv ?_ ?_
  · intro mem
    obtain ⟨x, h, _⟩ := Index1.exists hv.ready hw mem
    exact ⟨x, h⟩
  · intro mem mem' x y hx hy
    obtain ⟨file, z, h1, h2, h3, h4, _⟩ := C45_saved1 hv hx mem'
    obtain ⟨out, ho⟩ := Index1.printed_ok hx
    have e := (Index1.build_put (mem' := mem') hx).1
    rw [hy] at e h3
    cases h3
    refine ⟨out, file, ho, ?_, h1, h4, h2⟩
    rw [← ho]
    cases e
    rfl

/-- **C61**, type 2 -/
theorem C61_build2 {X : Str} {L : List (Str × Nat × List Str)} (hp : Pre.parse X = some L) (hv : ValidColl (Pre.collOf L)) (hw : Suits2 (Pre.collOf L)) :
    ∃ out file, (∀ junk mem, buildProgram (Index2.build · mem) Index2.printed (fun V => V.index2) junk X = .ok (out, file)) ∧
      ∀ mem', statsProgram Index2.printed (fun V => V.index2) (Index2.blank mem') file = .ok out := by
  refine programs (build := fun mem F => Index2.build F mem) (blank := Index2.blank) hp hv ?_ ?_
  · intro mem
    obtain ⟨x, h, _⟩ := Index2.exists hv.ready hw mem
    exact ⟨x, h⟩
  · intro mem mem' x y hx hy
    obtain ⟨file, z, h1, h2, h3, h4, _⟩ := C45_saved2 hv hx mem'
    have e := Index2.build_put (mem' := mem') hx
    rw [hy] at e h3
    cases h3
    refine ⟨_, file, rfl, ?_, h1, h4, h2⟩
    cases e
    rfl

/-- **C61**, type 3 -/
theorem C61_build3 {X : Str} {L : List (Str × Nat × List Str)} (hp : Pre.parse X = some L) (hv : ValidColl (Pre.collOf L)) (hw : Suits3 (Pre.collOf L)) :
    ∃ out file, (∀ junk mem, buildProgram (Index3.build · mem) Index3.printed (fun V => V.index3) junk X = .ok (out, file)) ∧
      ∀ mem', statsProgram Index3.printed (fun V => V.index3) (Index3.blank mem') file = .ok out := by
  refine programs (build := fun mem F => Index3.build F mem) (blank := Index3.blank) hp hv ?_ ?_
  · intro mem
    obtain ⟨x, h, _⟩ := Index3.exists hv.ready hw mem
    exact ⟨x, h⟩
  · intro mem mem' x y hx hy
    obtain ⟨file, z, h1, h2, h3, h4, _⟩ := C45_saved3 hv hx mem'
    have e := Index3.build_put (mem' := mem') hx
    rw [hy] at e h3
    cases h3
    refine ⟨_, file, rfl, ?_, h1, h4, h2⟩
    cases e
    rfl

/-- **C61**, type 4, for every `c` between 0 and 1 (the `float` number is `c * 2^-149`). Neither does the file depend on the library's sorting (`std'`); `std` is any library. -/
theorem C61_build4 {X : Str} {L : List (Str × Nat × List Str)} (hp : Pre.parse X = some L) (hv : ValidColl (Pre.collOf L)) (hw : Suits4 (Pre.collOf L))
    (std : StdLib) {c : Nat} (hc : 0 < c) (hc' : c ≤ 2 ^ 149) :
    ∃ out file, (∀ std' junk mem, buildProgram (Index4.buildC std' c · mem) Index4.printed (fun V => V.index4) junk X = .ok (out, file)) ∧
      ∀ mem', statsProgram Index4.printed (fun V => V.index4) (Index4.blank mem') file = .ok out := by
  suffices h : ∃ out file, (∀ junk mem, buildProgram (Index4.buildC std c · mem) Index4.printed (fun V => V.index4) junk X = .ok (out, file)) ∧
      ∀ mem', statsProgram Index4.printed (fun V => V.index4) (Index4.blank mem') file = .ok out by
    obtain ⟨out, file, h1, h2⟩ := h
    refine ⟨out, file, fun std' junk mem => ?_, h2⟩
    rw [← h1 junk mem, buildProgram_eq, buildProgram_eq]
    simp only [Index4.buildC_std std' std]
  obtain ⟨m, hm⟩ := blockSize_ok (u := (Pre.run (Pre.collOf L)).univ) hc hc'
  have hbuild : ∀ mem, Index4.buildC std c (Pre.run (Pre.collOf L)) mem = Index4.build std m (Pre.run (Pre.collOf L)) mem := by
    intro mem
    unfold Index4.buildC
    rw [hm, M.ok_bind]
  refine programs (build := fun mem F => Index4.buildC std c F mem) (blank := Index4.blank) hp hv ?_ ?_
  · intro mem
    obtain ⟨x, B, h, _⟩ := C06_exact std hv hw m mem
    exact ⟨x, (hbuild mem).trans h⟩
  · intro mem mem' x y hx hy
    have hx := (hbuild mem).symm.trans hx
    have hy := (hbuild mem').symm.trans hy
    obtain ⟨file, z, h1, h2, h3, h4, _⟩ := C45_saved4 hv hx mem'
    have e := Index4.build_put (mem' := mem') hx
    rw [hy] at e h3
    cases h3
    refine ⟨_, file, rfl, ?_, h1, h4, h2⟩
    cases e
    rfl

/-- **C61**: whatever the requests (of the kind of `OkRequest`), the responses are a function of the text and the requests: they depend neither on what is
in the memory of the two machines nor on the library's sorting, and every response is that of a server that was just started. The two
sides may also both fail, with the same fault. -/
theorem C61_server {X : Str} {L : List (Str × Nat × List Str)} (hp : Pre.parse X = some L) (hv : ValidColl (Pre.collOf L)) (hw : Suits1 (Pre.collOf L)) :
    ∃ out file, (∀ junk mem, buildProgram (Index1.build · mem) Index1.printed (fun V => V.index1) junk X = .ok (out, file)) ∧
      (∀ std std' mem mem' rs, (∀ r ∈ rs, OkRequest r) → Web.main std mem file rs = Web.main std' mem' file rs) ∧
      (∀ std mem rs us, (∀ r ∈ rs, OkRequest r) → (∀ r ∈ us, OkRequest r) →
        Web.main std mem file (rs ++ us) = (do
          let a ← Web.main std mem file rs
          let b ← Web.main std mem file us
          .ok (a ++ b))) := by
  obtain ⟨x0, h0, _⟩ := Index1.exists hv.ready hw (fun _ => 0)
  obtain ⟨out, file, h1, _⟩ := C61_build1 hp hv hw
  have hfile : save (fun V => V.index1) x0 = .ok file := by
    have := h1 0 (fun _ => 0)
    rw [buildProgram_eq, C48_index _ hp hv, h0, M.ok_bind] at this
    obtain ⟨o, _, this⟩ := bind_ok this
    obtain ⟨f, hf, this⟩ := bind_ok this
    cases this
    exact hf
  have hload : ∀ mem, ∃ y, load (fun V => V.index1) (Index1.blank mem) file = .ok y ∧ Serves (Pre.collOf L) (PrefixFound (Pre.collOf L)) y.ask := by
    intro mem
    obtain ⟨f, y, g1, g2, g3, _⟩ := C45_saved1 hv h0 mem
    rw [hfile] at g1
    cases g1
    exact ⟨y, g2, Index1.serves hv (Index1.rep_of_build hv hw g3)⟩
  refine ⟨out, file, h1, ?_, ?_⟩
  · intro std std' mem mem' rs hrs
    obtain ⟨y, e1, s1⟩ := hload mem
    obtain ⟨z, e2, s2⟩ := hload mem'
    unfold Web.main
    rw [e1, e2, M.ok_bind, M.ok_bind]
    exact serve_same hv s1 s2 std std' hrs Scratch.fresh_wf Scratch.fresh_wf
  · intro std mem rs us hrs hus
    obtain ⟨y, e1, s1⟩ := hload mem
    unfold Web.main
    rw [e1]
    simp only [M.ok_bind]
    exact serve_append hv s1 std hus Scratch.fresh_wf hrs Scratch.fresh_wf

/-- C44 for the whole way from the text: every response of a server is as in `C44_search_partial`, under the same conditions. -/
theorem C44_server_partial {X : Str} {L : List (Str × Nat × List Str)} (hp : Pre.parse X = some L) (hv : ValidColl (Pre.collOf L))
    (hw : Suits1 (Pre.collOf L)) (hpc : ∀ l ∈ L, ∀ t ∈ l.2.2, 37 ∉ t) (std : StdLib) (junk : Nat) (mem mem' : Nat → W) :
    ∃ out file, buildProgram (Index1.build · mem) Index1.printed (fun V => V.index1) junk X = .ok (out, file) ∧
      ∀ rs : List (Option Str × Option Str), (∀ r ∈ rs, IsText (requestedQ r.1) ∧ LastOk (Pre.collOf L) (lastTerm (requestedQ r.1)) ∧
        ∃ k, requestedK r.2 = .ok k ∧ 1 ≤ k ∧ k ≤ MAX_K ∧ ∀ l ∈ L, k * (joined l.2.2).length + 2 * MAX_CHARS ≤ POOL_SIZE) →
      ∃ as, Web.main std mem' file rs = .ok as ∧ as.length = rs.length ∧ ∀ (i : Nat) (r : Option Str × Option Str) (a : Str), rs[i]? = some r → as[i]? = some a →
        ∃ k res, requestedK r.2 = .ok k ∧
          Answer (Pre.collOf L) (ConjMatch (Pre.collOf L) (completeTerms (requestedQ r.1)) (lastTerm (requestedQ r.1))) k res ∧
          (res = [] → Json.decode a = none) ∧ (res ≠ [] → ∃ j, Json.decode a = some j ∧ SuggestionsOf (res.map (·.2)) j) := by
  obtain ⟨out, file, h1, _⟩ := C61_build1 hp hv hw
  refine ⟨out, file, h1 junk mem, ?_⟩
  obtain ⟨x0, h0, _⟩ := Index1.exists hv.ready hw (fun _ => 0)
  have hfile : save (fun V => V.index1) x0 = .ok file := by
    have := h1 0 (fun _ => 0)
    rw [buildProgram_eq, C48_index _ hp hv, h0, M.ok_bind] at this
    obtain ⟨o, _, this⟩ := bind_ok this
    obtain ⟨f, hf, this⟩ := bind_ok this
    cases this
    exact hf
  obtain ⟨f, y, g1, g2, g3, _⟩ := C45_saved1 hv h0 mem'
  rw [hfile] at g1
  cases g1
  have hpc' : ∀ r ∈ Pre.collOf L, ∀ t ∈ r.2, 37 ∉ t := by
    intro r hr
    obtain ⟨l, hl, rfl⟩ := List.mem_map.mp hr
    exact hpc l hl
  obtain ⟨z, hz, hsearch⟩ := C44_search_partial std hv hw mem' hpc'
  rw [g3] at hz
  cases hz
  intro rs hrs
  have key : ∀ (rs : List (Option Str × Option Str)) (s : Scratch), s.WF → (∀ r ∈ rs, IsText (requestedQ r.1) ∧ LastOk (Pre.collOf L) (lastTerm (requestedQ r.1)) ∧
        ∃ k, requestedK r.2 = .ok k ∧ 1 ≤ k ∧ k ≤ MAX_K ∧ ∀ l ∈ L, k * (joined l.2.2).length + 2 * MAX_CHARS ≤ POOL_SIZE) →
      ∃ as, serve std y rs s = .ok as ∧ as.length = rs.length ∧ ∀ (i : Nat) (r : Option Str × Option Str) (a : Str), rs[i]? = some r → as[i]? = some a →
        ∃ k res, requestedK r.2 = .ok k ∧
          Answer (Pre.collOf L) (ConjMatch (Pre.collOf L) (completeTerms (requestedQ r.1)) (lastTerm (requestedQ r.1))) k res ∧
          (res = [] → Json.decode a = none) ∧ (res ≠ [] → ∃ j, Json.decode a = some j ∧ SuggestionsOf (res.map (·.2)) j) := by
    intro rs
    induction rs with
    | nil => intro s _ _; exact ⟨[], rfl, rfl, by simp⟩
    | cons r rs ih =>
        intro s hs h
        obtain ⟨a1, a2, k, a3, a4, a5, a6⟩ := h r (List.mem_cons_self ..)
        obtain ⟨sent, s', res, b1, b2, b3, b4, b5⟩ := hsearch r.1 _ r.2 k s rfl a1 a3 a4 a5 hs a2 (by
          intro r hr
          obtain ⟨l, hl, rfl⟩ := List.mem_map.mp hr
          exact a6 l hl)
        obtain ⟨as, c1, c2, c3⟩ := ih s' b2 (fun r hr => h r (List.mem_cons_of_mem _ hr))
        refine ⟨sent :: as, ?_, by simp [c2], ?_⟩
        · simp only [serve]
          rw [b1, M.ok_bind]
          simp only
          rw [c1, M.ok_bind]
        · intro i q a hq ha
          cases i with
          | zero =>
              simp only [List.getElem?_cons_zero, Option.some.injEq] at hq ha
              subst hq
              subst ha
              exact ⟨k, res, a3, b3, b4, b5⟩
          | succ i =>
              simp only [List.getElem?_cons_succ] at hq ha
              exact c3 i q a hq ha
  obtain ⟨as, c1, c2⟩ := key rs Scratch.fresh Scratch.fresh_wf hrs
  refine ⟨as, ?_, c2⟩
  unfold Web.main
  rw [g2, M.ok_bind]
  exact c1

/-- the sample text: requests for "b" and for "c" with two results -/
example : ∃ out file, (∀ junk mem, buildProgram (Index1.build · mem) Index1.printed (fun V => V.index1) junk sampleText = .ok (out, file)) ∧
    ∀ std std' mem mem', Web.main std mem file [(some [98], none), (some [99], some [50])] = Web.main std' mem' file [(some [98], none), (some [99], some [50])] := by
  obtain ⟨out, file, h1, h2, _⟩ := C61_server sampleText_parse (by rw [sampleText_coll]; exact sampleColl_valid)
    (by rw [sampleText_coll]; exact sampleColl_suits.toSuits1)
  refine ⟨out, file, h1, fun std std' mem mem' => h2 std std' mem mem' _ ?_⟩
  intro r hr
  simp only [List.mem_cons, List.not_mem_nil, or_false] at hr
  rcases hr with rfl | rfl
  · refine ⟨by decide, fun k hk => ?_⟩
    cases (show requestedK none = .ok 10 from rfl).symm.trans hk
    decide
  · refine ⟨by decide, fun k hk => ?_⟩
    cases (show requestedK (some [50]) = .ok 2 by decide +kernel).symm.trans hk
    decide

/-- the same requests, with `C44_server_partial` -/
example (std : StdLib) (junk : Nat) (mem mem' : Nat → W) :
    ∃ out file as, buildProgram (Index1.build · mem) Index1.printed (fun V => V.index1) junk sampleText = .ok (out, file) ∧
      Web.main std mem' file [(some [98], none), (some [99], some [50])] = .ok as ∧ as.length = 2 := by
  obtain ⟨out, file, h1, h2⟩ := C44_server_partial sampleText_parse (by rw [sampleText_coll]; exact sampleColl_valid)
    (by rw [sampleText_coll]; exact sampleColl_suits.toSuits1) (by decide) std junk mem mem'
  rw [sampleText_coll] at h2
  obtain ⟨as, h3, h4, _⟩ := h2 [(some [98], none), (some [99], some [50])] (by
    intro r hr
    simp only [List.mem_cons, List.not_mem_nil, or_false] at hr
    rcases hr with rfl | rfl
    · exact ⟨by decide, lastOk_of sampleColl_valid (by decide +kernel), 10, rfl, by decide, by decide, by decide⟩
    · exact ⟨by decide, lastOk_of sampleColl_valid (by decide +kernel), 2, by decide +kernel, by decide, by decide, by decide⟩)
  exact ⟨out, file, as, h1, h3, h4⟩

/-- the sample text, with type 4 and `c = 1`: the same file with any two libraries -/
example (std std' : StdLib) (mem mem' : Nat → W) : ∃ out file,
    buildProgram (Index4.buildC std (2 ^ 149) · mem) Index4.printed (fun V => V.index4) 0 sampleText = .ok (out, file) ∧
    buildProgram (Index4.buildC std' (2 ^ 149) · mem') Index4.printed (fun V => V.index4) 1 sampleText = .ok (out, file) := by
  obtain ⟨out, file, h, _⟩ := C61_build4 sampleText_parse (by rw [sampleText_coll]; exact sampleColl_valid)
    (by rw [sampleText_coll]; exact sampleColl_suits4) std (c := 2 ^ 149) (Nat.two_pow_pos _) (Nat.le_refl _)
  exact ⟨out, file, h std 0 mem, h std' 1 mem'⟩

end AC.Props
