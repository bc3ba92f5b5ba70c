import Verif.Proofs.ConjLoop2
import Verif.Proofs.Alike
/-!
# Decoding the results of the index types
-/
namespace AC

/-- The outcome of decoding the results `docs` with terms `tss` from the state `s`: no room, or the results -/
def Decoded (d : FC) (L : List Str) (s : Scratch) (docs : List Nat) (tss : List Ids) (o : M Scratch) : Prop :=
  (o = .error .oob ∧ fitsPool d tss = false ∧ s.pool.data.length < (tss.map (textOf L)).flatten.length + 2 * MAX_CHARS) ∨
  ∃ p, o = .ok { s with pool := p } ∧ p.scores = s.pool.scores ∧ p.data.length = s.pool.data.length ∧
    p.results = .ok (docs.zip (tss.map (textOf L))) ∧ fitsPool d tss = true ∧
    (tss.map (textOf L)).flatten.length ≤ s.pool.data.length ∧ p.Holds (tss.map (textOf L))

theorem zip_take {α β : Type} : ∀ (xs : List α) (ys : List β), xs.zip ys = (xs.take ys.length).zip ys
  | [], ys => by simp
  | x :: xs, [] => by simp
  | x :: xs, y :: ys => by simp [← zip_take xs ys]

theorem decoded_of_strings {s : Scratch} {d : FC} {L : List Str} (R : FC.Rep Elem.byte MAX_CHARS d L)
    {src : Nat → M (Nat × (Nat → M Nat))} {tss : List Ids} (hp : s.pool.Holds []) (hdl : s.pool.data.length = POOL_SIZE) (hin : ∀ ts ∈ tss, IdsIn L ts)
    (hsrc : ∀ j (h : j < tss.length), ∃ term, src j = .ok ((tss[j]).length, term) ∧
      ∀ u (hu : u < (tss[j]).length), term u = .ok (tss[j])[u]) {docs : List Nat}
    (hdocs : s.pool.scores.take tss.length = docs) (hlen : tss.length ≤ s.pool.scores.length) :
    Decoded d L s docs tss (do
      let pool ← extractStrings d src tss.length 0 s.pool
      .ok { s with pool := pool }) := by
  have hfit := fitsPool_spec (d := d) (src := src) (tss := tss) hsrc hdl (by rw [hp.offsets]; simp [List.range_succ])
  rcases extractStrings_spec R tss 0 s.pool [] hp hin (by simpa using hsrc) with ⟨e1, e2⟩ | ⟨p', e1, e2, e3, e4⟩
  · left
    rw [e1, M.error_bind]
    rw [e1] at hfit
    refine ⟨rfl, hfit.symm, ?_⟩
    rw [List.nil_append] at e2
    simpa only [show 2 * MAX_CHARS = MAX_CHARS + Elem.byte.cap from rfl] using e2
  · right
    rw [e1, M.ok_bind]
    rw [e1] at hfit
    rw [List.nil_append] at e4
    refine ⟨p', rfl, e2, e3, ?_, hfit.symm, by rw [← e3]; exact e4.fits, e4⟩
    rw [e4.results (by simpa [e2] using hlen), e2, zip_take, List.length_map, hdocs]

theorem Index1.extract_spec {x : Index1} {L : List Str} {nt : Nat} {fwd : List (List Nat)} (R : FC.Rep Elem.byte MAX_CHARS x.dict L)
    (hf : x.forward.Rep nt fwd) {s : Scratch} (hp : s.pool.Holds []) (hdl : s.pool.data.length = POOL_SIZE) {docs : List Nat} {n : Nat} (hn : docs.length = n)
    (hdocs : s.pool.scores.take n = docs) (hd : ∀ d ∈ docs, d < fwd.length ∧ IdsIn L (fwd.getD d [])) :
    Decoded x.dict L s docs (docs.map (fun d => fwd.getD d [])) (x.extract n s) := by
  subst hn
  have hlen : docs.length ≤ s.pool.scores.length := by
    have := congrArg List.length hdocs
    rw [List.length_take] at this; omega
  have := decoded_of_strings (src := x.source s.pool.scores) (tss := docs.map (fun d => fwd.getD d [])) R hp hdl
    (by intro ts hts; obtain ⟨d, h, rfl⟩ := List.mem_map.mp hts; exact (hd d h).2)
    (by
      intro j hj0
      have hj : j < docs.length := by simpa using hj0
      obtain ⟨h1, h2⟩ := hd docs[j] (List.getElem_mem hj)
      have hget : fwd.getD docs[j] [] = fwd[docs[j]] := by
        rw [List.getD_eq_getElem?_getD, List.getElem?_eq_getElem h1]; rfl
      obtain ⟨p, p1, p2⟩ := hf.at' docs[j] h1
      have hsc : rd s.pool.scores j = .ok docs[j] := by
        apply rd_of_getElem?
        have : (s.pool.scores.take docs.length)[j]? = some docs[j] := by
          rw [hdocs, List.getElem?_eq_getElem hj]
        rw [List.getElem?_take, if_pos hj] at this
        exact this
      have hl : (docs.map (fun d => fwd.getD d []))[j] = fwd[docs[j]] := by rw [List.getElem_map]; exact hget
      generalize (docs.map (fun d => fwd.getD d []))[j] = l at hl
      subst hl
      refine ⟨fun u => FwdIt.deref x.forward ⟨p, fwd[docs[j]].length, u⟩, ?_, ?_⟩
      · unfold Index1.source
        rw [hsc, M.ok_bind, p1]; rfl
      · intro u hu
        obtain ⟨w, w1, w2⟩ := p2 u hu
        dsimp only [FwdIt.deref]
        rw [w1, M.ok_bind, w2, id32, Nat.mod_eq_of_lt]
        have := hf.valid.each _ (List.getElem_mem h1) _ (List.getElem_mem hu)
        have := hf.valid.small
        omega)
    (docs := docs) (by simpa using hdocs) (by simpa using hlen)
  rw [List.length_map] at this
  exact this

theorem Base.strings_spec {x : Base} {L : List Str} (R : FC.Rep Elem.byte MAX_CHARS x.dict L) {s : Scratch} (hp : s.pool.Holds []) (hdl : s.pool.data.length = POOL_SIZE)
    {cs : List Ids} (hr : Rows s.compl s.sizes cs) (hs : Shape s.compl s.sizes) {docs : List Nat} {n : Nat} (hn : cs.length = n)
    (hdocs : s.pool.scores.take n = docs) (hlen : n ≤ s.pool.scores.length) (hin : ∀ c ∈ cs, IdsIn L c) :
    Decoded x.dict L s docs cs (x.strings n s) := by
  subst hn
  refine decoded_of_strings (src := Base.source s.compl s.sizes) R hp hdl hin ?_ hdocs hlen
  intro j hj
  obtain ⟨row, r1, r2, r3⟩ := hr j hj
  refine ⟨fun u => rd row u, ?_, ?_⟩
  · unfold Base.source
    rw [rd_of_getElem? r1, M.ok_bind, rd_of_getElem? r3]; rfl
  · intro u hu
    apply rd_of_getElem?
    have : (row.take cs[j].length)[u]? = some cs[j][u] := by rw [r2, List.getElem?_eq_getElem hu]
    rw [List.getElem?_take, if_pos hu] at this
    exact this

end AC
