import Verif.Spec.Lossy4
import Verif.Proofs.BothLost
/-!
# The exact outcome of conjunctive search with type 4 when the number of terms is a multiple of 17

As in `Proofs/Type4`, with the terms that are kept.
-/
namespace AC
open Spec

section
variable {C : Coll} {F : Files} (h : Ready C F)
include h

theorem Ready.inRange_iff17 {last : Str} {b e : Nat} (hr : KeptRange C F last b e) {x : Nat × Nat} {d : Nat} :
    InRange F.inverted x.1 x.2 (b + 1) (e + 1) d ↔ ∃ c, (d, c) ∈ C ∧ FoundInKept C last (slice F.terms x) c := by
  constructor
  · rintro ⟨t, t1, t2, t3, t4, ht⟩
    obtain ⟨y, hy, rfl, c, hc, hyc⟩ := h.posted_iff.mp ht
    exact ⟨c, hc, y, hyc, (mem_slice h.files.terms).mpr ⟨hy, t1, t2⟩, (hr.rank hy).mp ⟨t3, t4⟩⟩
  · rintro ⟨c, hc, y, hyc, hy, hre⟩
    obtain ⟨h1, h2, h3⟩ := (mem_slice h.files.terms).mp hy
    obtain ⟨h4, h5⟩ := (hr.rank h1).mpr hre
    exact ⟨_, h2, h3, h4, h5, h.posted_iff.mpr ⟨y, h1, rfl, c, hc, hyc⟩⟩

theorem Ready.visited_iff17 {last : Str} {b e : Nat} (hr : KeptRange C F last b e) {x : Nat × Nat} (hlt : x.1 < x.2) (hle : x.2 ≤ F.terms.length) :
    (b + 1 ≤ x.2 ∧ (x.1 < b + 1 ∨ x.1 + 1 < e + 1)) ↔ LookedKept C last (slice F.terms x) := by
  have hbe := hr.le
  have hel := hr.lt
  have s := h.files.terms
  have key : ∀ i (hi : i < F.terms.length), F.terms[i] ∈ slice F.terms x ↔ x.1 ≤ i ∧ i < x.2 := by
    intro i hi
    rw [mem_slice s, rankOf_getElem s hi]
    constructor
    · rintro ⟨_, _, _⟩; omega
    · rintro ⟨_, _⟩; exact ⟨List.getElem_mem hi, by omega, by omega⟩
  have hT : ∀ {y}, y ∈ F.terms → IsTerm C y := fun hy => (h.isTerm _).mpr hy
  constructor
  · rintro ⟨h1, h2⟩
    by_cases hb : x.1 ≤ b
    · refine ⟨F.terms[b], (key b (by omega)).mpr ⟨hb, by omega⟩, hT (List.getElem_mem _), (hr.iff b (by omega)).mp ⟨Nat.le_refl _, hbe⟩, Or.inl ?_⟩
      refine ⟨hT (List.getElem_mem _), (hr.iff b (by omega)).mp ⟨Nat.le_refl _, hbe⟩, ?_⟩
      intro y hy hre hlt
      have hy' := (h.isTerm y).mp hy
      have h3 := (hr.rank hy').mpr hre
      have h4 := (rankOf_lt s hy' (List.getElem_mem (by omega : b < F.terms.length))).mpr hlt
      rw [rankOf_getElem s] at h4
      omega
    · refine ⟨F.terms[x.1], (key x.1 (by omega)).mpr ⟨Nat.le_refl _, by omega⟩, hT (List.getElem_mem _), (hr.iff x.1 (by omega)).mp ⟨by omega, by omega⟩,
        Or.inr ⟨F.terms[e], hT (List.getElem_mem _), (hr.iff e hel).mp ⟨hbe, Nat.le_refl _⟩, ?_⟩⟩
      rw [← rankOf_lt s (List.getElem_mem _) (List.getElem_mem _), rankOf_getElem s, rankOf_getElem s]
      omega
  · rintro ⟨y, hy, hyT, hre, hcase⟩
    obtain ⟨h1, h2, h3⟩ := (mem_slice s).mp hy
    obtain ⟨h4, h5⟩ := (hr.rank h1).mpr hre
    refine ⟨by omega, ?_⟩
    rcases hcase with ⟨_, _, hfirst⟩ | ⟨z, hz, hrz, hlt⟩
    · left
      have h6 := hfirst F.terms[b] (hT (List.getElem_mem _)) ((hr.iff b (by omega)).mp ⟨Nat.le_refl _, hbe⟩)
      rw [← rankOf_lt s (List.getElem_mem _) h1, rankOf_getElem s] at h6
      omega
    · right
      have hz' := (h.isTerm z).mp hz
      have h6 := (hr.rank hz').mpr hrz
      have h7 := (rankOf_lt s h1 hz').mpr hlt
      omega

theorem Ready.kept_none {complete : List Str} (hn : 16 ≤ F.terms.length) : keptPfx F complete = [] ↔ ∀ t ∈ complete, ¬ KeptTerm C t := by
  unfold keptPfx
  rw [List.map_eq_nil_iff, List.filter_eq_nil_iff]
  simp only [decide_eq_true_eq, h.kept hn]
  rfl

theorem Ready.posted_known17 (hn : 16 ≤ F.terms.length) {complete : List Str} {d : Nat} {c : List Str} (hc : (d, c) ∈ C) :
    (∀ t ∈ keptPfx F complete, Posted F.inverted t d) ↔ ∀ t ∈ complete, KeptTerm C t → t ∈ c := by
  constructor
  · intro hh t ht hk
    have hk' : t ∈ F.kept := (h.kept hn t).mp hk
    obtain ⟨y, hy, he, c', hc', hyc⟩ := h.posted_iff.mp (hh _ (List.mem_map.mpr ⟨t, List.mem_filter.mpr ⟨ht, by simpa using hk'⟩, rfl⟩))
    rw [rankOf_inj hy (Files.kept_sub hk') he] at hyc
    rwa [h.unique hc hc']
  · intro hh t ht
    obtain ⟨s, hs, rfl⟩ := List.mem_map.mp ht
    obtain ⟨h1, h2⟩ := List.mem_filter.mp hs
    have h2 : s ∈ F.kept := by simpa using h2
    exact h.posted_iff.mpr ⟨s, Files.kept_sub h2, rfl, c, hc, hh s h1 ((h.kept hn s).mpr h2)⟩

theorem Ready.skipped_iff17 (hn : 16 ≤ F.terms.length) {complete : List Str} {bounds : List Nat} {r : Nat × List Str} (hr : r ∈ C) :
    FirstOfOne F.inverted bounds (keptPfx F complete) r.1 ↔ SkippedKept C (blocksOf F.terms bounds) complete r := by
  have hk : ∀ x : Nat × Nat, (∀ t ∈ keptPfx F complete, x.1 < t ∧ t ≤ x.2) ↔ ∀ t ∈ complete, KeptTerm C t → t ∈ slice F.terms x := by
    intro x
    constructor
    · intro hh t ht hT
      have hT' : t ∈ F.kept := (h.kept hn t).mp hT
      exact (mem_slice h.files.terms).mpr ⟨Files.kept_sub hT', hh _ (List.mem_map.mpr ⟨t, List.mem_filter.mpr ⟨ht, by simpa using hT'⟩, rfl⟩)⟩
    · intro hh t ht
      obtain ⟨s, hs, rfl⟩ := List.mem_map.mp ht
      obtain ⟨h1, h2⟩ := List.mem_filter.mp hs
      have h2 : s ∈ F.kept := by simpa using h2
      exact ((mem_slice h.files.terms).mp (hh s h1 ((h.kept hn s).mpr h2))).2
  constructor
  · rintro ⟨j, lo, hi, e1, e2, e3, e4, e5⟩
    refine ⟨slice F.terms (lo, hi), List.mem_map.mpr ⟨(lo, hi), List.mem_iff_getElem?.mpr ⟨j, List.getElem?_zip_eq_some.mpr ⟨e1, e2⟩⟩, rfl⟩,
      (hk (lo, hi)).mp e3, ?_, ?_⟩
    · obtain ⟨c, hc, hx⟩ := h.has_iff (x := (lo, hi)).mp e4
      rw [h.unique (d := r.1) (c := r.2) hr hc]
      exact hx
    · intro r' hr' hx
      obtain ⟨t, t1, t2, t3⟩ := h.has_iff (x := (lo, hi)).mpr ⟨r'.2, hr', hx⟩
      exact e5 t r'.1 t1 t2 t3
  · rintro ⟨b, hb, e3, e4, e5⟩
    obtain ⟨⟨lo, hi⟩, hx, rfl⟩ := List.mem_map.mp hb
    obtain ⟨j, g1, g2⟩ := mem_zip_self hx
    refine ⟨j, lo, hi, g1, g2, (hk (lo, hi)).mpr e3, h.has_iff (x := (lo, hi)).mpr ⟨r.2, hr, e4⟩, ?_⟩
    intro t e t1 t2 t3
    obtain ⟨c, hc, hy⟩ := h.has_iff (x := (lo, hi)).mp ⟨t, t1, t2, t3⟩
    exact e5 (e, c) hc hy

theorem Ready.mem_visited17 {m : Nat} {bounds : List Nat} (hcut : IsCut F.inverted m bounds) {last : Str} {b e : Nat} (hr : KeptRange C F last b e)
    {x : Nat × Nat} : x ∈ visitedBlocks bounds (b + 1) (e + 1) ↔ x ∈ (0 :: bounds).zip bounds ∧ LookedKept C last (slice F.terms x) := by
  unfold visitedBlocks
  rw [List.mem_filter]
  constructor
  · rintro ⟨h1, h2⟩
    obtain ⟨p1, p2⟩ := hcut.pair h1
    rw [h.files.numLists] at p2
    exact ⟨h1, (h.visited_iff17 hr p1 p2).mp (by simpa using h2)⟩
  · rintro ⟨h1, h2⟩
    obtain ⟨p1, p2⟩ := hcut.pair h1
    rw [h.files.numLists] at p2
    exact ⟨h1, by simpa using (h.visited_iff17 hr p1 p2).mpr h2⟩

theorem Ready.exists_visited17 {m : Nat} {bounds : List Nat} (hcut : IsCut F.inverted m bounds) {last : Str} {b e : Nat} (hr : KeptRange C F last b e)
    {r : Nat × List Str} (hrC : r ∈ C) : (∃ x ∈ visitedBlocks bounds (b + 1) (e + 1), InRange F.inverted x.1 x.2 (b + 1) (e + 1) r.1) ↔
      ∃ B ∈ blocksOf F.terms bounds, LookedKept C last B ∧ FoundInKept C last B r.2 := by
  constructor
  · rintro ⟨x, hx, hin⟩
    obtain ⟨h1, h2⟩ := (h.mem_visited17 hcut hr).mp hx
    obtain ⟨c, hc, hf⟩ := (h.inRange_iff17 hr).mp hin
    rw [← h.unique (d := r.1) (c := r.2) hrC hc] at hf
    exact ⟨_, List.mem_map.mpr ⟨x, h1, rfl⟩, h2, hf⟩
  · rintro ⟨B, hB, hv, hf⟩
    obtain ⟨x, hx, rfl⟩ := List.mem_map.mp hB
    exact ⟨x, (h.mem_visited17 hcut hr).mpr ⟨hx, hv⟩, (h.inRange_iff17 hr).mpr ⟨r.2, hrC, hf⟩⟩

theorem Ready.copies_eq17 {m : Nat} {bounds : List Nat} (hcut : IsCut F.inverted m bounds) {last : Str} {b e : Nat} (hr : KeptRange C F last b e)
    {r : Nat × List Str} (hrC : r ∈ C) : (visitedBlocks bounds (b + 1) (e + 1)).countP (fun x => hasIn F.inverted x.1 x.2 ⟨b + 1, e + 1⟩ r.1) =
      copiesKept C (blocksOf F.terms bounds) last r.2 := by
  classical
  unfold copiesKept visitedBlocks blocksOf
  rw [← List.countP_eq_length_filter, List.countP_map, List.countP_filter]
  apply List.countP_congr
  intro x hx
  obtain ⟨p1, p2⟩ := hcut.pair hx
  rw [h.files.numLists] at p2
  have h1 := h.visited_iff17 hr p1 p2
  have h2 := h.inRange_iff17 hr (x := x) (d := r.1)
  rw [← hasIn_inRange (r := ⟨b + 1, e + 1⟩)] at h2
  simp only [Function.comp, Bool.and_eq_true, decide_eq_true_eq]
  rw [h2, h1]
  constructor
  · rintro ⟨⟨c, hc, hf⟩, hv⟩
    rw [← h.unique (d := r.1) (c := r.2) hrC hc] at hf
    exact ⟨hv, hf⟩
  · rintro ⟨hv, hf⟩
    exact ⟨⟨r.2, hrC, hf⟩, hv⟩

omit h in
theorem result_none17 {complete : List Str} {last : Str} {B : List (List Str)} (hu : ∀ x, IsTerm C x → ¬ ReachesKept C last x) :
    Result4Kept C B complete last [] := by
  have hv : ∀ b, ¬ LookedKept C last b := by
    rintro b ⟨x, _, hx, hre, _⟩
    exact hu x hx hre
  refine ⟨by simp, fun _ => ⟨List.Pairwise.nil, ?_⟩, fun _ => ⟨List.Pairwise.nil, by simp, ?_⟩⟩
  · intro r _
    classical
    unfold copiesKept
    rw [List.filter_eq_nil_iff.mpr (by intro b _; simp [hv b])]
    rfl
  · rintro r _ _ _ ⟨b, _, hb, _⟩
    exact absurd hb (hv b)

omit h in
theorem KeptRange.unique {C : Coll} {F : Files} {last : Str} {b e b' e' : Nat} (h : KeptRange C F last b e) (h' : KeptRange C F last b' e') : b = b' ∧ e = e' := by
  have h1 := h.le
  have h2 := h.lt
  have h3 := h'.le
  have h4 := h'.lt
  have a1 := (h'.iff b (by omega)).mpr ((h.iff b (by omega)).mp ⟨Nat.le_refl _, h1⟩)
  have a2 := (h'.iff e h2).mpr ((h.iff e h2).mp ⟨h1, Nat.le_refl _⟩)
  have a3 := (h.iff b' (by omega)).mpr ((h'.iff b' (by omega)).mp ⟨Nat.le_refl _, h3⟩)
  have a4 := (h.iff e' h4).mpr ((h'.iff e' h4).mp ⟨h3, Nat.le_refl _⟩)
  omega

theorem Index4.scores_run17 (hn : 16 ≤ F.terms.length) (std : StdLib) {m : Nat} {x : BlkIdx} {docss : List (List Nat)} (hx : x.Rep F.univ m F.inverted docss) (hids : ∀ r ∈ C, r.1 < 2 ^ 32 - 2)
    {complete : List Str} {last : Str} {b e : Nat} (hr : KeptRange C F last b e) {K : Nat} (hk : 1 ≤ K) {o : List Nat} (hkl : K ≤ o.length) :
    ∃ S : List Nat, Result4Kept C (blocksOf F.terms x.blocks) complete last (S.map (rowOf F)) ∧ (∀ d ∈ S, ∃ c, (d, c) ∈ C) ∧
      ∃ scores' n, conjScores std x (keptPfx F complete) ⟨b + 1, e + 1⟩ K o = .ok (scores', n) ∧
        scores'.length = o.length ∧ n ≤ K ∧ scores'.take n = S.take K := by
  have hcut := hx.cut
  have hu : F.univ + 1 < 2 ^ 32 := by
    obtain ⟨r, hr, he⟩ := h.files.univ
    have := hids r hr
    omega
  have hlt := hr.lt
  have hle := hr.le
  by_cases hkn : keptPfx F complete = []
  · obtain ⟨scores', n, S, t1, t2, t3, t4, t5, t6⟩ := Index4.scores_union hx (by omega) std (r := ⟨b + 1, e + 1⟩) (by simp) (by simpa using hle)
      (by rw [h.files.numLists]; simp only; omega) hk hkl
    have hin : ∀ d ∈ S, ∃ c, (d, c) ∈ C := by
      intro d hd
      have := List.count_pos_iff.mpr hd
      rw [t6, List.countP_pos_iff] at this
      obtain ⟨y, _, hy⟩ := this
      obtain ⟨t, _, _, _, _, ht⟩ := hasIn_iff.mp hy
      obtain ⟨_, _, _, c, hc, _⟩ := h.posted_iff.mp ht
      exact ⟨c, hc⟩
    refine ⟨S, ⟨?_, fun _ => ⟨?_, ?_⟩, ?_⟩, hin, scores', n, by rw [hkn]; exact t1, t2, t3, t4⟩
    · intro y hy
      obtain ⟨d, hd, rfl⟩ := List.mem_map.mp hy
      obtain ⟨c, hc⟩ := hin d hd
      rw [h.rowOf hc]; exact hc
    · rw [List.pairwise_map]; exact t5
    · intro y hy
      rw [h.count_rows hy, t6, h.copies_eq17 hcut hr hy]
    · rintro ⟨t, ht, hT⟩
      exact absurd hT ((h.kept_none hn).mp hkn t ht)
  · obtain ⟨scores', n, R, t1, t2, t3, t4, t5, t6, t7⟩ := Index4.scores_inter hx hu std hkn
      (fun t ht => h.keptPfx_in t ht) (r := ⟨b + 1, e + 1⟩) (by simp) (by simpa using hle)
      (by rw [h.files.numLists]; simp only; omega) hk hkl
    have hin : ∀ d ∈ R, ∃ c, (d, c) ∈ C := by
      intro d hd
      obtain ⟨_, _, y, _, t, _, _, _, _, ht⟩ := t6 d hd
      obtain ⟨_, _, _, c, hc, _⟩ := h.posted_iff.mp ht
      exact ⟨c, hc⟩
    refine ⟨R, ⟨?_, ?_, fun _ => ⟨?_, ?_, ?_⟩⟩, hin, scores', n, t1, t2, t3, t4⟩
    · intro y hy
      obtain ⟨d, hd, rfl⟩ := List.mem_map.mp hy
      obtain ⟨c, hc⟩ := hin d hd
      rw [h.rowOf hc]; exact hc
    · intro hno
      exact absurd ((h.kept_none hn).mpr hno) hkn
    · rw [List.pairwise_map]; exact t5
    · intro y hy
      obtain ⟨d, hd, rfl⟩ := List.mem_map.mp hy
      obtain ⟨c, hc⟩ := hin d hd
      rw [h.rowOf hc]
      obtain ⟨a1, a2, a3⟩ := t6 d hd
      exact ⟨(h.posted_known17 hn hc).mp a1, fun hsk => a2 ((h.skipped_iff17 hn (r := (d, c)) hc).mpr hsk), (h.exists_visited17 hcut hr (r := (d, c)) hc).mp a3⟩
    · intro y hy a1 a2 a3 a4
      refine List.mem_map.mpr ⟨y.1, ?_, h.rowOf (c := y.2) hy⟩
      refine t7 y.1 ((h.posted_known17 hn (c := y.2) hy).mpr a1) (fun hf => a2 ((h.skipped_iff17 hn hy).mp hf)) ((h.exists_visited17 hcut hr hy).mpr a3) ?_
      intro z hz hp
      obtain ⟨z1, z2⟩ := (h.mem_visited17 hcut hr).mp hz
      obtain ⟨c, hc, hx'⟩ := h.has_iff.mp hp
      rw [← h.unique (d := y.1) (c := y.2) hy hc] at hx'
      exact (h.inRange_iff17 hr).mpr ⟨y.2, hy, a4 _ (List.mem_map.mpr ⟨z, z1, rfl⟩) z2 hx'⟩

theorem Index4.scores_spec17 (hn : 16 ≤ F.terms.length) (std : StdLib) {m : Nat} {x : BlkIdx} {docss : List (List Nat)} (hx : x.Rep F.univ m F.inverted docss) (hids : ∀ r ∈ C, r.1 < 2 ^ 32 - 2)
    {complete : List Str} {last : Str} {b e : Nat} (hr : KeptRange C F last b e) :
    ∃ S : List Nat, Result4Kept C (blocksOf F.terms x.blocks) complete last (S.map (rowOf F)) ∧ (∀ d ∈ S, ∃ c, (d, c) ∈ C) ∧
      ∀ k, 1 ≤ k → k ≤ MAX_K → ∃ n, n ≤ k ∧ ∀ scores : List Nat, scores.length = MAX_K → ∃ scores', conjScores std x (keptPfx F complete) ⟨b + 1, e + 1⟩ k scores = .ok (scores', n) ∧
        scores'.length = scores.length ∧ scores'.take n = S.take k := by
  have hk : 1 ≤ MAX_K := by decide
  have hkl : MAX_K ≤ (List.replicate MAX_K 0).length := by rw [List.length_replicate]; exact Nat.le_refl _
  have hall : ∀ (S : List Nat) (scores1 : List Nat) (n : Nat), conjScores std x (keptPfx F complete) ⟨b + 1, e + 1⟩ MAX_K (List.replicate MAX_K 0) = .ok (scores1, n) →
      scores1.length = (List.replicate MAX_K 0).length → n ≤ MAX_K → scores1.take n = S.take MAX_K →
      ∀ k, 1 ≤ k → k ≤ MAX_K → ∃ n, n ≤ k ∧ ∀ scores : List Nat, scores.length = MAX_K →
        ∃ scores', conjScores std x (keptPfx F complete) ⟨b + 1, e + 1⟩ k scores = .ok (scores', n) ∧
        scores'.length = scores.length ∧ scores'.take n = S.take k := by
    intro S scores1 n e1 e2 e4 e3 k hk hk'
    obtain ⟨⟨y, n'⟩, g1, g2, g3, g4⟩ := Index4.conjScores_fewer hk hk' e1
    dsimp only at g2 g3 g4
    refine ⟨n', by omega, ?_⟩
    intro scores hs
    obtain ⟨x2, f1, f2, f3⟩ := Index4.conjScores_same (o2 := scores) (by rw [List.length_replicate, hs]) g1
    refine ⟨x2, f1, by rw [f2, g2, e2, List.length_replicate, hs], ?_⟩
    have hn : n ≤ scores1.length := by rw [e2, List.length_replicate]; exact e4
    have h1 : S.take k = (scores1.take n).take k := by rw [e3, List.take_take, Nat.min_eq_left hk']
    rw [f3, g4, h1, List.take_take, g3, Nat.min_comm]
  obtain ⟨S, s1, s2, scores', n, t1, t2, t3, t4⟩ := Index4.scores_run17 h hn std hx hids (complete := complete) hr hk hkl
  exact ⟨S, s1, s2, hall S scores' n t1 t2 t3 t4⟩

omit h in
theorem Shows.none_ {s : Scratch} (hs : s.WF) (hp : s.pool.Holds []) {d : FC} (hd : FcDict.build F.terms = .ok d) : Shows F.terms [] (.ok s) := by
  refine Or.inr ⟨s, rfl, hs, ?_, ⟨d, hd, rfl⟩, by simp [room], by simpa using hp⟩
  rw [hp.results (by simp)]; simp

/-- what is shown of the documents `docs` -/
theorem Ready.shows17rows (hn : 16 ≤ F.terms.length) {docs : List Nat} (hdoc : ∀ d ∈ docs, ∃ c, (d, c) ∈ C) {s : Scratch} (hs : s.WF)
    {d : FC} (hdict : FcDict.build F.terms = .ok d) {o : M Scratch}
    (hd : DecodedL d F.terms s docs (docs.map (fun d => F.forward.getD d [])) o) :
    ((∀ r ∈ docs.map (AC.rowOf F), ∀ t ∈ r.2, ¬ AmongLast C 16 t) → Shows F.terms (docs.map (AC.rowOf F)) o) ∧
    ((∃ r ∈ docs.map (AC.rowOf F), ∃ t ∈ r.2, AmongLast C 16 t) → o = .error .oob) := by
  have key : ∀ d ∈ docs, ∀ t ∈ F.forward.getD d [], (AmongLast C 16 (F.terms.getD (t - 1) []) ↔ F.terms.length - 16 < t) := by
    intro d hd t htt
    obtain ⟨c, hc⟩ := hdoc d hd
    have := h.idsIn hc t htt
    rw [List.getD_eq_getElem?_getD, List.getElem?_eq_getElem (show t - 1 < F.terms.length by omega), Option.getD_some, h.amongLast hn (by omega)]
    omega
  refine ⟨?_, ?_⟩
  · intro hk
    refine h.shows hdoc hs hdict (hd.1 ?_)
    intro ts hts t htt
    obtain ⟨d, hdd, rfl⟩ := List.mem_map.mp hts
    have h1 := hk _ (List.mem_map.mpr ⟨d, hdd, rfl⟩) _ (List.mem_map.mpr ⟨t, htt, rfl⟩)
    rw [key d hdd t htt] at h1
    omega
  · rintro ⟨r, hr, t, htr, hl⟩
    obtain ⟨d, hdd, rfl⟩ := List.mem_map.mp hr
    obtain ⟨t', htt, rfl⟩ := List.mem_map.mp htr
    exact hd.2 ⟨_, List.mem_map.mpr ⟨d, hdd, rfl⟩, t', htt, (key d hdd t' htt).mp hl⟩

/-- the documents that conjunctive search stores, whether or not some term is found for the incomplete one -/
theorem Index4.scores_all17 (hn : 16 ≤ F.terms.length) (std : StdLib) {m : Nat} {x : BlkIdx} {docss : List (List Nat)} (hx : x.Rep F.univ m F.inverted docss)
    (hids : ∀ r ∈ C, r.1 < 2 ^ 32 - 2) {dict : FC} (R : Lossy dict F.terms) {q : Str} (hq : IsText q) :
    ∃ S : List Nat, Result4Kept C (blocksOf F.terms x.blocks) (completeTerms q) (lastTerm q) (S.map (rowOf F)) ∧ (∀ d ∈ S, ∃ c, (d, c) ∈ C) ∧
      ((∀ x, IsTerm C x → ¬ ReachesKept C (lastTerm q) x) → S = []) ∧ ∀ b e, KeptRange C F (lastTerm q) b e →
      ∀ k, 1 ≤ k → k ≤ MAX_K → ∃ n, n ≤ k ∧ ∀ scores : List Nat, scores.length = MAX_K →
        ∃ scores', conjScores std x (keptPfx F (completeTerms q)) ⟨b + 1, e + 1⟩ k scores = .ok (scores', n) ∧
          scores'.length = scores.length ∧ scores'.take n = S.take k := by
  by_cases hex : ∃ b e, KeptRange C F (lastTerm q) b e
  · obtain ⟨b, e, hr⟩ := hex
    obtain ⟨S, s1, s2, s3⟩ := Index4.scores_spec17 h hn std hx hids (complete := completeTerms q) hr
    refine ⟨S, s1, s2, ?_, ?_⟩
    · intro hu
      have hlt := hr.lt
      have hle := hr.le
      exact absurd ((hr.iff b (by omega)).mp ⟨Nat.le_refl _, hle⟩) (hu _ ((h.isTerm _).mpr (List.getElem_mem _)))
    · intro b' e' hr'
      obtain ⟨rfl, rfl⟩ := hr.unique hr'
      exact s3
  · have hu : ∀ x, IsTerm C x → ¬ ReachesKept C (lastTerm q) x := by
      have ha := analyse_lossy h R hq false Scratch.fresh_wf.dbuf
      generalize analyse dict q false Scratch.fresh = a at ha
      cases ha with
      | unknown buf hb hm hu => simp at hm
      | nothing buf hb hu => exact hu
      | some buf hb r hr hk2 => exact absurd ⟨_, _, hr⟩ hex
    exact ⟨[], result_none17 hu, by simp, fun _ => rfl, fun b e hr => absurd ⟨b, e, hr⟩ hex⟩

/-- **conjunctive search with type 4** when the number of terms is a multiple of 17 and that of the completions is not -/
theorem Index4.conj_like17 (std : StdLib) {m : Nat} {x : Index4} {docss : List (List Nat)} (hx : x.Rep17 m F docss) (hids : ∀ r ∈ C, r.1 < 2 ^ 32 - 2)
    {q : Str} (hq : IsText q) :
    ∃ S, Result4Kept C (blocksOf F.terms x.inverted.blocks) (completeTerms q) (lastTerm q) S ∧
      ∀ q', IsText q' → lastTerm q' = lastTerm q → (∀ t, t ∈ completeTerms q' ↔ t ∈ completeTerms q) →
        ∀ k, 1 ≤ k → k ≤ MAX_K → ∀ s : Scratch, s.WF →
        ((∀ r ∈ S.take k, ∀ t ∈ r.2, ¬ AmongLast C 16 t) → Shows F.terms (S.take k) (x.conjTopk std q' k s)) ∧
        ((∃ r ∈ S.take k, ∃ t ∈ r.2, AmongLast C 16 t) → x.conjTopk std q' k s = .error .oob) := by
  have hn : 16 ≤ F.terms.length := by have := hx.dict.pos; have := hx.dict.mod; omega
  obtain ⟨S, s1, s2, s3, s4⟩ := Index4.scores_all17 h hn std hx.inverted hids hx.dict hq
  refine ⟨_, s1, ?_⟩
  intro q' hq' hlast hcompl k hk hk' s hs
  have ha := analyse_lossy h hx.dict hq' false hs.dbuf
  unfold Index4.conjTopk
  generalize analyse x.dict q' false s = a at ha
  cases ha with
  | unknown buf hb hm hu => simp at hm
  | nothing buf hb hu =>
      rw [s3 (hlast ▸ hu), List.map_nil, List.take_nil]
      exact ⟨fun _ => Shows.none_ (wf_init hs hb) (Pool.Holds.init s.pool) hx.built, by simp⟩
  | some buf hb r hr hk2 =>
      rw [M.ok_bind]
      dsimp only
      have hsl := hs.scores
      obtain ⟨n, hnk, hsc⟩ := s4 _ _ (hlast ▸ hr) k hk hk'
      obtain ⟨scores', t1, t2, t3⟩ := hsc s.pool.init.scores hs.scores
      have hkn : ∀ t, t ∈ keptPfx F (completeTerms q) ↔ t ∈ keptPfx F (completeTerms q') := by
        intro t
        unfold keptPfx
        simp only [List.mem_map, List.mem_filter, hcompl]
      rw [Index4.conjScores_congr std x.inverted hkn] at t1
      unfold keptPfx at t1
      rw [t1, M.ok_bind]
      have hsn : n ≤ scores'.length := by rw [t2, Pool.init, hsl]; omega
      have hdoc : ∀ d ∈ scores'.take n, ∃ c, (d, c) ∈ C := fun d hd => by rw [t3] at hd; exact s2 d (List.mem_of_mem_take hd)
      obtain ⟨s1, w1, w2⟩ := Base.extract_lossy hx.base hx.dict (fun d => F.forward.getD d []) (n := n) (wf_scores (wf_init hs hb) t2)
        (holds_scores (Pool.Holds.init _) _) (by dsimp only [Pool.init]; exact hsn) (by
          intro d hd
          obtain ⟨c, hc⟩ := hdoc d hd
          exact ⟨h.mapped_mem hc, h.idsIn hc⟩)
      rw [← List.map_take, ← t3]
      exact h.shows17rows hn hdoc w1 hx.built w2

/-- the same for the query itself -/
theorem Index4.conj_exact17 (std : StdLib) {m : Nat} {x : Index4} {docss : List (List Nat)} (hx : x.Rep17 m F docss) (hids : ∀ r ∈ C, r.1 < 2 ^ 32 - 2)
    {q : Str} (hq : IsText q) :
    ∃ S, Result4Kept C (blocksOf F.terms x.inverted.blocks) (completeTerms q) (lastTerm q) S ∧
      ∀ k, 1 ≤ k → k ≤ MAX_K → ∀ s : Scratch, s.WF →
        ((∀ r ∈ S.take k, ∀ t ∈ r.2, ¬ AmongLast C 16 t) → Shows F.terms (S.take k) (x.conjTopk std q k s)) ∧
        ((∃ r ∈ S.take k, ∃ t ∈ r.2, AmongLast C 16 t) → x.conjTopk std q k s = .error .oob) := by
  obtain ⟨S, s1, s2⟩ := Index4.conj_like17 h std hx hids hq
  exact ⟨S, s1, s2 q hq rfl (fun _ => Iff.rfl)⟩

/-- **conjunctive search with type 4** when both numbers are multiples of 17 -/
theorem Index4.conj_likeB (std : StdLib) {m : Nat} {x : Index4} {docss : List (List Nat)} (hx : x.RepB m F docss) (hids : ∀ r ∈ C, r.1 < 2 ^ 32 - 2)
    {q : Str} (hq : IsText q) :
    ∃ S, Result4Kept C (blocksOf F.terms x.inverted.blocks) (completeTerms q) (lastTerm q) S ∧
      ∀ q', IsText q' → lastTerm q' = lastTerm q → (∀ t, t ∈ completeTerms q' ↔ t ∈ completeTerms q) →
        ∀ k, 1 ≤ k → k ≤ MAX_K → ∀ s : Scratch, s.WF →
        ((∀ r ∈ S.take k, ¬ Gone C r.2) → Shows F.terms (S.take k) (x.conjTopk std q' k s)) ∧
        ((∃ r ∈ S.take k, Gone C r.2) → x.conjTopk std q' k s = .error .oob) := by
  have hn : 16 ≤ F.terms.length := by have := hx.dict.pos; have := hx.dict.mod; omega
  obtain ⟨S, s1, s2, s3, s4⟩ := Index4.scores_all17 h hn std hx.inverted hids hx.dict hq
  refine ⟨_, s1, ?_⟩
  intro q' hq' hlast hcompl k hk hk' s hs
  have ha := analyse_lossy h hx.dict hq' false hs.dbuf
  unfold Index4.conjTopk
  generalize analyse x.dict q' false s = a at ha
  cases ha with
  | unknown buf hb hm hu => simp at hm
  | nothing buf hb hu =>
      rw [s3 (hlast ▸ hu), List.map_nil, List.take_nil]
      exact ⟨fun _ => Shows.none_ (wf_init hs hb) (Pool.Holds.init s.pool) hx.built, by simp⟩
  | some buf hb r hr hk2 =>
      rw [M.ok_bind]
      dsimp only
      have hsl := hs.scores
      obtain ⟨n, hnk, hsc⟩ := s4 _ _ (hlast ▸ hr) k hk hk'
      obtain ⟨scores', t1, t2, t3⟩ := hsc s.pool.init.scores hs.scores
      have hkn : ∀ t, t ∈ keptPfx F (completeTerms q) ↔ t ∈ keptPfx F (completeTerms q') := by
        intro t
        unfold keptPfx
        simp only [List.mem_map, List.mem_filter, hcompl]
      rw [Index4.conjScores_congr std x.inverted hkn] at t1
      unfold keptPfx at t1
      rw [t1, M.ok_bind]
      have hsn : n ≤ scores'.length := by rw [t2, Pool.init, hsl]; omega
      have hdoc : ∀ d ∈ scores'.take n, ∃ c, (d, c) ∈ C := fun d hd => by rw [t3] at hd; exact s2 d (List.mem_of_mem_take hd)
      rw [← List.map_take, ← t3]
      exact Base.extract_both h hx.base hx.dict hx.built (wf_scores (wf_init hs hb) t2) (holds_scores (Pool.Holds.init _) _) hsn hdoc

/-- the same for the query itself -/
theorem Index4.conj_exactB (std : StdLib) {m : Nat} {x : Index4} {docss : List (List Nat)} (hx : x.RepB m F docss) (hids : ∀ r ∈ C, r.1 < 2 ^ 32 - 2)
    {q : Str} (hq : IsText q) :
    ∃ S, Result4Kept C (blocksOf F.terms x.inverted.blocks) (completeTerms q) (lastTerm q) S ∧
      ∀ k, 1 ≤ k → k ≤ MAX_K → ∀ s : Scratch, s.WF →
        ((∀ r ∈ S.take k, ¬ Gone C r.2) → Shows F.terms (S.take k) (x.conjTopk std q k s)) ∧
        ((∃ r ∈ S.take k, Gone C r.2) → x.conjTopk std q k s = .error .oob) := by
  obtain ⟨S, s1, s2⟩ := Index4.conj_likeB h std hx hids hq
  exact ⟨S, s1, s2 q hq rfl (fun _ => Iff.rfl)⟩

end
end AC
