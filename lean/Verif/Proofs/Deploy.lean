import Verif.Model.Deploy
import Verif.Proofs.Asks
import Verif.Proofs.Suits
import Verif.Proofs.Counts
/-!
# Proofs: requests one after the other
-/
namespace AC
open Spec

namespace Web

/-- the requests considered: a query without NUL bytes and from 1 to 15 results, or a number of results that is not a number -/
def OkRequest (r : Option Str × Option Str) : Prop :=
  IsText (requestedQ r.1) ∧ ∀ k, requestedK r.2 = .ok k → 1 ≤ k ∧ k ≤ MAX_K

/-- the response to a request is the same whatever the state -/
theorem respond_same {C : Coll} (hC : ValidColl C) {x y : Index1} (hx : Serves C (PrefixFound C) x.ask) (hy : Serves C (PrefixFound C) y.ask)
    (std std' : StdLib) {r : Option Str × Option Str} (hr : OkRequest r) {s t : Scratch} (hs : s.WF) (ht : t.WF) :
    (∃ e, respond std x r.1 r.2 s = .error e ∧ respond std' y r.1 r.2 t = .error e) ∨
    ∃ sent s' t', respond std x r.1 r.2 s = .ok (sent, s') ∧ respond std' y r.1 r.2 t = .ok (sent, t') ∧ s'.WF ∧ t'.WF := by
  obtain ⟨hq, hk⟩ := hr
  unfold respond
  cases hK : requestedK r.2 with
  | error e => exact .inl ⟨e, by rw [M.error_bind], by rw [M.error_bind]⟩
  | ok k =>
      obtain ⟨hk1, hk2⟩ := hk k hK
      have h1 := hx std ⟨true, requestedQ r.1, k⟩ s ⟨hq, hk1, hk2⟩ hs
      have h2 := hy std' ⟨true, requestedQ r.1, k⟩ t ⟨hq, hk1, hk2⟩ ht
      have hsame := h1.same hC.docs (fun _ _ => Iff.rfl) h2
      have w1 : ∀ s', x.conjTopk std (requestedQ r.1) k s = .ok s' → s'.WF := fun s' e => h1.wf e
      have w2 : ∀ t', y.conjTopk std' (requestedQ r.1) k t = .ok t' → t'.WF := fun t' e => h2.wf e
      simp only [M.ok_bind]
      rcases hsame with ⟨e1, e2⟩ | ⟨s', t', res, e1, e2, e3, e4⟩
      · have e1 : x.conjTopk std (requestedQ r.1) k s = .error .oob := e1
        have e2 : y.conjTopk std' (requestedQ r.1) k t = .error .oob := e2
        rw [e1, e2]
        exact .inl ⟨_, by rw [M.error_bind], by rw [M.error_bind]⟩
      · have e1 : x.conjTopk std (requestedQ r.1) k s = .ok s' := e1
        have e2 : y.conjTopk std' (requestedQ r.1) k t = .ok t' := e2
        rw [e1, e2, M.ok_bind, M.ok_bind, e3, e4, M.ok_bind, M.ok_bind]
        cases format (body (res.map (·.2))) with
        | error e => exact .inl ⟨e, by rw [M.error_bind], by rw [M.error_bind]⟩
        | ok b => exact .inr ⟨b, s', t', by rw [M.ok_bind], by rw [M.ok_bind], w1 _ e1, w2 _ e2⟩

/-- so are the responses to several -/
theorem serve_same {C : Coll} (hC : ValidColl C) {x y : Index1} (hx : Serves C (PrefixFound C) x.ask) (hy : Serves C (PrefixFound C) y.ask)
    (std std' : StdLib) : ∀ {rs : List (Option Str × Option Str)}, (∀ r ∈ rs, OkRequest r) → ∀ {s t : Scratch}, s.WF → t.WF →
      serve std x rs s = serve std' y rs t := by
  intro rs
  induction rs with
  | nil => intro _ s t _ _; rfl
  | cons r rs ih =>
      intro h s t hs ht
      simp only [serve]
      rcases respond_same hC hx hy std std' (h r (List.mem_cons_self ..)) hs ht with ⟨e, e1, e2⟩ | ⟨sent, s', t', e1, e2, h1, h2⟩
      · rw [e1, e2, M.error_bind, M.error_bind]
      · rw [e1, e2, M.ok_bind, M.ok_bind]
        simp only
        rw [ih (fun r hr => h r (List.mem_cons_of_mem _ hr)) h1 h2]

/-- the responses to requests after others are those of a fresh server -/
theorem serve_append {C : Coll} (hC : ValidColl C) {x : Index1} (hx : Serves C (PrefixFound C) x.ask) (std : StdLib)
    {us : List (Option Str × Option Str)} (hu : ∀ r ∈ us, OkRequest r) {t : Scratch} (ht : t.WF) :
    ∀ {rs : List (Option Str × Option Str)}, (∀ r ∈ rs, OkRequest r) → ∀ {s : Scratch}, s.WF →
      serve std x (rs ++ us) s = (do
        let a ← serve std x rs s
        let b ← serve std x us t
        .ok (a ++ b)) := by
  intro rs
  induction rs with
  | nil =>
      intro _ s hs
      simp only [serve, List.nil_append, M.ok_bind]
      rw [serve_same hC hx hx std std hu hs ht]
      cases serve std x us t <;> rfl
  | cons r rs ih =>
      intro h s hs
      simp only [serve, List.cons_append]
      rcases respond_same hC hx hx std std (h r (List.mem_cons_self ..)) hs hs with ⟨e, e1, _⟩ | ⟨sent, s', _, e1, _, h1, _⟩
      · rw [e1, M.error_bind, M.error_bind, M.error_bind]
      · rw [e1, M.ok_bind]
        simp only
        rw [ih (fun r hr => h r (List.mem_cons_of_mem _ hr)) h1, M.ok_bind]
        simp only
        cases serve std x rs s' with
        | error e => simp only [M.error_bind]
        | ok a => cases serve std x us t <;> simp only [M.ok_bind, M.error_bind, List.cons_append]

end Web

theorem Index1.printed_ok {F : Files} {mem : Nat → W} {x : Index1} (h : Index1.build F mem = .ok x) : ∃ out, x.printed = .ok out := by
  obtain ⟨_, h2⟩ := Index1.build_put (mem' := mem) h
  obtain ⟨c, p, e1, e2, _⟩ := Trie.parts h2
  unfold Index1.printed Index1.stats Index1.bytes
  rw [e1, e2]
  simp only [M.ok_bind]
  exact ⟨_, rfl⟩

end AC
