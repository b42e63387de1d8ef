import Verif.Val

/-!
# Writer calls whose exceptions are caught

`Writer.step` says nothing about the state a call leaves behind when it throws. Here a call is a function from the state
to its outcome *and* the state afterwards, so that a caller can catch the exception and go on.
-/

namespace Zer

/-- Code that may throw and changes a state of type `σ`; the changes made before a throw stay. -/
def Exc (σ α : Type) : Type := σ → Res α × σ

namespace Exc
variable {σ α β : Type}

protected def bind (x : Exc σ α) (f : α → Exc σ β) : Exc σ β := fun s =>
  match x s with
  | (.ok a, s') => f a s'
  | (.err e, s') => (.err e, s')
  | (.ub, s') => (.ub, s')
  | (.diverge, s') => (.diverge, s')

instance : Monad (Exc σ) where
  pure a := fun s => (.ok a, s)
  bind := Exc.bind

/-- The current state. -/
def get : Exc σ σ := fun s => (.ok s, s)
/-- An assignment. -/
def put (s : σ) : Exc σ Unit := fun _ => (.ok (), s)
/-- `throw e` -/
def throw (e : Err) : Exc σ α := fun s => (.err e, s)
/-- A computation that does not touch the state. -/
def lift (r : Res α) : Exc σ α := fun s => (r, s)

theorem pure_run (a : α) (s : σ) : (pure a : Exc σ α) s = (.ok a, s) := rfl
theorem bind_run (x : Exc σ α) (f : α → Exc σ β) (s : σ) : (x >>= f) s = (match x s with
  | (.ok a, s') => f a s'
  | (.err e, s') => (.err e, s')
  | (.ub, s') => (.ub, s')
  | (.diverge, s') => (.diverge, s')) := rfl
theorem get_run (s : σ) : (get : Exc σ σ) s = (.ok s, s) := rfl
theorem put_run (s t : σ) : (put s : Exc σ Unit) t = (.ok (), s) := rfl
theorem throw_run (e : Err) (s : σ) : (throw e : Exc σ α) s = (.err e, s) := rfl
theorem lift_run (r : Res α) (s : σ) : (lift r : Exc σ α) s = (r, s) := rfl
theorem ite_run (p : Prop) [Decidable p] (x y : Exc σ α) (s : σ) : (if p then x else y) s = if p then x s else y s := by
  split <;> rfl

end Exc

/-- The outcome and the new state agree with a call that stops at an exception. -/
def Follows {σ : Type} (x : Res Unit × σ) (y : Res σ) : Prop :=
  x.1 = (y >>= fun _ => .ok ()) ∧ ∀ s', y = .ok s' → x.2 = s'

/-- A caller that makes the calls one after the other and catches every exception. The result says which calls were
accepted, and the final state. -/
def catching {σ ε : Type} (call : ε → Exc σ Unit) : σ → List ε → Res (List (ε × Bool) × σ)
  | s, [] => .ok ([], s)
  | s, e :: es => match call e s with
    | (.ok (), s') => do
      let (l, s'') ← catching call s' es
      pure ((e, true) :: l, s'')
    | (.err .abort, _) => .err .abort
    | (.err _, s') => do
      let (l, s'') ← catching call s' es
      pure ((e, false) :: l, s'')
    | (.ub, _) => .ub
    | (.diverge, _) => .diverge

/-- The calls that were accepted. -/
def accepted {ε : Type} (l : List (ε × Bool)) : List ε := (l.filter (·.2)).map Prod.fst

@[simp] theorem accepted_nil {ε : Type} : accepted ([] : List (ε × Bool)) = [] := rfl
@[simp] theorem accepted_true {ε : Type} (e : ε) (l : List (ε × Bool)) : accepted ((e, true) :: l) = e :: accepted l := rfl
@[simp] theorem accepted_false {ε : Type} (e : ε) (l : List (ε × Bool)) : accepted ((e, false) :: l) = accepted l := rfl

/-- The record lists the calls in the order in which they were made. -/
theorem catching_calls {σ ε : Type} {call : ε → Exc σ Unit} : ∀ {es : List ε} {s s' : σ} {l : List (ε × Bool)},
    catching call s es = .ok (l, s') → l.map Prod.fst = es
  | [], _, _, _, h => by cases h; rfl
  | e :: es, s, s', l, h => by
    unfold catching at h
    split at h
    · obtain ⟨⟨l', s''⟩, h1, h2⟩ := Res.bind_eq_ok.1 h
      cases h2
      simp [catching_calls h1]
    · cases h
    · obtain ⟨⟨l', s''⟩, h1, h2⟩ := Res.bind_eq_ok.1 h
      cases h2
      simp [catching_calls h1]
    · cases h
    · cases h

/-- An invariant of every call holds at the end. -/
theorem catching_inv {σ ε : Type} {call : ε → Exc σ Unit} {I : σ → Prop}
    (hI : ∀ {s e r s'}, I s → call e s = (r, s') → I s') :
    ∀ {es : List ε} {s s' : σ} {l : List (ε × Bool)}, I s → catching call s es = .ok (l, s') → I s'
  | [], _, _, _, h0, h => by cases h; exact h0
  | e :: es, s, s', l, h0, h => by
    unfold catching at h
    split at h
    · rename_i s1 hc
      obtain ⟨⟨l', s''⟩, h1, h2⟩ := Res.bind_eq_ok.1 h
      cases h2
      exact catching_inv hI (hI h0 hc) h1
    · cases h
    · rename_i r s1 _ hc
      obtain ⟨⟨l', s''⟩, h1, h2⟩ := Res.bind_eq_ok.1 h
      cases h2
      exact catching_inv hI (hI h0 hc) h1
    · cases h
    · cases h

/-- What is done with a `RootSerializer`: writer calls and `finish()`. -/
inductive Op where
  | call (e : Ev)
  | finish
  deriving DecidableEq, Repr

/-- A `RootSerializer` and the buffers it has handed out. -/
abbrev Session (σ : Type) : Type := σ × List Bytes

/-- One operation of a session. -/
def session {σ : Type} (call : Ev → Exc σ Unit) (finish : Exc σ Bytes) : Op → Exc (Session σ) Unit
  | .call e => fun p => ((call e p.1).1, (call e p.1).2, p.2)
  | .finish => fun p => match finish p.1 with
    | (.ok b, s) => (.ok (), s, p.2 ++ [b])
    | (.err e, s) => (.err e, s, p.2)
    | (.ub, s) => (.ub, s, p.2)
    | (.diverge, s) => (.diverge, s, p.2)

/-- Simulation of a caller that catches. -/
theorem catching_rel {σ τ ε : Type} {call : ε → Exc σ Unit} {R : σ → τ → Prop} {next : τ → ε × Bool → Option τ}
    (hok : ∀ {s t e s'}, R s t → call e s = (.ok (), s') → ∃ t', next t (e, true) = some t' ∧ R s' t')
    (herr : ∀ {s t e r s'}, R s t → call e s = (.err r, s') → ∃ t', next t (e, false) = some t' ∧ R s' t') :
    ∀ {es : List ε} {s s' : σ} {l : List (ε × Bool)} {t : τ}, R s t → catching call s es = .ok (l, s') →
      ∃ t', l.foldlM next t = some t' ∧ R s' t'
  | [], _, _, _, t, hR, h => by cases h; exact ⟨t, rfl, hR⟩
  | e :: es, s, s', l, t, hR, h => by
    unfold catching at h
    split at h
    · rename_i s1 hc
      obtain ⟨⟨l', s''⟩, h1, h2⟩ := Res.bind_eq_ok.1 h
      cases h2
      obtain ⟨t', ht, hR'⟩ := hok hR hc
      obtain ⟨t'', h3, h4⟩ := catching_rel hok herr hR' h1
      exact ⟨t'', by simp [List.foldlM, ht, h3], h4⟩
    · cases h
    · rename_i r s1 _ hc
      obtain ⟨⟨l', s''⟩, h1, h2⟩ := Res.bind_eq_ok.1 h
      cases h2
      obtain ⟨t', ht, hR'⟩ := herr hR hc
      obtain ⟨t'', h3, h4⟩ := catching_rel hok herr hR' h1
      exact ⟨t'', by simp [List.foldlM, ht, h3], h4⟩
    · cases h
    · cases h

end Zer
