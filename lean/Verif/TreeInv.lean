import Verif.Val

/-!
# The call sequences that spell a value

A well-formed call sequence is empty or, up to the announced container sizes, the sequence
`emit v` of the value it spells.
-/

namespace Zer

/-- Forget the announced container sizes. -/
def Ev.erase : Ev → Ev
  | .beginArr _ => .beginArr 0
  | .beginMap _ => .beginMap 0
  | e => e

namespace Tree

/-- The calls that led to an open container. -/
def frameCalls : Frame → List Ev
  | .arr xs => .beginArr 0 :: (emitList xs).map Ev.erase
  | .map ms none => .beginMap 0 :: (emitEntries ms).map Ev.erase
  | .map ms (some k) => .beginMap 0 :: ((emitEntries ms).map Ev.erase ++ [.key k])

/-- The calls that led to the open containers, innermost first. -/
def stackCalls : List Frame → List Ev
  | [] => []
  | f :: fs => stackCalls fs ++ frameCalls f

def rootCalls : Option Val → List Ev
  | none => []
  | some v => (emit v).map Ev.erase

def calls (t : Tree) : List Ev := rootCalls t.root ++ stackCalls t.stack

theorem emitList_append (xs ys : List Val) : emitList (xs ++ ys) = emitList xs ++ emitList ys := by
  induction xs with
  | nil => rfl
  | cons x xs ih => simp [emitList, ih]

theorem emitEntries_append (xs ys : List (Bytes × Val)) :
    emitEntries (xs ++ ys) = emitEntries xs ++ emitEntries ys := by
  induction xs with
  | nil => rfl
  | cons x xs ih => obtain ⟨k, v⟩ := x; simp [emitEntries, ih]

/-- Containers opened only above an empty root: while the root is set and a container is open the
sequence cannot be completed any more. -/
def Live (t : Tree) : Prop := t.root = none ∨ t.stack = []

theorem deliver_calls {t t' : Tree} {v : Val} (h : t.deliver v = some t') (hl : t.Live) :
    t'.calls = t.calls ++ (emit v).map Ev.erase ∧ t'.Live := by
  obtain ⟨st, ro⟩ := t
  unfold deliver at h
  dsimp only at h
  cases st with
  | nil =>
    cases ro with
    | none =>
      simp only [Option.some.injEq] at h; subst h
      exact ⟨by simp [calls, rootCalls, stackCalls], .inr rfl⟩
    | some w => simp at h
  | cons f st =>
    have hr : ro = none := by rcases hl with hl | hl <;> simp_all
    subst hr
    cases f with
    | arr xs =>
      simp only [Option.some.injEq] at h; subst h
      exact ⟨by simp [calls, rootCalls, stackCalls, frameCalls, emitList_append, emitList], .inl rfl⟩
    | map ms p =>
      cases p with
      | none => simp at h
      | some k =>
        simp only [Option.some.injEq] at h; subst h
        exact ⟨by simp [calls, rootCalls, stackCalls, frameCalls, emitEntries_append, emitEntries,
          Ev.erase], .inl rfl⟩

/-- Once the root is set and a container is open, the sequence stays incomplete. -/
theorem dead_step {t t' : Tree} {e : Ev} (h : t.step e = some t') (h1 : t.root ≠ none)
    (h2 : t.stack ≠ []) : t'.root ≠ none ∧ t'.stack ≠ [] := by
  obtain ⟨st, ro⟩ := t
  dsimp only at h1 h2
  have del : ∀ (st : List Frame) (v : Val) (t' : Tree), deliver ⟨st, ro⟩ v = some t' →
      t'.root ≠ none ∧ t'.stack ≠ [] := by
    intro st v t' h
    unfold deliver at h
    dsimp only at h
    cases st with
    | nil => cases ro <;> simp_all
    | cons f st =>
      cases f with
      | arr xs => simp at h; subst h; exact ⟨h1, by simp⟩
      | map ms p => cases p <;> simp at h; subst h; exact ⟨h1, by simp⟩
  cases e with
  | null => exact del _ _ _ h
  | bool b => exact del _ _ _ h
  | int b => exact del _ _ _ h
  | uint b => exact del _ _ _ h
  | dbl b => exact del _ _ _ h
  | str b => exact del _ _ _ h
  | blob b => exact del _ _ _ h
  | key k =>
    simp only [step] at h
    split at h
    · simp at h; subst h; exact ⟨h1, by simp⟩
    · simp at h
  | beginArr n => simp [step] at h; subst h; exact ⟨h1, by simp⟩
  | beginMap n => simp [step] at h; subst h; exact ⟨h1, by simp⟩
  | endArr =>
    simp only [step] at h
    split at h
    · exact del _ _ _ h
    · simp at h
  | endMap =>
    simp only [step] at h
    split at h
    · exact del _ _ _ h
    · simp at h

theorem dead_run : ∀ (es : List Ev) {t t' : Tree}, t.run es = some t' → t.root ≠ none →
    t.stack ≠ [] → t'.stack ≠ []
  | [], t, t', h, _, h2 => by simp [run] at h; subst h; exact h2
  | e :: es, t, t', h, h1, h2 => by
    simp only [run, Option.bind_eq_bind, Option.bind_eq_some_iff] at h
    obtain ⟨t1, hs, hr⟩ := h
    obtain ⟨h1, h2⟩ := dead_step hs h1 h2
    exact dead_run es hr h1 h2

theorem step_calls {t t' : Tree} {e : Ev} (h : t.step e = some t') (hl : t.Live) :
    (t'.calls = t.calls ++ [e.erase] ∧ t'.Live) ∨ (t'.root ≠ none ∧ t'.stack ≠ []) := by
  obtain ⟨st, ro⟩ := t
  cases e with
  | null => exact .inl (deliver_calls h hl)
  | bool b => exact .inl (deliver_calls h hl)
  | int b => exact .inl (deliver_calls h hl)
  | uint b => exact .inl (deliver_calls h hl)
  | dbl b => exact .inl (deliver_calls h hl)
  | str b => exact .inl (deliver_calls h hl)
  | blob b => exact .inl (deliver_calls h hl)
  | key k =>
    simp only [step] at h
    split at h
    · rename_i ms st'
      simp at h; subst h
      left
      refine ⟨by simp [calls, stackCalls, frameCalls, Ev.erase], ?_⟩
      rcases hl with hl | hl
      · exact .inl hl
      · simp at hl
    · simp at h
  | beginArr n =>
    simp [step] at h; subst h
    cases ro with
    | none => exact .inl ⟨by simp [calls, stackCalls, frameCalls, Ev.erase, emitList], .inl rfl⟩
    | some v => exact .inr ⟨by simp, by simp⟩
  | beginMap n =>
    simp [step] at h; subst h
    cases ro with
    | none => exact .inl ⟨by simp [calls, stackCalls, frameCalls, Ev.erase, emitEntries], .inl rfl⟩
    | some v => exact .inr ⟨by simp, by simp⟩
  | endArr =>
    simp only [step] at h
    split at h
    · rename_i xs st'
      have hr : ro = none := by rcases hl with hl | hl <;> simp_all
      subst hr
      obtain ⟨h1, h2⟩ := deliver_calls h (.inl rfl)
      exact .inl ⟨by rw [h1]; simp [calls, stackCalls, frameCalls, Ev.erase, emit], h2⟩
    · simp at h
  | endMap =>
    simp only [step] at h
    split at h
    · rename_i xs st'
      have hr : ro = none := by rcases hl with hl | hl <;> simp_all
      subst hr
      obtain ⟨h1, h2⟩ := deliver_calls h (.inl rfl)
      exact .inl ⟨by rw [h1]; simp [calls, stackCalls, frameCalls, Ev.erase, emit], h2⟩
    · simp at h

theorem run_calls : ∀ (es : List Ev) {t t' : Tree}, t.run es = some t' → t.Live →
    t'.stack = [] → t'.calls = t.calls ++ es.map Ev.erase
  | [], t, t', h, _, _ => by simp [run] at h; subst h; simp
  | e :: es, t, t', h, hl, hs => by
    simp only [run, Option.bind_eq_bind, Option.bind_eq_some_iff] at h
    obtain ⟨t1, h1, hr⟩ := h
    rcases step_calls h1 hl with ⟨hc, hl'⟩ | ⟨ha, hb⟩
    · rw [run_calls es hr hl' hs, hc]; simp
    · exact (dead_run es hr ha hb hs).elim

/-- A well-formed call sequence is, up to announced sizes, the sequence of the value it spells. -/
theorem eval_calls {es : List Ev} {v : Val} (h : eval es = some v) :
    (es = [] ∧ v = .null) ∨ es.map Ev.erase = (emit v).map Ev.erase := by
  simp only [eval, Option.bind_eq_some_iff] at h
  obtain ⟨t, hr, hf⟩ := h
  unfold finish at hf
  split at hf
  · rename_i hst
    have := run_calls es hr (.inl rfl) hst
    simp only [calls, hst, stackCalls, rootCalls, List.append_nil, List.nil_append] at this
    cases ho : t.root with
    | none =>
      rw [ho] at this hf
      simp at this hf
      exact .inl ⟨this, hf.symm⟩
    | some w =>
      rw [ho] at this hf
      simp at this hf
      subst hf
      right
      simpa using this.symm
  · cases hf

theorem step_erase (t : Tree) (e : Ev) : t.step e.erase = t.step e := by cases e <;> rfl

theorem run_erase : ∀ (es : List Ev) (t : Tree), t.run (es.map Ev.erase) = t.run es
  | [], _ => rfl
  | e :: es, t => by
    simp only [List.map_cons, run, step_erase]
    congr 1; funext t'; exact run_erase es t'

/-- The call sequences that spell `v` are exactly those. -/
theorem eval_iff (es : List Ev) (v : Val) :
    eval es = some v ↔ (es = [] ∧ v = .null) ∨ es.map Ev.erase = (emit v).map Ev.erase := by
  constructor
  · exact eval_calls
  · rintro (⟨rfl, rfl⟩ | h)
    · rfl
    · have : eval es = eval (emit v) := by
        simp only [eval]
        rw [← run_erase es, h, run_erase]
      rw [this, eval_emit]

end Tree
end Zer
