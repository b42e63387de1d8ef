import Verif.Buffer.Model

namespace Zer.Buf

/-- The object holds allocation `p` together with deleter `d`. -/
def holds (d p : Nat) : Option Storage → Bool
  | some (.managed m) => m.ptr == some p && m.del.target == some d
  | _ => false

/-- How many live buffers hold `p` with `d`. -/
def State.held (s : State) (d p : Nat) : Nat := s.objs.countP (holds d p)

/-- How often the history hands over `p` with deleter `d`. -/
def handed (d p : Nat) (ops : List Op) : Nat :=
  ops.countP fun o => match o with
    | .adopt _ q _ e => q == some p && e == some d
    | _ => false

def bn (b : Bool) : Nat := if b then 1 else 0

theorem bn_true : bn true = 1 := rfl
theorem bn_false : bn false = 0 := rfl

theorem obj_some {s : State} {i : Nat} {x : Storage} (h : s.obj i = some x) :
    ∃ hi : i < s.objs.length, s.objs[i] = some x := by
  unfold State.obj at h
  cases g : s.objs[i]? with
  | none => rw [g] at h; cases h
  | some y =>
    rw [g] at h
    obtain ⟨hi, e⟩ := List.getElem?_eq_some_iff.1 g
    exact ⟨hi, by rw [e]; exact h⟩

theorem obj_of_get {s : State} {i : Nat} {y : Option Storage} (h : s.objs[i]? = some y) : s.obj i = y := by
  unfold State.obj; rw [h]; rfl

theorem countP_set' (f : Option Storage → Bool) (l : List (Option Storage)) (i : Nat) (y : Option Storage)
    (h : i < l.length) : (l.set i y).countP f + bn (f l[i]) = l.countP f + bn (f y) := by
  rw [List.countP_set h]
  have : bn (f l[i]) ≤ l.countP f := by
    unfold bn; split
    · exact List.countP_pos_iff.2 ⟨_, List.getElem_mem h, by assumption⟩
    · exact Nat.zero_le _
  unfold bn at *
  omega

theorem destroy_count {x : Storage} {log log' : Log} (h : x.destroy log = some log') (d p : Nat) :
    log'.count (d, p) = log.count (d, p) + bn (holds d p (some x)) := by
  cases x with
  | vec b => simp only [Storage.destroy, Option.some.injEq] at h; rw [← h]; rfl
  | managed m =>
    obtain ⟨ptr, n, del⟩ := m
    cases ptr with
    | none => simp only [Storage.destroy, Option.some.injEq] at h; rw [← h]; rfl
    | some q =>
      cases g : del.target with
      | none => simp [Storage.destroy, g] at h
      | some e =>
        simp only [Storage.destroy, g, Option.some.injEq] at h
        rw [← h, List.count_append]
        simp only [holds, g, List.count_singleton, bn]
        by_cases h1 : q = p <;> by_cases h2 : e = d <;> simp [h1, h2]

theorem holds_movedFrom (d p : Nat) (x : Storage) : holds d p (some x.movedFrom) = false := by
  cases x <;> simp [Storage.movedFrom, holds]

/-- The bookkeeping of one step. -/
theorem step_count {s s' : State} {o : Op} (h : step s o = .done s' ∨ step s o = .threw s') (d p : Nat) :
    s'.log.count (d, p) + s'.held d p = s.log.count (d, p) + s.held d p + handed d p [o] := by
  cases o with
  | dflt =>
    simp only [step, Out.done.injEq, reduceCtorEq, or_false] at h
    subst h; simp [State.held, handed, holds]
  | fromVec b =>
    simp only [step, Out.done.injEq, reduceCtorEq, or_false] at h
    subst h; simp [State.held, handed, holds]
  | adopt k q n e =>
    simp only [step, adopt] at h
    split at h
    · rename_i hc
      cases q with
      | none =>
        simp only [Storage.destroy, Out.threw.injEq, reduceCtorEq, false_or] at h
        subst h; simp [State.held, handed, holds]
      | some q =>
        have hd : k.deleter e = .empty := by
          rcases hc with ⟨_, hc⟩ | hc
          · cases hc
          · exact hc
        simp only [Storage.destroy, hd, Deleter.target, reduceCtorEq, or_self] at h
    · simp only [Out.done.injEq, reduceCtorEq, or_false] at h
      rename_i hc
      subst h
      have ht : (k.deleter e).target = e := by
        cases k <;> cases e <;> rfl
      simp [State.held, handed, holds, ht, List.countP_cons, Nat.add_assoc]
  | moveNew src =>
    simp only [step] at h
    cases g : s.obj src with
    | none => simp [g] at h
    | some x =>
      simp only [g, Out.done.injEq, reduceCtorEq, or_false] at h
      subst h
      obtain ⟨hi, e⟩ := obj_some g
      have k := countP_set' (holds d p) s.objs src (some x.movedFrom) hi
      rw [holds_movedFrom, e, bn_false] at k
      simp only [State.held, handed, List.countP_append, List.countP_singleton]
      simp only [bn] at k
      simp
      omega
  | moveTo dst src =>
    simp only [step] at h
    split at h
    · simp at h
    rename_i ne
    cases g1 : s.obj dst with
    | none => simp [g1] at h
    | some old =>
      cases g2 : s.obj src with
      | none => simp [g1, g2] at h
      | some new =>
        simp only [g1, g2, moveTo] at h
        cases g3 : old.destroy s.log with
        | none => simp [g3] at h
        | some log =>
          simp only [g3, Out.done.injEq, reduceCtorEq, or_false] at h
          subst h
          obtain ⟨h1, e1⟩ := obj_some g1
          obtain ⟨h2, e2⟩ := obj_some g2
          have k1 := countP_set' (holds d p) s.objs dst (some new) h1
          have h2' : src < (s.objs.set dst (some new)).length := by simpa using h2
          have k2 := countP_set' (holds d p) (s.objs.set dst (some new)) src (some new.movedFrom) h2'
          rw [holds_movedFrom, List.getElem_set_ne ne, e2, bn_false] at k2
          rw [e1] at k1
          have k3 := destroy_count g3 d p
          simp only [State.held, handed]
          simp
          omega
  | destroy i =>
    simp only [step] at h
    cases g : s.obj i with
    | none => simp [g] at h
    | some x =>
      simp only [g] at h
      cases g3 : x.destroy s.log with
      | none => simp [g3] at h
      | some log =>
        simp only [g3, Out.done.injEq, reduceCtorEq, or_false] at h
        subst h
        obtain ⟨hi, e⟩ := obj_some g
        have k := countP_set' (holds d p) s.objs i none hi
        rw [e, show holds d p none = false from rfl, bn_false] at k
        have k3 := destroy_count g3 d p
        simp only [State.held, handed]
        simp
        omega

theorem run_cons {s s' : State} {o : Op} {os : List Op} (h : run s (o :: os) = .done s') :
    ∃ t, (step s o = .done t ∨ step s o = .threw t) ∧ run t os = .done s' := by
  simp only [run] at h
  cases g : step s o with
  | done t => rw [g] at h; exact ⟨t, .inl rfl, h⟩
  | threw t => rw [g] at h; exact ⟨t, .inr rfl, h⟩
  | terminated => rw [g] at h; cases h
  | invalid => rw [g] at h; cases h

theorem run_count (ops : List Op) : ∀ {s s' : State}, run s ops = .done s' → ∀ d p,
    s'.log.count (d, p) + s'.held d p = s.log.count (d, p) + s.held d p + handed d p ops := by
  induction ops with
  | nil => intro s s' h d p; simp only [run, Out.done.injEq] at h; subst h; rfl
  | cons o os ih =>
    intro s s' h d p
    obtain ⟨t, h1, h2⟩ := run_cons h
    have k1 := step_count h1 d p
    have k2 := ih h2 d p
    have : handed d p (o :: os) = handed d p [o] + handed d p os := by
      rw [show o :: os = [o] ++ os from rfl]; exact List.countP_append
    omega

/-- Objects keep their numbers. -/
theorem step_length {s s' : State} {o : Op} (h : step s o = .done s' ∨ step s o = .threw s') :
    s.objs.length ≤ s'.objs.length := by
  cases o with
  | dflt | fromVec b => simp only [step, Out.done.injEq, reduceCtorEq, or_false] at h; subst h; simp
  | adopt k q n e =>
    simp only [step, adopt] at h
    split at h
    · split at h
      · simp only [Out.threw.injEq, reduceCtorEq, false_or] at h; subst h; simp
      · simp at h
    · simp only [Out.done.injEq, reduceCtorEq, or_false] at h; subst h; simp
  | moveNew src =>
    simp only [step] at h
    split at h
    · simp only [Out.done.injEq, reduceCtorEq, or_false] at h; subst h; simp
    · simp at h
  | moveTo dst src =>
    simp only [step] at h
    split at h
    · simp at h
    split at h
    · simp only [moveTo] at h
      split at h
      · simp only [Out.done.injEq, reduceCtorEq, or_false] at h; subst h; simp
      · simp at h
    · simp at h
  | destroy i =>
    simp only [step] at h
    split at h
    · split at h
      · simp only [Out.done.injEq, reduceCtorEq, or_false] at h; subst h; simp
      · simp at h
    · simp at h

end Zer.Buf
