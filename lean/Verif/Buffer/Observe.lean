import Verif.Buffer.Lemmas

namespace Zer.Buf

/-- Which objects have been moved from, or given the content of such an object, and not been assigned since. -/
def mark (l : List Bool) : Op → List Bool
  | .dflt | .fromVec _ | .adopt .. => l ++ [false]
  | .moveNew src => l.set src true ++ [l.getD src false]
  | .moveTo dst src => (l.set dst (l.getD src false)).set src true
  | .destroy _ => l

def stale (ops : List Op) (i : Nat) : Bool := (ops.foldl mark []).getD i false

/-- Pointer and size belong together; a null pointer goes with size 0. -/
def Good (Q : Nat → Nat → Prop) : Storage → Prop
  | .vec _ => True
  | .managed m => match m.ptr with
    | some p => Q p m.count
    | none => m.count = 0

structure Inv (Q : Nat → Nat → Prop) (s : State) (l : List Bool) : Prop where
  len : l.length = s.objs.length
  good : ∀ i x, s.objs[i]? = some (some x) → l.getD i false = false → Good Q x

theorem getD_append_left {l : List Bool} {b : Bool} {i : Nat} (h : i < l.length) :
    (l ++ [b]).getD i false = l.getD i false := by
  simp [List.getD, List.getElem?_append_left h]

theorem getD_append_last {l : List Bool} {b : Bool} : (l ++ [b]).getD l.length false = b := by
  simp [List.getD]

/-- Adding an object at the end. -/
theorem inv_append {Q : Nat → Nat → Prop} {s : List (Option Storage)} {log log' : Log} {l : List Bool} {b : Bool}
    {y : Option Storage} (h : Inv Q ⟨s, log⟩ l) (hy : ∀ x, y = some x → b = false → Good Q x) :
    Inv Q ⟨s ++ [y], log'⟩ (l ++ [b]) := by
  have hl : l.length = s.length := h.len
  refine ⟨by simp [hl], fun i x g1 g2 => ?_⟩
  by_cases hi : i < s.length
  · rw [getD_append_left (by omega)] at g2
    rw [List.getElem?_append_left hi] at g1
    exact h.good i x g1 g2
  · have hi' : i = s.length := by
      have := (List.getElem?_eq_some_iff.1 g1).1
      simp at this; omega
    subst hi'
    rw [← hl, getD_append_last] at g2
    simp at g1
    exact hy x g1 g2

theorem getD_set {l : List Bool} {i j : Nat} {b : Bool} (h : i < l.length) :
    (l.set i b).getD j false = if j = i then b else l.getD j false := by
  simp only [List.getD]
  by_cases e : j = i
  · subst e; simp [h]
  · simp [e, List.getElem?_set_ne (Ne.symm e)]

theorem inv_set {Q : Nat → Nat → Prop} {s : List (Option Storage)} {log log' : Log} {l : List Bool} {b : Bool}
    {y : Option Storage} {k : Nat} (h : Inv Q ⟨s, log⟩ l) (hk : k < s.length)
    (hy : ∀ x, y = some x → b = false → Good Q x) : Inv Q ⟨s.set k y, log'⟩ (l.set k b) := by
  have hl : l.length = s.length := h.len
  refine ⟨by simp [hl], fun i x g1 g2 => ?_⟩
  rw [getD_set (by omega)] at g2
  by_cases e : i = k
  · subst e
    simp [hk] at g1
    rw [if_pos rfl] at g2
    exact hy x g1 g2
  · rw [if_neg e] at g2
    simp only [List.getElem?_set_ne (Ne.symm e)] at g1
    exact h.good i x g1 g2

theorem inv_log {Q : Nat → Nat → Prop} {s : List (Option Storage)} {log log' : Log} {l : List Bool}
    (h : Inv Q ⟨s, log⟩ l) : Inv Q ⟨s, log'⟩ l := ⟨h.len, h.good⟩

theorem inv_good {Q : Nat → Nat → Prop} {s : State} {l : List Bool} (h : Inv Q s l) {i : Nat} {x : Storage}
    (g : s.obj i = some x) (hb : l.getD i false = false) : Good Q x := by
  obtain ⟨hi, e⟩ := obj_some g
  exact h.good i x (List.getElem?_eq_some_iff.2 ⟨hi, e⟩) hb

theorem step_inv {Q : Nat → Nat → Prop} {s s' : State} {l : List Bool} {o : Op}
    (h : step s o = .done s' ∨ step s o = .threw s') (hi : Inv Q s l)
    (hq : ∀ k p n d, o = .adopt k (some p) n d → Q p n) : Inv Q s' (mark l o) := by
  obtain ⟨objs, log⟩ := s
  cases o with
  | dflt =>
    simp only [step, Out.done.injEq, reduceCtorEq, or_false] at h; subst h
    exact inv_append hi fun x e _ => by cases e; trivial
  | fromVec b =>
    simp only [step, Out.done.injEq, reduceCtorEq, or_false] at h; subst h
    exact inv_append hi fun x e _ => by cases e; trivial
  | adopt k q n e =>
    simp only [step, adopt] at h
    split at h
    · split at h
      · simp only [Out.threw.injEq, reduceCtorEq, false_or] at h; subst h
        exact inv_append hi fun x e _ => by cases e
      · simp at h
    · rename_i hc
      simp only [Out.done.injEq, reduceCtorEq, or_false] at h; subst h
      refine inv_append hi fun x g _ => ?_
      cases g
      cases q with
      | some q => exact hq k q n e rfl
      | none =>
        show n = 0
        have : ¬(n > 0 ∧ (none : Option Nat) = none) := fun hh => hc (.inl hh)
        simp at this
        exact this
  | moveNew src =>
    simp only [step] at h
    cases g : (State.mk objs log).obj src with
    | none => simp [g] at h
    | some x =>
      simp only [g, Out.done.injEq, reduceCtorEq, or_false] at h; subst h
      obtain ⟨hs, e⟩ := obj_some g
      refine inv_append (log := log) (inv_set hi hs fun y _ hb => by cases hb) fun y e hb => ?_
      cases e
      exact inv_good hi g hb
  | moveTo dst src =>
    simp only [step] at h
    split at h
    · simp at h
    rename_i ne
    cases g1 : (State.mk objs log).obj dst with
    | none => simp [g1] at h
    | some old =>
      cases g2 : (State.mk objs log).obj src with
      | none => simp [g1, g2] at h
      | some new =>
        simp only [g1, g2, moveTo] at h
        split at h
        · simp only [Out.done.injEq, reduceCtorEq, or_false] at h; subst h
          obtain ⟨h1, e1⟩ := obj_some g1
          obtain ⟨h2, e2⟩ := obj_some g2
          refine inv_set (log := log) (inv_set hi h1 fun y e hb => ?_) (by simpa using h2) fun y _ hb => by cases hb
          cases e
          exact inv_good hi g2 hb
        · simp at h
  | destroy i =>
    simp only [step] at h
    cases g : (State.mk objs log).obj i with
    | none => simp [g] at h
    | some x =>
      simp only [g] at h
      split at h
      · simp only [Out.done.injEq, reduceCtorEq, or_false] at h; subst h
        obtain ⟨hs, e⟩ := obj_some g
        have := inv_set (log' := ‹Log›) (b := l.getD i false) (y := none) hi hs fun y e _ => by cases e
        have e2 : l.set i (l.getD i false) = l := by
          apply List.ext_getElem (by simp)
          intro j h1 h2
          rw [List.getElem_set]
          split
          · rename_i e; subst e; simp [List.getD, h2]
          · rfl
        rw [e2] at this
        exact this
      · simp at h

theorem run_inv {Q : Nat → Nat → Prop} (ops : List Op) : ∀ {s s' : State} {l : List Bool}, run s ops = .done s' →
    Inv Q s l → (∀ k p n d, Op.adopt k (some p) n d ∈ ops → Q p n) → Inv Q s' (ops.foldl mark l) := by
  induction ops with
  | nil => intro s s' l h hi _; simp only [run, Out.done.injEq] at h; subst h; exact hi
  | cons o os ih =>
    intro s s' l h hi hq
    obtain ⟨t, h1, h2⟩ := run_cons h
    exact ih h2 (step_inv h1 hi fun k p n d e => hq k p n d (by simp [e])) fun k p n d m =>
      hq k p n d (List.mem_cons_of_mem _ m)

/-- With deleters everywhere no step ends the program. -/
def Armed (s : State) : Prop := ∀ i m p, s.obj i = some (.managed m) → m.ptr = some p → m.del.target ≠ none

theorem destroy_armed {s : State} {i : Nat} {x : Storage} (h : Armed s) (g : s.obj i = some x) :
    x.destroy s.log ≠ none := by
  cases x with
  | vec b => simp [Storage.destroy]
  | managed m =>
    obtain ⟨ptr, n, del⟩ := m
    cases ptr with
    | none => simp [Storage.destroy]
    | some q =>
      have := h i _ q g rfl
      cases e : del.target with
      | none => exact absurd e this
      | some d => simp [Storage.destroy, e]

theorem obj_append {s : List (Option Storage)} {log : Log} {y : Option Storage} {i : Nat} {x : Storage}
    (h : (State.mk (s ++ [y]) log).obj i = some x) : (∃ log, (State.mk s log).obj i = some x) ∨ y = some x := by
  obtain ⟨hi, e⟩ := obj_some h
  by_cases hl : i < s.length
  · refine .inl ⟨log, obj_of_get ?_⟩
    have e' : (s ++ [y])[i]? = some (some x) := List.getElem?_eq_some_iff.2 ⟨hi, e⟩
    rwa [List.getElem?_append_left hl] at e'
  · have hh : i = s.length := by simp at hi; omega
    subst hh
    simp at e
    exact .inr e

theorem obj_set {s : List (Option Storage)} {log : Log} {y : Option Storage} {i k : Nat} {x : Storage}
    (h : (State.mk (s.set k y) log).obj i = some x) : (∃ log, (State.mk s log).obj i = some x) ∨ y = some x := by
  obtain ⟨hi, e⟩ := obj_some h
  rw [List.getElem_set] at e
  split at e
  · exact .inr e
  · refine .inl ⟨log, obj_of_get (List.getElem?_eq_some_iff.2 ⟨by simpa using hi, e⟩)⟩

/-- A property of storages that holds of everything constructed and of everything moved-from holds throughout. -/
theorem step_all {P : Storage → Prop} {s s' : State} {o : Op} (h : step s o = .done s' ∨ step s o = .threw s')
    (hv : ∀ b, P (.vec b)) (hm : ∀ x, P x → P x.movedFrom)
    (ha : ∀ k p n d, o = .adopt k p n d → P (.managed ⟨p, n, k.deleter d⟩))
    (hs : ∀ i x, s.obj i = some x → P x) : ∀ i x, s'.obj i = some x → P x := by
  obtain ⟨objs, log⟩ := s
  intro i x hx
  cases o with
  | dflt =>
    simp only [step, Out.done.injEq, reduceCtorEq, or_false] at h; subst h
    rcases obj_append hx with ⟨_, g⟩ | g
    · exact hs i x g
    · cases g; exact hv _
  | fromVec b =>
    simp only [step, Out.done.injEq, reduceCtorEq, or_false] at h; subst h
    rcases obj_append hx with ⟨_, g⟩ | g
    · exact hs i x g
    · cases g; exact hv _
  | adopt k q n e =>
    simp only [step, adopt] at h
    split at h
    · split at h
      · simp only [Out.threw.injEq, reduceCtorEq, false_or] at h; subst h
        rcases obj_append hx with ⟨_, g⟩ | g
        · exact hs i x g
        · cases g
      · simp at h
    · simp only [Out.done.injEq, reduceCtorEq, or_false] at h; subst h
      rcases obj_append hx with ⟨_, g⟩ | g
      · exact hs i x g
      · cases g; exact ha k q n e rfl
  | moveNew src =>
    simp only [step] at h
    cases g : (State.mk objs log).obj src with
    | none => simp [g] at h
    | some y =>
      simp only [g, Out.done.injEq, reduceCtorEq, or_false] at h; subst h
      rcases obj_append hx with ⟨_, g1⟩ | g1
      · rcases obj_set g1 with ⟨_, g2⟩ | g2
        · exact hs i x g2
        · cases g2; exact hm _ (hs _ _ g)
      · cases g1; exact hs _ _ g
  | moveTo dst src =>
    simp only [step] at h
    split at h
    · simp at h
    cases g1 : (State.mk objs log).obj dst with
    | none => simp [g1] at h
    | some old =>
      cases g2 : (State.mk objs log).obj src with
      | none => simp [g1, g2] at h
      | some new =>
        simp only [g1, g2, moveTo] at h
        split at h
        · simp only [Out.done.injEq, reduceCtorEq, or_false] at h; subst h
          rcases obj_set hx with ⟨_, g3⟩ | g3
          · rcases obj_set g3 with ⟨_, g4⟩ | g4
            · exact hs i x g4
            · cases g4; exact hs _ _ g2
          · cases g3; exact hm _ (hs _ _ g2)
        · simp at h
  | destroy j =>
    simp only [step] at h
    cases g : (State.mk objs log).obj j with
    | none => simp [g] at h
    | some y =>
      simp only [g] at h
      split at h
      · simp only [Out.done.injEq, reduceCtorEq, or_false] at h; subst h
        rcases obj_set hx with ⟨_, g3⟩ | g3
        · exact hs i x g3
        · cases g3
      · simp at h

theorem step_armed {s s' : State} {o : Op} (h : step s o = .done s' ∨ step s o = .threw s') (ha : Armed s)
    (ho : ∀ k p n d, o = .adopt k (some p) n d → d ≠ none) : Armed s' := by
  have := step_all (P := fun x => ∀ m p, x = .managed m → m.ptr = some p → m.del.target ≠ none) h
    (fun b m p e => by cases e) (fun x hx m p e hp => by
      cases x with
      | vec b => cases e
      | managed m' => cases e; cases hp)
    (fun k p n d e m q e1 hq => by
      cases e1
      have : p = some q := hq
      subst this
      have hd := ho k q n d e
      have ht : (k.deleter d).target = d := by cases k <;> cases d <;> rfl
      show (k.deleter d).target ≠ none
      rw [ht]; exact hd)
    (fun i x g m p e hp => ha i m p (by rw [g, e]) hp)
  exact fun i m p g hp => this i _ g m p rfl hp

theorem step_not_terminated {s : State} {o : Op} (ha : Armed s)
    (ho : ∀ k p n d, o = .adopt k (some p) n d → d ≠ none) : step s o ≠ .terminated := by
  cases o with
  | dflt | fromVec b => simp [step]
  | adopt k q n e =>
    simp only [step, adopt]
    split
    · rename_i hc
      cases q with
      | none => simp [Storage.destroy]
      | some q =>
        exfalso
        have hd := ho k q n e rfl
        rcases hc with ⟨_, hc⟩ | hc
        · cases hc
        · cases k <;> cases e <;> simp_all [Kind.deleter]
    · simp
  | moveNew src => simp only [step]; split <;> simp
  | moveTo dst src =>
    simp only [step]
    split
    · simp
    split
    · rename_i g1 g2
      simp only [moveTo]
      split
      · simp
      · rename_i g3
        exact absurd g3 (destroy_armed ha g1)
    · simp
  | destroy i =>
    simp only [step]
    split
    · rename_i g
      split
      · simp
      · rename_i g3
        exact absurd g3 (destroy_armed ha g)
    · simp

theorem run_not_terminated (ops : List Op) : ∀ {s : State}, Armed s →
    (∀ k p n d, Op.adopt k (some p) n d ∈ ops → d ≠ none) → run s ops ≠ .terminated := by
  induction ops with
  | nil => intro s _ _ h; cases h
  | cons o os ih =>
    intro s ha ho h
    have ho1 : ∀ k p n d, o = .adopt k (some p) n d → d ≠ none := fun k p n d e => ho k p n d (by simp [e])
    have ho2 : ∀ k p n d, Op.adopt k (some p) n d ∈ os → d ≠ none := fun k p n d m =>
      ho k p n d (List.mem_cons_of_mem _ m)
    simp only [run] at h
    cases g : step s o with
    | done t => rw [g] at h; exact ih (step_armed (.inl g) ha ho1) ho2 h
    | threw t => rw [g] at h; exact ih (step_armed (.inr g) ha ho1) ho2 h
    | terminated => exact step_not_terminated ha ho1 g
    | invalid => rw [g] at h; cases h

end Zer.Buf
