import Verif.Json.Model

/-!
# JSON: the writer refines the abstract document builder
-/

namespace Zer.Json

mutual
/-- The document that stands for a value: a blob is `["~b", base64, "base64"]`. -/
def toDom : Val → Val
  | .null => .null
  | .bool b => .bool b
  | .int i => .int i
  | .uint n => .uint n
  | .dbl d => .dbl d
  | .str s => .str s
  | .blob s => .arr [.str blobTag, .str (Base64.encode s), .str blobEncoding]
  | .arr xs => .arr (toDomList xs)
  | .map ms => .map (toDomEntries ms)
def toDomList : List Val → List Val
  | [] => []
  | x :: xs => toDom x :: toDomList xs
def toDomEntries : List (Bytes × Val) → List (Bytes × Val)
  | [] => []
  | (k, v) :: ms => (k, toDom v) :: toDomEntries ms
end

theorem toDomList_eq (xs : List Val) : toDomList xs = xs.map toDom := by
  induction xs with
  | nil => rfl
  | cons x xs ih => simp [toDomList, ih]

theorem toDomEntries_eq (ms : List (Bytes × Val)) :
    toDomEntries ms = ms.map (fun m => (m.1, toDom m.2)) := by
  induction ms with
  | nil => rfl
  | cons m ms ih => cases m; simp [toDomEntries, ih]

/-- Keys the writer can handle: not empty and without NUL. -/
def KeyOk (k : Bytes) : Prop := k ≠ [] ∧ (0 : UInt8) ∉ k

def EvOk : Ev → Prop
  | .key k => KeyOk k
  | _ => True

theorem cstr_ok {k : Bytes} (h : (0 : UInt8) ∉ k) : cstr k = k := by
  unfold cstr
  induction k with
  | nil => rfl
  | cons c cs ih =>
    simp only [List.mem_cons, not_or] at h
    have hc : ¬ c = 0 := fun e => h.1 e.symm
    rw [List.takeWhile_cons_of_pos (by simp [hc]), ih h.2]

/-- Innermost context against innermost frame; `hole` is the key of an open child. -/
def RelFrame (c : Ctx) (hole : Option Bytes) : Frame → Prop
  | .arr xs => c.isObj = false ∧ c.xs = xs.map toDom ∧ (hole = none ∨ hole = some [])
  | .map ms p => c.isObj = true ∧ c.ms = ms.map (fun m => (m.1, toDom m.2)) ∧
    (∀ k, p = some k → KeyOk k) ∧
    match hole with
    | none => c.pending = p.getD []
    | some k => c.pending = [] ∧ p = some k

/-- Open containers below one attached under `hole`. -/
def RelStack : Bytes → List Ctx → List Frame → Prop
  | hole, [], [] => hole = []
  | hole, c :: cs, f :: fs => RelFrame c (some hole) f ∧ RelStack c.key cs fs
  | _, _, _ => False

/-- Writer state against builder state. -/
def Rel (s : RS) (t : Tree) : Prop :=
  match s.st, t.stack with
  | [], [] => s.root = t.root.map toDom ∧ s.wrote = t.root.isSome
  | c :: cs, f :: fs => RelFrame c none f ∧ RelStack c.key cs fs ∧ s.wrote = true ∧ s.root = none ∧ t.root = none
  | _, _ => False

/-- After `slot`: the value to come has its place. -/
def RelSlot (k : Bytes) (s : RS) (t : Tree) : Prop :=
  RelStack k s.st t.stack ∧ s.wrote = true ∧ s.root = none ∧ t.root = none

/-- No sequence of calls leads to a complete document any more: an open container sits where no value
is allowed. -/
def Doomed (t : Tree) : Prop :=
  (∃ pre ms rest, pre ≠ [] ∧ t.stack = pre ++ .map ms none :: rest) ∨ (t.stack ≠ [] ∧ t.root ≠ none)

theorem doomed_deliver {f : Frame} {fs : List Frame} {r : Option Val} (h : Doomed ⟨f :: fs, r⟩) (v : Val) :
    ∀ t', Tree.deliver ⟨fs, r⟩ v = some t' → Doomed t' := by
  intro t' ht
  rcases h with ⟨pre, ms, rest, hp, he⟩ | ⟨_, hr⟩
  · cases pre with
    | nil => exact absurd rfl hp
    | cons g pre =>
      simp only [List.cons_append, List.cons.injEq] at he
      obtain ⟨rfl, rfl⟩ := he
      cases pre with
      | nil => simp [Tree.deliver] at ht
      | cons g' pre =>
        simp only [List.cons_append, Tree.deliver] at ht
        cases g' with
        | arr xs => simp only [Option.some.injEq] at ht; subst ht; exact .inl ⟨.arr (xs ++ [v]) :: pre, ms, rest, by simp, rfl⟩
        | map ns p =>
          cases p with
          | none => cases ht
          | some k =>
            simp only [Option.some.injEq] at ht; subst ht
            exact .inl ⟨.map (ns ++ [(k, v)]) none :: pre, ms, rest, by simp, rfl⟩
  · cases fs with
    | nil =>
      cases r with
      | none => exact absurd rfl hr
      | some x => cases ht
    | cons g fs =>
      simp only [Tree.deliver] at ht
      cases g with
      | arr xs => simp only [Option.some.injEq] at ht; subst ht; exact .inr ⟨by simp, hr⟩
      | map ns p =>
        cases p with
        | none => cases ht
        | some k => simp only [Option.some.injEq] at ht; subst ht; exact .inr ⟨by simp, hr⟩

theorem doomed_scalar {t : Tree} (h : Doomed t) (v : Val) : ∀ t', t.deliver v = some t' → Doomed t' := by
  obtain ⟨st, r⟩ := t
  intro t' ht
  cases st with
  | nil => rcases h with ⟨pre, _, _, hp, he⟩ | ⟨h1, _⟩
           · cases pre <;> simp at he
           · exact absurd rfl h1
  | cons f fs =>
    have key : ∀ g, Doomed ⟨g :: fs, r⟩ := by
      intro g
      rcases h with ⟨pre, ms, rest, hp, he⟩ | ⟨_, hr⟩
      · cases pre with
        | nil => exact absurd rfl hp
        | cons f' pre =>
          simp only [List.cons_append, List.cons.injEq] at he
          obtain ⟨rfl, rfl⟩ := he
          exact .inl ⟨g :: pre, ms, rest, by simp, rfl⟩
      · exact .inr ⟨by simp, hr⟩
    simp only [Tree.deliver] at ht
    cases f with
    | arr xs => simp only [Option.some.injEq] at ht; subst ht; exact key _
    | map ns p =>
      cases p with
      | none => cases ht
      | some k => simp only [Option.some.injEq] at ht; subst ht; exact key _

theorem doomed_push {t : Tree} (h : Doomed t) (f : Frame) : Doomed { t with stack := f :: t.stack } := by
  rcases h with ⟨pre, ms, rest, _, he⟩ | ⟨_, hr⟩
  · exact .inl ⟨f :: pre, ms, rest, by simp, by simp [he]⟩
  · exact .inr ⟨by simp, hr⟩

theorem doomed_step {t : Tree} (h : Doomed t) (e : Ev) : ∀ t', t.step e = some t' → Doomed t' := by
  intro t' ht
  cases e
  case key k =>
    simp only [Tree.step] at ht
    split at ht
    · rename_i ms st hs
      simp only [Option.some.injEq] at ht; subst ht
      rcases h with ⟨pre, ns, rest, hp, he⟩ | ⟨h1, hr⟩
      · cases pre with
        | nil => exact absurd rfl hp
        | cons f' pre =>
          rw [hs] at he
          simp only [List.cons_append, List.cons.injEq] at he
          obtain ⟨rfl, rfl⟩ := he
          exact .inl ⟨.map ms (some k) :: pre, ns, rest, by simp, rfl⟩
      · exact .inr ⟨by simp, hr⟩
    · cases ht
  case beginArr n => simp only [Tree.step, Option.some.injEq] at ht; subst ht; exact doomed_push h _
  case beginMap n => simp only [Tree.step, Option.some.injEq] at ht; subst ht; exact doomed_push h _
  case endArr =>
    simp only [Tree.step] at ht
    split at ht
    · rename_i xs st hs
      obtain ⟨stk, r⟩ := t
      simp only at hs; subst hs
      exact doomed_deliver h _ t' ht
    · cases ht
  case endMap =>
    simp only [Tree.step] at ht
    split at ht
    · rename_i xs st hs
      obtain ⟨stk, r⟩ := t
      simp only at hs; subst hs
      exact doomed_deliver h _ t' ht
    · cases ht
  all_goals exact doomed_scalar h _ t' ht

theorem doomed_run {t : Tree} (h : Doomed t) : ∀ es, (t.run es).bind Tree.finish = none := by
  intro es
  induction es generalizing t with
  | nil =>
    simp only [Tree.run, Option.bind_some, Tree.finish]
    split
    · rename_i hs
      rcases h with ⟨pre, _, _, hp, he⟩ | ⟨h1, _⟩
      · rw [hs] at he; cases pre <;> simp at he
      · exact absurd hs h1
    · rfl
  | cons e es ih =>
    simp only [Tree.run]
    cases hs : t.step e with
    | none => rfl
    | some t' => simpa using ih (doomed_step h e t' hs)

theorem slot_sim (dbg : Bool) {s : RS} {t : Tree} (R : Rel s t) :
    (∃ k s', slot dbg s = .ok (k, s') ∧ RelSlot k s' t ∧
      (match t.stack with | .map _ none :: _ => False | _ => True)) ∨
    (slot dbg s = .err .logic ∧ (∀ v, t.deliver v = none) ∧ ∀ f, Doomed { t with stack := f :: t.stack }) := by
  obtain ⟨root, wrote, st⟩ := s
  obtain ⟨stack, troot⟩ := t
  cases st with
  | nil =>
    cases stack with
    | cons f fs => exact R.elim
    | nil =>
      simp only [Rel] at R
      obtain ⟨R1, R2⟩ := R
      cases troot with
      | none =>
        left
        refine ⟨[], ⟨root, true, []⟩, ?_, ⟨rfl, rfl, R1, rfl⟩, trivial⟩
        simp [slot, show wrote = false from R2]
      | some v =>
        right
        refine ⟨by simp [slot, show wrote = true from R2], fun v => rfl, fun f => .inr ⟨by simp, by simp⟩⟩
  | cons c cs =>
    cases stack with
    | nil => exact R.elim
    | cons f fs =>
      simp only [Rel] at R
      obtain ⟨R1, R2, R3, R4, R5⟩ := R
      cases f with
      | arr xs =>
        left
        obtain ⟨h1, h2, _⟩ := R1
        refine ⟨[], ⟨root, wrote, c :: cs⟩, by simp only [slot, h1]; rfl, ⟨⟨⟨h1, h2, .inr rfl⟩, R2⟩, R3, R4, R5⟩, trivial⟩
      | map ms p =>
        obtain ⟨h1, h2, h3, h4⟩ := R1
        cases p with
        | none =>
          right
          simp only [Option.getD_none] at h4
          refine ⟨by simp [slot, h1, h4], fun v => rfl, fun f => .inl ⟨[f], ms, fs, by simp, rfl⟩⟩
        | some k =>
          left
          simp only [Option.getD_some] at h4
          have hk := h3 k rfl
          refine ⟨k, ⟨root, wrote, { c with pending := [] } :: cs⟩, ?_,
            ⟨⟨⟨h1, h2, h3, rfl, rfl⟩, R2⟩, R3, R4, R5⟩, trivial⟩
          simp [slot, h1, h4, hk.1, hk.2, cstr_ok hk.2]

theorem attach_sim {k : Bytes} {s : RS} {t : Tree} (R : RelSlot k s t) (v : Val)
    (hp : match t.stack with | .map _ none :: _ => False | _ => True) :
    ∃ t', t.deliver v = some t' ∧ Rel (attach s k (toDom v)) t' := by
  obtain ⟨root, wrote, st⟩ := s
  obtain ⟨stack, troot⟩ := t
  obtain ⟨R1, R2, R3, R4⟩ := R
  simp only at R1 R2 R3 R4
  subst R2 R3 R4
  cases st with
  | nil =>
    cases stack with
    | cons f fs => exact R1.elim
    | nil => exact ⟨_, rfl, rfl, rfl⟩
  | cons c cs =>
    cases stack with
    | nil => exact R1.elim
    | cons f fs =>
      obtain ⟨h, R2⟩ := R1
      cases f with
      | arr xs =>
        obtain ⟨h1, h2, _⟩ := h
        refine ⟨_, rfl, ?_⟩
        simp only [attach, Ctx.add, h1, Bool.false_eq_true, if_false]
        exact ⟨⟨rfl, by simp [h2], .inl rfl⟩, R2, rfl, rfl, rfl⟩
      | map ms p =>
        cases p with
        | none => exact hp.elim
        | some q =>
          obtain ⟨h1, h2, h3, h4, h5⟩ := h
          injection h5 with h5; subst h5
          refine ⟨_, rfl, ?_⟩
          simp only [attach, Ctx.add, h1, if_true]
          exact ⟨⟨rfl, by simp [h2], by simp, h4⟩, R2, rfl, rfl, rfl⟩

/-- The call succeeds in both, or raises and the document can no longer be completed. -/
def Sim (x : Res RS) (y : Option Tree) : Prop :=
  (∃ s' t', x = .ok s' ∧ y = some t' ∧ Rel s' t') ∨
  (x = .err .logic ∧ (y = none ∨ ∃ t', y = some t' ∧ Doomed t'))

theorem push_sim (dbg : Bool) {s : RS} {t : Tree} (R : Rel s t) (v : Val) :
    Sim (push dbg s (toDom v)) (t.deliver v) := by
  rcases slot_sim dbg R with ⟨k, s', h1, h2, h3⟩ | ⟨h1, h2, _⟩
  · obtain ⟨t', h4, h5⟩ := attach_sim h2 v h3
    exact .inl ⟨_, t', by simp only [push, h1]; rfl, h4, h5⟩
  · exact .inr ⟨by simp only [push, h1]; rfl, .inl (h2 v)⟩

theorem open_sim (dbg isObj : Bool) {s : RS} {t : Tree} (R : Rel s t) :
    Sim (openC dbg isObj s)
      (some { t with stack := (if isObj then .map [] none else .arr []) :: t.stack }) := by
  rcases slot_sim dbg R with ⟨k, s', h1, h2, h3⟩ | ⟨h1, h2, h3⟩
  · refine .inl ⟨_, _, by simp only [openC, h1]; rfl, rfl, ?_⟩
    obtain ⟨g1, g2, g3, g4⟩ := h2
    refine ⟨?_, g1, g2, g3, g4⟩
    cases isObj
    · exact ⟨rfl, rfl, .inl rfl⟩
    · exact ⟨rfl, rfl, by simp, rfl⟩
  · exact .inr ⟨by simp only [openC, h1]; rfl, .inr ⟨_, rfl, h3 _⟩⟩

/-- A complete container returns to its place. -/
theorem pop_sim {root : Option Val} {wrote : Bool} {c : Ctx} {cs : List Ctx} {fs : List Frame}
    {r : Option Val} (h : RelStack c.key cs fs) (h1 : wrote = true) (h2 : root = none) (h3 : r = none)
    {v : Val} (hv : c.node = toDom v) :
    ∃ t', Tree.deliver ⟨fs, r⟩ v = some t' ∧ Rel (pop ⟨root, wrote, c :: cs⟩) t' := by
  have hp : match (Tree.mk fs r).stack with | .map _ none :: _ => False | _ => True := by
    clear hv
    cases fs with
    | nil => trivial
    | cons f fs =>
      cases cs with
      | nil => exact h.elim
      | cons c' cs =>
        cases f with
        | arr => trivial
        | map ms p =>
          cases p with
          | some => trivial
          | none => obtain ⟨⟨_, _, _, _, h⟩, _⟩ := h; cases h
  simp only [pop, hv]
  exact attach_sim (t := ⟨fs, r⟩) ⟨h, h1, h2, h3⟩ v hp

theorem endArr_sim {s : RS} {t : Tree} (R : Rel s t) : Sim (endArr s) (t.step .endArr) := by
  obtain ⟨root, wrote, st⟩ := s
  obtain ⟨stack, troot⟩ := t
  cases st with
  | nil =>
    cases stack with
    | cons f fs => exact R.elim
    | nil => exact .inr ⟨rfl, .inl rfl⟩
  | cons c cs =>
    cases stack with
    | nil => exact R.elim
    | cons f fs =>
      simp only [Rel] at R
      obtain ⟨R1, R2, R3, R4, R5⟩ := R
      cases f with
      | arr xs =>
        obtain ⟨h1, h2, _⟩ := R1
        obtain ⟨t', h3, h4⟩ := pop_sim R2 R3 R4 R5 (v := .arr xs)
          (by simp [Ctx.node, h1, h2, toDom, toDomList_eq])
        exact .inl ⟨_, t', by simp only [endArr, h1]; rfl, h3, h4⟩
      | map ms p =>
        obtain ⟨h1, _⟩ := R1
        exact .inr ⟨by simp [endArr, h1], .inl rfl⟩

theorem endMap_sim {s : RS} {t : Tree} (R : Rel s t) : Sim (endMap s) (t.step .endMap) := by
  obtain ⟨root, wrote, st⟩ := s
  obtain ⟨stack, troot⟩ := t
  cases st with
  | nil =>
    cases stack with
    | cons f fs => exact R.elim
    | nil => exact .inr ⟨rfl, .inl rfl⟩
  | cons c cs =>
    cases stack with
    | nil => exact R.elim
    | cons f fs =>
      simp only [Rel] at R
      obtain ⟨R1, R2, R3, R4, R5⟩ := R
      cases f with
      | arr xs =>
        obtain ⟨h1, _⟩ := R1
        exact .inr ⟨by simp [endMap, h1], .inl rfl⟩
      | map ms p =>
        obtain ⟨h1, h2, h3, h4⟩ := R1
        cases p with
        | none =>
          simp only [Option.getD_none] at h4
          obtain ⟨t', h5, h6⟩ := pop_sim R2 R3 R4 R5 (v := .map ms)
            (by simp [Ctx.node, h1, h2, toDom, toDomEntries_eq])
          exact .inl ⟨_, t', by simp only [endMap, h1, h4]; rfl, h5, h6⟩
        | some k =>
          simp only [Option.getD_some] at h4
          exact .inr ⟨by simp [endMap, h1, h4, (h3 k rfl).1], .inl rfl⟩

theorem key_sim {s : RS} {t : Tree} (R : Rel s t) {k : Bytes} (hk : KeyOk k) :
    Sim (key s k) (t.step (.key k)) := by
  obtain ⟨root, wrote, st⟩ := s
  obtain ⟨stack, troot⟩ := t
  cases st with
  | nil =>
    cases stack with
    | cons f fs => exact R.elim
    | nil => exact .inr ⟨rfl, .inl rfl⟩
  | cons c cs =>
    cases stack with
    | nil => exact R.elim
    | cons f fs =>
      simp only [Rel] at R
      obtain ⟨R1, R2, R3, R4, R5⟩ := R
      cases f with
      | arr xs =>
        obtain ⟨h1, _⟩ := R1
        exact .inr ⟨by simp [key, h1], .inl rfl⟩
      | map ms p =>
        obtain ⟨h1, h2, h3, h4⟩ := R1
        cases p with
        | none =>
          simp only [Option.getD_none] at h4
          refine .inl ⟨_, _, by simp only [key, h1, h4]; rfl, rfl, ?_⟩
          exact ⟨⟨rfl, h2, fun k' e => by injection e with e; exact e ▸ hk, rfl⟩, R2, R3, R4, R5⟩
        | some k' =>
          simp only [Option.getD_some] at h4
          exact .inr ⟨by simp [key, h1, h4, (h3 k' rfl).1], .inl rfl⟩

/-- `binary` pushes the array that stands for the blob. -/
theorem binary_eq (dbg : Bool) (s : RS) (b : Bytes) :
    binary dbg s b = push dbg s (toDom (.blob b)) := by
  unfold binary push
  cases h : slot dbg s with
  | ok x =>
    obtain ⟨k, s'⟩ := x
    simp only [openC, h, Res.ok_bind]
    rfl
  | _ => simp only [openC, h]; rfl

theorem step_sim (dbg : Bool) {s : RS} {t : Tree} (R : Rel s t) {e : Ev} (he : EvOk e) :
    Sim (step dbg s e) (t.step e) := by
  cases e with
  | null => exact push_sim dbg R .null
  | bool b => exact push_sim dbg R (.bool b)
  | int i => exact push_sim dbg R (.int i)
  | uint n => exact push_sim dbg R (.uint n)
  | dbl d => exact push_sim dbg R (.dbl d)
  | str x => exact push_sim dbg R (.str x)
  | blob b =>
    show Sim (binary dbg s b) (t.deliver (.blob b))
    rw [binary_eq]; exact push_sim dbg R (.blob b)
  | key k => exact key_sim R he
  | beginArr n => exact open_sim dbg false R
  | endArr => exact endArr_sim R
  | beginMap n => exact open_sim dbg true R
  | endMap => exact endMap_sim R

/-- Any sequence of calls with usable keys: it is accepted, and both machines agree, or it raises and
spells no document. -/
theorem run_sim (dbg : Bool) : ∀ (es : List Ev) {s : RS} {t : Tree}, Rel s t → (∀ e ∈ es, EvOk e) →
    (∃ s' t', (writer dbg).run s es = .ok s' ∧ t.run es = some t' ∧ Rel s' t') ∨
    ((writer dbg).run s es = .err .logic ∧ (t.run es).bind Tree.finish = none)
  | [], s, t, R, _ => .inl ⟨s, t, rfl, rfl, R⟩
  | e :: es, s, t, R, he => by
    simp only [Writer.run_cons, Tree.run, writer]
    rcases step_sim dbg R (he e (List.mem_cons_self ..)) with ⟨s', t', h1, h2, h3⟩ | ⟨h1, h2⟩
    · rw [h1, h2]
      simp only [Res.ok_bind, Option.bind_eq_bind, Option.bind_some]
      exact run_sim dbg es h3 (fun e' h => he e' (List.mem_cons_of_mem _ h))
    · rw [h1]
      refine .inr ⟨rfl, ?_⟩
      rcases h2 with h2 | ⟨t', h2, h3⟩
      · rw [h2]; rfl
      · rw [h2]; exact doomed_run h3 es

theorem rel_init : Rel {} {} := ⟨rfl, rfl⟩

/-- A closed document. -/
theorem rel_doc {s : RS} {t : Tree} (R : Rel s t) {v : Val} (h : t.finish = some v) :
    doc s = toDom v := by
  obtain ⟨root, wrote, st⟩ := s
  obtain ⟨stack, troot⟩ := t
  cases stack with
  | cons f fs => cases h
  | nil =>
    cases st with
    | cons c cs => exact R.elim
    | nil =>
      obtain ⟨h1, _⟩ := R
      simp only [Tree.finish, Option.some.injEq] at h
      simp only at h1
      subst h
      simp only [doc, List.length_nil, popN, h1]
      cases troot <;> rfl

end Zer.Json
