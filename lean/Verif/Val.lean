import Verif.Base

/-!
# Specification layer: values, writer calls, the meaning of a call sequence

Nothing here depends on a protocol. `Val` is the value model shared by all protocols,
`Ev` is the `Writer` concept, `Tree` says which value a sequence of writer calls denotes.
-/

namespace Zer

/-- The value model of the library (`dyn::Value` alternatives, `include/zerialize/dynamic.hpp`
lines 105-172). Doubles are 64-bit patterns. Strings, keys and blobs are byte strings. A map is
a list of entries in insertion order and may repeat keys. -/
inductive Val where
  | null
  | bool (b : Bool)
  | int (i : Int64)
  | uint (n : UInt64)
  | dbl (bits : UInt64)
  | str (s : Bytes)
  | blob (s : Bytes)
  | arr (xs : List Val)
  | map (ms : List (Bytes × Val))

namespace Val

/-- Structural induction over values. -/
theorem ind {P : Val → Prop}
    (null : P .null) (bool : ∀ b, P (.bool b)) (int : ∀ i, P (.int i)) (uint : ∀ n, P (.uint n))
    (dbl : ∀ d, P (.dbl d)) (str : ∀ s, P (.str s)) (blob : ∀ s, P (.blob s))
    (arr : ∀ xs, (∀ x ∈ xs, P x) → P (.arr xs))
    (map : ∀ ms : List (Bytes × Val), (∀ m ∈ ms, P m.2) → P (.map ms)) : ∀ v, P v
  | .null => null
  | .bool b => bool b
  | .int i => int i
  | .uint n => uint n
  | .dbl d => dbl d
  | .str s => str s
  | .blob s => blob s
  | .arr xs => arr xs (fun x _ => ind null bool int uint dbl str blob arr map x)
  | .map ms => map ms (fun m _ => ind null bool int uint dbl str blob arr map m.2)
termination_by v => sizeOf v
decreasing_by
  all_goals simp_wf
  · rename_i h; have := List.sizeOf_lt_of_mem h; omega
  · rename_i h
    have := List.sizeOf_lt_of_mem h
    obtain ⟨k, v⟩ := m
    simp at this ⊢
    omega

end Val

/-- Calls of the `Writer` concept (`include/zerialize/concepts.hpp`); all serializers are driven
through these. `beginArr`/`beginMap` carry the announced size. -/
inductive Ev where
  | null
  | bool (b : Bool)
  | int (i : Int64)
  | uint (n : UInt64)
  | dbl (bits : UInt64)
  | str (s : Bytes)
  | blob (s : Bytes)
  | key (k : Bytes)
  | beginArr (n : Nat)
  | endArr
  | beginMap (n : Nat)
  | endMap
  deriving DecidableEq, Repr

mutual
/-- The writer calls that spell a value: scalars are one call, an array is
`begin_array(n)`, its elements, `end_array()`, a map is `begin_map(n)`, alternating
`key(k)` and value, `end_map()`. -/
def emit : Val → List Ev
  | .null => [.null]
  | .bool b => [.bool b]
  | .int i => [.int i]
  | .uint n => [.uint n]
  | .dbl d => [.dbl d]
  | .str s => [.str s]
  | .blob s => [.blob s]
  | .arr xs => .beginArr xs.length :: (emitList xs ++ [.endArr])
  | .map ms => .beginMap ms.length :: (emitEntries ms ++ [.endMap])
def emitList : List Val → List Ev
  | [] => []
  | x :: xs => emit x ++ emitList xs
def emitEntries : List (Bytes × Val) → List Ev
  | [] => []
  | (k, v) :: ms => .key k :: (emit v ++ emitEntries ms)
end

/-- A protocol's writer: a step per call. -/
structure Writer (σ : Type) where
  step : σ → Ev → Res σ

namespace Writer
variable {σ : Type}

/-- Feed a sequence of calls; the first exception ends it. -/
def run (W : Writer σ) : σ → List Ev → Res σ
  | s, [] => .ok s
  | s, e :: es => W.step s e >>= fun s' => run W s' es

@[simp] theorem run_nil (W : Writer σ) (s : σ) : W.run s [] = .ok s := rfl
@[simp] theorem run_cons (W : Writer σ) (s : σ) (e : Ev) (es : List Ev) :
    W.run s (e :: es) = (W.step s e >>= fun s' => W.run s' es) := rfl

theorem run_append (W : Writer σ) (s : σ) (es fs : List Ev) :
    W.run s (es ++ fs) = (W.run s es >>= fun s' => W.run s' fs) := by
  induction es generalizing s with
  | nil => simp
  | cons e es ih =>
    simp only [List.cons_append, run_cons, bind_assoc]
    congr 1; funext s'; exact ih s'

end Writer

/-! ## The meaning of a call sequence -/

/-- An open container: the children seen so far and, for a map, a key that waits for its value. -/
inductive Frame where
  | arr (xs : List Val)
  | map (ms : List (Bytes × Val)) (pending : Option Bytes)

/-- State of the abstract document builder: open containers (innermost first) and the root. -/
structure Tree where
  stack : List Frame := []
  root : Option Val := none

namespace Tree

/-- A value has been completed: it becomes the root, the next array element, or the value of
the pending key. A second root or a map value without key is malformed. -/
def deliver (t : Tree) (v : Val) : Option Tree :=
  match t.stack with
  | [] => match t.root with
    | none => some { t with root := some v }
    | some _ => none
  | .arr xs :: st => some { t with stack := .arr (xs ++ [v]) :: st }
  | .map ms (some k) :: st => some { t with stack := .map (ms ++ [(k, v)]) none :: st }
  | .map _ none :: _ => none

/-- Effect of one writer call; `none` means the sequence is malformed. The announced sizes are
ignored. -/
def step (t : Tree) : Ev → Option Tree
  | .null => t.deliver .null
  | .bool b => t.deliver (.bool b)
  | .int i => t.deliver (.int i)
  | .uint n => t.deliver (.uint n)
  | .dbl d => t.deliver (.dbl d)
  | .str s => t.deliver (.str s)
  | .blob s => t.deliver (.blob s)
  | .key k => match t.stack with
    | .map ms none :: st => some { t with stack := .map ms (some k) :: st }
    | _ => none
  | .beginArr _ => some { t with stack := .arr [] :: t.stack }
  | .beginMap _ => some { t with stack := .map [] none :: t.stack }
  | .endArr => match t.stack with
    | .arr xs :: st => deliver { t with stack := st } (.arr xs)
    | _ => none
  | .endMap => match t.stack with
    | .map ms none :: st => deliver { t with stack := st } (.map ms)
    | _ => none

/-- Effect of a call sequence. -/
def run : Tree → List Ev → Option Tree
  | t, [] => some t
  | t, e :: es => t.step e >>= fun t' => t'.run es

/-- The value denoted by a complete call sequence; no call at all denotes null, an open
container is malformed. -/
def finish (t : Tree) : Option Val :=
  match t.stack with
  | [] => some (t.root.getD .null)
  | _ :: _ => none

/-- The value spelled by a call sequence, if it is well-formed. -/
def eval (es : List Ev) : Option Val := (run {} es).bind finish

theorem run_append (t : Tree) (es fs : List Ev) :
    t.run (es ++ fs) = (t.run es).bind (fun t' => t'.run fs) := by
  induction es generalizing t with
  | nil => simp [run]
  | cons e es ih =>
    simp only [List.cons_append, run]
    cases h : t.step e with
    | none => simp
    | some t' => simp [ih]

mutual
/-- The calls of a value deliver that value. -/
theorem run_emit (t : Tree) : ∀ v : Val, t.run (emit v) = t.deliver v
  | .null => by simp [emit, run, step]
  | .bool b => by simp [emit, run, step]
  | .int i => by simp [emit, run, step]
  | .uint n => by simp [emit, run, step]
  | .dbl d => by simp [emit, run, step]
  | .str s => by simp [emit, run, step]
  | .blob s => by simp [emit, run, step]
  | .arr xs => by
      simp only [emit, run, step, Option.bind_eq_bind, Option.bind_some, run_append]
      rw [run_emitList]
      simp [run, step]
  | .map ms => by
      simp only [emit, run, step, Option.bind_eq_bind, Option.bind_some, run_append]
      rw [run_emitEntries]
      simp [run, step]
theorem run_emitList (st : List Frame) (r : Option Val) (acc : List Val) : ∀ xs : List Val,
    run ⟨.arr acc :: st, r⟩ (emitList xs) = some ⟨.arr (acc ++ xs) :: st, r⟩
  | [] => by simp [emitList, run]
  | x :: xs => by
      simp only [emitList, run_append, run_emit, deliver, Option.bind_some]
      rw [run_emitList]; simp
theorem run_emitEntries (st : List Frame) (r : Option Val) (acc : List (Bytes × Val)) :
    ∀ ms : List (Bytes × Val),
    run ⟨.map acc none :: st, r⟩ (emitEntries ms) = some ⟨.map (acc ++ ms) none :: st, r⟩
  | [] => by simp [emitEntries, run]
  | (k, v) :: ms => by
      simp only [emitEntries, run, step, Option.bind_eq_bind, Option.bind_some, run_append,
        run_emit, deliver]
      rw [run_emitEntries]; simp
end

/-- `emit` and `eval` are inverse: the calls of a value spell that value. -/
theorem eval_emit (v : Val) : eval (emit v) = some v := by
  simp [eval, run_emit, deliver, finish]

end Tree
end Zer
