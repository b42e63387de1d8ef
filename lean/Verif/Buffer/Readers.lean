import Verif.Base

/-!
# Lifetimes of readers

The four binary readers hold a vector `owned_` and pointers into memory: MsgPack msgpack.hpp:111-113, 216-239
(`view_`), CBOR cbor.hpp:75-77, 209-227 (`buf_`), ZERA zera.hpp:137-143, 488-533 (`buf_`, `env_`, `arena_`, `vr_`),
Flex flex.hpp:113, 355-391 (`ref_`). None of them declares a copy or move constructor, assignment or destructor, so
these are member-wise. All pointers of one reader point into the same memory; the model keeps one of them.

The JSON reader (json.hpp:80-139) holds a document and a flag.
-/

namespace Zer.Life

/-- Where the pointers of a reader point: nowhere (default construction), memory of the caller, or the elements of a
vector inside some reader. -/
inductive Place where
  | nowhere
  | caller (b : Bytes)
  | block (n : Nat)
  deriving DecidableEq, Repr

structure Reader where
  own : Option Nat   -- the elements of `owned_`
  view : Place
  deriving DecidableEq, Repr

/-- Vector memory: contents in order of allocation, and which have been freed (readers never write to it). -/
structure State where
  objs : List (Option Reader) := []
  cells : List Bytes := []
  freed : List Nat := []
  deriving DecidableEq, Repr

/-- What a program does with readers. `child` is the result of `operator[]` or a sub-view: it points to the same memory
and owns nothing. -/
inductive Op where
  | dflt
  | overCaller (b : Bytes)
  | overVector (b : Bytes)
  | child (src : Nat)
  | copyNew (src : Nat)
  | moveNew (src : Nat)
  | copyTo (dst src : Nat)
  | moveTo (dst src : Nat)
  | destroy (i : Nat)
  deriving DecidableEq, Repr

def State.obj (s : State) (i : Nat) : Option Reader := (s.objs[i]?).join

/-- `std::vector` frees its elements. -/
def release (freed : List Nat) : Option Nat → List Nat
  | none => freed
  | some n => freed ++ [n]

/-- The elements of a copied vector: a new allocation with the same content. -/
def copyCells (s : State) (r : Reader) : Option Nat × List Bytes :=
  match r.own with
  | none => (none, s.cells)
  | some n => (some s.cells.length, s.cells ++ [(s.cells[n]?).getD []])

/-- One step; `none` if an object does not exist. Assigning an object to itself by move is not modelled; copy assignment
frees the old elements (an implementation may reuse the memory, which is worse for those who still point to it). -/
def step (s : State) : Op → Option State
  | .dflt => some { s with objs := s.objs ++ [some ⟨none, .nowhere⟩] }
  | .overCaller b => some { s with objs := s.objs ++ [some ⟨none, .caller b⟩] }
  | .overVector b => some { s with
      objs := s.objs ++ [some ⟨some s.cells.length, .block s.cells.length⟩], cells := s.cells ++ [b] }
  | .child src => (s.obj src).map fun r => { s with objs := s.objs ++ [some ⟨none, r.view⟩] }
  | .copyNew src => (s.obj src).map fun r =>
      { s with objs := s.objs ++ [some ⟨(copyCells s r).1, r.view⟩], cells := (copyCells s r).2 }
  | .moveNew src => (s.obj src).map fun r =>
      { s with objs := s.objs.set src (some ⟨none, r.view⟩) ++ [some r] }
  | .copyTo dst src =>
    if dst = src then (s.obj src).map fun _ => s
    else match s.obj dst, s.obj src with
      | some d, some r => some { objs := s.objs.set dst (some ⟨(copyCells s r).1, r.view⟩),
                                 cells := (copyCells s r).2, freed := release s.freed d.own }
      | _, _ => none
  | .moveTo dst src =>
    if dst = src then none
    else match s.obj dst, s.obj src with
      | some d, some r => some { s with objs := (s.objs.set dst (some r)).set src (some ⟨none, r.view⟩),
                                        freed := release s.freed d.own }
      | _, _ => none
  | .destroy i => (s.obj i).map fun r => { s with objs := s.objs.set i none, freed := release s.freed r.own }

def run : State → List Op → Option State
  | s, [] => some s
  | s, o :: os => (step s o).bind fun t => run t os

/-- The bytes a reader sees. -/
def State.read (s : State) (r : Reader) : Res Bytes :=
  match r.view with
  | .nowhere => pure []
  | .caller b => pure b
  | .block n => if n ∈ s.freed then .ub else match s.cells[n]? with
    | some b => pure b
    | none => .ub

/-! ## JSON -/

/-- `doc_`, `owns_doc_`; json.hpp:81-83 -/
structure JReader where
  doc : Option Nat
  owns : Bool
  deriving DecidableEq, Repr

structure JState where
  objs : List (Option JReader) := []
  docs : Nat := 0
  freed : List Nat := []
  deriving DecidableEq, Repr

/-- Construction from text (json.hpp:98-115) succeeds with a new document or raises; `view` is json.hpp:118-119 as used by
`operator[]` (203, 215); moves 128-139; destruction 122-124. -/
inductive JOp where
  | parse (success : Bool)
  | view (src : Nat)
  | moveNew (src : Nat)
  | moveTo (dst src : Nat)
  | destroy (i : Nat)
  deriving DecidableEq, Repr

def JState.obj (s : JState) (i : Nat) : Option JReader := (s.objs[i]?).join

/-- `if (owns_doc_ && doc_) yyjson_doc_free(doc_);` -/
def JReader.release (freed : List Nat) (r : JReader) : List Nat :=
  if r.owns then match r.doc with
    | some d => freed ++ [d]
    | none => freed
  else freed

/-- One step. A failed construction and a view of a moved-from reader raise and leave everything as it was (the number
of the object is used up). -/
def jstep (s : JState) : JOp → Option JState
  | .parse true => some { s with objs := s.objs ++ [some ⟨some s.docs, true⟩], docs := s.docs + 1 }
  | .parse false => some { s with objs := s.objs ++ [none] }
  | .view src => (s.obj src).map fun r => match r.doc with
    | some d => { s with objs := s.objs ++ [some ⟨some d, false⟩] }
    | none => { s with objs := s.objs ++ [none] }
  | .moveNew src => (s.obj src).map fun r =>
      { s with objs := s.objs.set src (some ⟨none, false⟩) ++ [some r] }
  | .moveTo dst src =>
    if dst = src then (s.obj src).map fun _ => s
    else match s.obj dst, s.obj src with
      | some d, some r => some { s with objs := (s.objs.set dst (some r)).set src (some ⟨none, false⟩),
                                        freed := d.release s.freed }
      | _, _ => none
  | .destroy i => (s.obj i).map fun r => { s with objs := s.objs.set i none, freed := r.release s.freed }

def jrun : JState → List JOp → Option JState
  | s, [] => some s
  | s, o :: os => (jstep s o).bind fun t => jrun t os

end Zer.Life
