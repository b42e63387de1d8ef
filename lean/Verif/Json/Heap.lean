import Verif.Json.Model

/-!
# The JSON writer with its nodes and the caller's memory

Transcribed from json.hpp:236-387 without the two simplifications of `Json/Model.lean`: nodes of the yyjson document are
cells of a heap that point to each other, and a string node made by `yyjson_mut_strn` holds the caller's pointer and
length. The caller's memory is a map from allocations to bytes; it may change between calls.
-/

namespace Zer.Json.Heap

/-- A `std::string_view` (or span) into an allocation of the caller. A null view is not modelled. -/
structure Slice where
  a : Nat
  off : Nat
  len : Nat

/-- The caller's memory: allocations that are alive, with their bytes. -/
abbrev Mem := Nat → Option Bytes

/-- Reading through a view; an empty view is not dereferenced. -/
def Mem.read (m : Mem) (s : Slice) : Res Bytes :=
  if s.len = 0 then .ok []
  else match m s.a with
    | none => .ub
    | some b => sliceAt b s.off s.len

/-- `yyjson_mut_val`: `own` is made by `yyjson_mut_strncpy` (or points to `blobTag`, `blobEncoding`, which are never
destroyed), `ref` by `yyjson_mut_strn`. Keys of objects are made by `yyjson_mut_strcpy`, json.hpp:374. -/
inductive Node where
  | null
  | bool (b : Bool)
  | int (i : Int64)
  | uint (n : UInt64)
  | dbl (d : UInt64)
  | own (s : Bytes)
  | ref (s : Slice)
  | arr (kids : List Nat)
  | obj (kids : List (Bytes × Nat))

/-- `RootSerializer::Ctx`, json.hpp:241-245 -/
structure Ctx where
  isObj : Bool
  node : Nat
  pending : Bytes := []

/-- `RootSerializer`, json.hpp:236-246; `nodes` is the pool of `doc`. -/
structure RS where
  nodes : List Node := []
  root : Option Nat := none
  wrote : Bool := false
  st : List Ctx := []

/-- A new node of the document (`yyjson_mut_null`, ...); allocation does not fail. -/
def RS.new (s : RS) (n : Node) : RS := { s with nodes := s.nodes ++ [n] }

/-- `yyjson_mut_arr_add_val` and `yyjson_mut_obj_add` (`k` is used only there). -/
def addKid (k : Bytes) (v : Nat) : Node → Node
  | .arr ks => .arr (ks ++ [v])
  | .obj ks => .obj (ks ++ [(k, v)])
  | n => n

/-- `push_value`, json.hpp:338-381 -/
def pushValue (dbg : Bool) (s : RS) (v : Nat) : Res RS :=
  match s.st with
  | [] => if s.wrote then .err .logic else .ok { s with root := some v, wrote := true }
  | c :: cs =>
    if c.isObj then
      if c.pending = [] then .err .logic
      else if dbg = true ∧ (0 : UInt8) ∈ c.pending then .err .logic
      else .ok { s with nodes := s.nodes.modify c.node (addKid (cstr c.pending) v), st := { c with pending := [] } :: cs }
    else .ok { s with nodes := s.nodes.modify c.node (addKid [] v) }

/-- `push_value` of a new scalar node. -/
def push (dbg : Bool) (s : RS) (n : Node) : Res RS := pushValue dbg (s.new n) s.nodes.length

/-- `begin_array`, `begin_map`, json.hpp:303-308, 314-319 -/
def openC (dbg : Bool) (isObj : Bool) (s : RS) : Res RS := do
  let s' ← pushValue dbg (s.new (if isObj then .obj [] else .arr [])) s.nodes.length
  pure { s' with st := { isObj := isObj, node := s.nodes.length } :: s'.st }

/-- `end_array`, json.hpp:309-312 -/
def endArr (s : RS) : Res RS :=
  match s.st with
  | [] => .err .logic
  | c :: cs => if c.isObj then .err .logic else .ok { s with st := cs }

/-- `end_map`, json.hpp:320-325 -/
def endMap (s : RS) : Res RS :=
  match s.st with
  | [] => .err .logic
  | c :: cs => if c.isObj then if c.pending = [] then .ok { s with st := cs } else .err .logic else .err .logic

/-- `key`, json.hpp:327-333: `assign` copies. -/
def key (m : Mem) (s : RS) (k : Slice) : Res RS :=
  match s.st with
  | [] => .err .logic
  | c :: cs =>
    if c.isObj then
      if c.pending = [] then do
        let k ← m.read k
        pure { s with st := { c with pending := k } :: cs }
      else .err .logic
    else .err .logic

/-- `binary`, json.hpp:290-301 -/
def binary (dbg : Bool) (m : Mem) (s : RS) (b : Slice) : Res RS := do
  let b ← m.read b
  let t := Base64.encode b
  let s ← openC dbg false s
  let s ← push dbg s (.own blobTag)
  let s ← push dbg s (.own t)
  let s ← push dbg s (.own blobEncoding)
  endArr s

/-- A writer call with the views the caller passes. -/
inductive Call where
  | null
  | bool (b : Bool)
  | int (i : Int64)
  | uint (n : UInt64)
  | dbl (d : UInt64)
  | str (s : Slice)
  | blob (s : Slice)
  | key (k : Slice)
  | beginArr (n : Nat)
  | endArr
  | beginMap (n : Nat)
  | endMap

/-- One writer call, json.hpp:281-333. -/
def step (dbg : Bool) (m : Mem) (s : RS) : Call → Res RS
  | .null => push dbg s .null
  | .bool b => push dbg s (.bool b)
  | .int i => push dbg s (.int i)
  | .uint n => push dbg s (.uint n)
  | .dbl d => push dbg s (.dbl d)
  | .str t => push dbg s (.ref t)
  | .blob b => binary dbg m s b
  | .key k => key m s k
  | .beginArr _ => openC dbg false s
  | .endArr => endArr s
  | .beginMap _ => openC dbg true s
  | .endMap => endMap s

/-- A history: the caller's memory at each call, and the call. -/
def run (dbg : Bool) : RS → List (Mem × Call) → Res RS
  | s, [] => .ok s
  | s, (m, c) :: h => step dbg m s c >>= fun s' => run dbg s' h

def kids {α β : Type} (g : α → Res β) : List α → Res (List β)
  | [] => pure []
  | k :: ks => do
    let v ← g k
    let vs ← kids g ks
    pure (v :: vs)

/-- What `yyjson_mut_write` sees below a node; `rd` reads through the views at that time. -/
def tree (rd : Slice → Res Bytes) (N : List Node) : Nat → Nat → Res Val
  | 0, _ => .diverge
  | f + 1, i => match N[i]? with
    | none => .ub
    | some .null => pure .null
    | some (.bool b) => pure (.bool b)
    | some (.int i) => pure (.int i)
    | some (.uint n) => pure (.uint n)
    | some (.dbl d) => pure (.dbl d)
    | some (.own s) => pure (.str s)
    | some (.ref s) => do let s ← rd s; pure (.str s)
    | some (.arr ks) => do let vs ← kids (tree rd N f) ks; pure (.arr vs)
    | some (.obj ks) => do let ms ← kids (fun k => do let v ← tree rd N f k.2; pure (k.1, v)) ks; pure (.map ms)

/-- The document at `finish()`, json.hpp:253-256. -/
def doc (rd : Slice → Res Bytes) (s : RS) : Res Val :=
  match s.root with
  | none => pure .null
  | some i => tree rd s.nodes s.nodes.length i

/-- `finish`, json.hpp:252-272, with the memory at that time. -/
def finish (T : Text) (m : Mem) (s : RS) : Res Bytes := do
  let d ← doc m.read s
  match T.print d with
  | some b => .ok b
  | none => .err .runtime

end Zer.Json.Heap
