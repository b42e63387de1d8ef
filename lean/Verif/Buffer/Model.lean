import Verif.Base

/-!
# `ZBuffer`: ownership, observers, hexdump (zbuffer.hpp)

Allocations and deleters are named by numbers. A deleter call is an entry `(deleter, allocation)` in a log.
-/

namespace Zer.Buf

/-- `std::function<void(uint8_t*)>` in `ManagedPtr`, zbuffer.hpp:90. `empty` is a null function; `wrap` is the
lambda of the `char*` and `void*` constructors (zbuffer.hpp:135-139, 146-150) around a function that may be null. -/
inductive Deleter where
  | empty
  | fn (id : Nat)
  | wrap (inner : Option Nat)
  deriving DecidableEq, Repr

/-- The user's function, if there is one. -/
def Deleter.target : Deleter → Option Nat
  | .empty => none
  | .fn d => some d
  | .wrap d => d

/-- `ManagedPtr`, zbuffer.hpp:87-98 -/
structure Managed where
  ptr : Option Nat
  count : Nat
  del : Deleter
  deriving DecidableEq, Repr

/-- `storage_`, zbuffer.hpp:101. The memory of a vector is managed by the vector. -/
inductive Storage where
  | vec (b : Bytes)
  | managed (m : Managed)
  deriving DecidableEq, Repr

abbrev Log := List (Nat × Nat)

/-- Destruction of the storage. `unique_ptr` calls its deleter if the pointer is not null; calling an empty
`std::function` throws `bad_function_call`, and an exception that leaves a destructor ends the program (`none`). -/
def Storage.destroy (log : Log) : Storage → Option Log
  | .vec _ => some log
  | .managed m => match m.ptr with
    | none => some log
    | some p => match m.del.target with
      | some d => some (log ++ [(d, p)])
      | none => none

/-- What a moved-from storage looks like: vectors are empty; `unique_ptr` is null, its function empty; `count`
is a `size_t` and keeps its value (the moves are defaulted). -/
def Storage.movedFrom : Storage → Storage
  | .vec _ => .vec []
  | .managed m => .managed ⟨none, m.count, .empty⟩

/-! ## Histories -/

/-- Which constructor, zbuffer.hpp:117, 130, 144. -/
inductive Kind where
  | bytes | chars | void
  deriving DecidableEq, Repr

/-- What a program does with buffers. Objects are numbered in the order of their construction. -/
inductive Op where
  | dflt
  | fromVec (b : Bytes)
  | adopt (k : Kind) (p : Option Nat) (n : Nat) (d : Option Nat)
  | moveNew (src : Nat)
  | moveTo (dst src : Nat)
  | destroy (i : Nat)
  deriving DecidableEq, Repr

structure State where
  objs : List (Option Storage) := []
  log : Log := []
  deriving DecidableEq, Repr

/-- The result of a step: done; an exception reached the caller; the program was ended; the step names no
object (or moves an object to itself, which is not modelled). -/
inductive Out where
  | done (s : State)
  | threw (s : State)
  | terminated
  | invalid
  deriving DecidableEq, Repr

def State.obj (s : State) (i : Nat) : Option Storage := (s.objs[i]?).join

/-- The deleter that the constructors store. -/
def Kind.deleter : Kind → Option Nat → Deleter
  | .bytes, none => .empty
  | .bytes, some d => .fn d
  | _, d => .wrap d

/-- The constructors, zbuffer.hpp:117-151: the storage is built, then checked. If a check throws, the storage
is destroyed during unwinding. The constructed object gets the next number; a failed construction uses up the
number too. -/
def adopt (s : State) (k : Kind) (p : Option Nat) (n : Nat) (d : Option Nat) : Out :=
  let m : Managed := ⟨p, n, k.deleter d⟩
  if n > 0 ∧ p = none ∨ m.del = .empty then
    match (Storage.managed m).destroy s.log with
    | some log => .threw ⟨s.objs ++ [none], log⟩
    | none => .terminated
  else .done ⟨s.objs ++ [some (.managed m)], s.log⟩

/-- Move assignment, zbuffer.hpp:159, for `dst ≠ src`: `std::variant` assigns the alternative if both hold the
same one, and destroys and constructs otherwise. `unique_ptr::operator=` calls the old deleter on the old
pointer, then takes over the deleter; the effect on the log is that of destroying the old storage. -/
def moveTo (s : State) (dst src : Nat) (old new : Storage) : Out :=
  match old.destroy s.log with
  | some log => .done ⟨(s.objs.set dst (some new)).set src (some new.movedFrom), log⟩
  | none => .terminated

def step (s : State) : Op → Out
  | .dflt => .done ⟨s.objs ++ [some (.vec [])], s.log⟩
  | .fromVec b => .done ⟨s.objs ++ [some (.vec b)], s.log⟩
  | .adopt k p n d => adopt s k p n d
  | .moveNew src => match s.obj src with
    | some x => .done ⟨s.objs.set src (some x.movedFrom) ++ [some x], s.log⟩
    | none => .invalid
  | .moveTo dst src =>
    if dst = src then .invalid
    else match s.obj dst, s.obj src with
      | some old, some new => moveTo s dst src old new
      | _, _ => .invalid
  | .destroy i => match s.obj i with
    | some x => match x.destroy s.log with
      | some log => .done ⟨s.objs.set i none, log⟩
      | none => .terminated
    | none => .invalid

/-- A history: the caller catches every exception. -/
def run : State → List Op → Out
  | s, [] => .done s
  | s, o :: os => match step s o with
    | .done s' => run s' os
    | .threw s' => run s' os
    | .terminated => .terminated
    | .invalid => .invalid

/-! ## Observers -/

/-- `size()`, zbuffer.hpp:164-175 -/
def Storage.size : Storage → Nat
  | .vec b => b.length
  | .managed m => m.count

/-- `owned()`, zbuffer.hpp:177-179 -/
def Storage.owned : Storage → Bool
  | .vec _ => true
  | .managed _ => false

/-- What `data()` points to, zbuffer.hpp:181-192: the elements of the vector (null or not if there are none), an
adopted allocation, or null. -/
inductive Target where
  | elems (b : Bytes)
  | alloc (p : Nat)
  | null
  deriving DecidableEq, Repr

def Storage.data : Storage → Target
  | .vec b => .elems b
  | .managed m => match m.ptr with
    | some p => .alloc p
    | none => .null

/-- Memory of the adopted allocations. -/
abbrev Mem := Nat → Bytes

/-- Reading `n` bytes through a pointer. -/
def Target.read (mem : Mem) (n : Nat) : Target → Res Bytes
  | .elems b => sliceAt b 0 n
  | .alloc p => sliceAt (mem p) 0 n
  | .null => if n = 0 then pure [] else .ub

/-- Reading all of `buf()`, zbuffer.hpp:198-200. -/
def Storage.readBuf (mem : Mem) (x : Storage) : Res Bytes := x.data.read mem x.size

/-- `to_vector_copy`, zbuffer.hpp:225-235, and `to_debug_string`, 209-222: nothing if the pointer is null or the
size is zero. -/
def Storage.copyOut (mem : Mem) (x : Storage) : Res Bytes :=
  if x.data = .null ∨ x.size = 0 then pure [] else x.data.read mem x.size

/-! ## Hexdump, zbuffer.hpp:239-280 -/

/-- A lowercase hexadecimal digit. -/
def hexDigit (n : Nat) : UInt8 := if n < 10 then UInt8.ofNat (48 + n) else UInt8.ofNat (87 + n)

/-- Digits of a number, most significant first, none for 0. -/
def hexDigits (n : Nat) : Bytes := if h : n = 0 then [] else hexDigits (n / 16) ++ [hexDigit (n % 16)]
termination_by n
decreasing_by omega

/-- `os << std::setw(w) << std::setfill('0') << std::hex << n` -/
def hexNum (w n : Nat) : Bytes :=
  let d := if n = 0 then [0x30] else hexDigits n
  List.replicate (w - d.length) 0x30 ++ d

/-- One place of the hex column: the bytes of the row from place `j` on, zbuffer.hpp:256-264. -/
def hexPlace (j : Nat) : Option UInt8 → Bytes
  | some c => hexNum 2 c.toNat ++ [0x20] ++ (if j = 7 then [0x20] else [])
  | none => [0x20, 0x20, 0x20] ++ (if j = 7 then [0x20] else [])

/-- `for (j = 0; j < bytes_per_row; ++j)`, zbuffer.hpp:256-264; `k` places are left. -/
def hexLoop (p : Bytes) (i : Nat) : (j k : Nat) → Bytes
  | _, 0 => []
  | j, k + 1 => hexPlace j (if i + j < p.length then p[i + j]? else none) ++ hexLoop p i (j + 1) k

/-- The ASCII column, zbuffer.hpp:267-271. `isprint` is `std::isprint` of the current C locale. -/
def asciiLoop (isprint : UInt8 → Bool) (p : Bytes) (i : Nat) : (j k : Nat) → Bytes
  | _, 0 => []
  | j, k + 1 => match (if i + j < p.length then p[i + j]? else none) with
    | some c => (if isprint c then c else 0x2e) :: asciiLoop isprint p i (j + 1) k
    | none => []

/-- `for (i = 0; i < n; i += bytes_per_row)`, zbuffer.hpp:251-273. `size_t` additions wrap. -/
def hexRows (isprint : UInt8 → Bool) (p : Bytes) (row : Nat) : (fuel i : Nat) → Res Bytes
  | 0, _ => .diverge
  | f + 1, i =>
    if i < p.length then do
      let rest ← hexRows isprint p row f ((i + row) % 2 ^ 64)
      pure (hexNum 8 i ++ [0x20, 0x20] ++ hexLoop p i 0 row ++ [0x20, 0x7c] ++ asciiLoop isprint p i 0 row ++
        [0x7c, 0x0a] ++ rest)
    else pure []

/-- "(empty)\n" -/
def emptyText : Bytes := [0x28, 0x65, 0x6d, 0x70, 0x74, 0x79, 0x29, 0x0a]

/-- `hexdump` of the bytes behind `data()`, if it is not null. -/
def hexdump (isprint : UInt8 → Bool) (fuel row : Nat) (p : Bytes) : Res Bytes :=
  if p.length = 0 then pure emptyText else hexRows isprint p row fuel 0

end Zer.Buf
