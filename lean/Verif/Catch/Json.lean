import Verif.Catch.Basic
import Verif.Json.Borrow

/-!
# The JSON writer when its exceptions are caught

Transcribed from json.hpp:281-387 with the state at a throw visible. The nodes made for a refused value stay in the
document's pool.
-/

namespace Zer.Json.Heap
open Exc (get put throw lift)

/-- A new node; allocation does not fail. -/
def newX (n : Node) : Exc RS Nat := do
  let s ← get
  put (s.new n)
  pure s.nodes.length

/-- `push_value`, json.hpp:338-381 -/
def pushValueX (dbg : Bool) (v : Nat) : Exc RS Unit := do
  let s ← get
  match s.st with
  | [] => if s.wrote then throw .logic else put { s with root := some v, wrote := true }
  | c :: cs =>
    if c.isObj then
      if c.pending = [] then throw .logic
      else if dbg = true ∧ (0 : UInt8) ∈ c.pending then throw .logic
      else do
        put { s with nodes := s.nodes.modify c.node (addKid (cstr c.pending) v) }
        let s ← get
        put { s with st := { c with pending := [] } :: cs }
    else put { s with nodes := s.nodes.modify c.node (addKid [] v) }

/-- A scalar, json.hpp:281-288 -/
def pushX (dbg : Bool) (n : Node) : Exc RS Unit := do
  let v ← newX n
  pushValueX dbg v

/-- `begin_array`, `begin_map`, json.hpp:303-308, 314-319 -/
def openX (dbg isObj : Bool) : Exc RS Unit := do
  let v ← newX (if isObj then .obj [] else .arr [])
  pushValueX dbg v
  let s ← get
  put { s with st := { isObj := isObj, node := v } :: s.st }

/-- `end_array`, json.hpp:309-312 -/
def endArrX : Exc RS Unit := do
  let s ← get
  match s.st with
  | [] => throw .logic
  | c :: cs => if c.isObj then throw .logic else put { s with st := cs }

/-- `end_map`, json.hpp:320-325 -/
def endMapX : Exc RS Unit := do
  let s ← get
  match s.st with
  | [] => throw .logic
  | c :: cs => if c.isObj then if c.pending = [] then put { s with st := cs } else throw .logic else throw .logic

/-- `key`, json.hpp:327-333 -/
def keyX (m : Mem) (k : Slice) : Exc RS Unit := do
  let s ← get
  match s.st with
  | [] => throw .logic
  | c :: cs =>
    if c.isObj then
      if c.pending = [] then do
        let k ← lift (m.read k)
        put { s with st := { c with pending := k } :: cs }
      else throw .logic
    else throw .logic

/-- `binary`, json.hpp:290-301 -/
def binaryX (dbg : Bool) (m : Mem) (b : Slice) : Exc RS Unit := do
  let b ← lift (m.read b)
  openX dbg false
  pushX dbg (.own blobTag)
  pushX dbg (.own (Base64.encode b))
  pushX dbg (.own blobEncoding)
  endArrX

/-- One writer call with the caller's memory at that time. -/
def callX (dbg : Bool) : Mem × Call → Exc RS Unit
  | (_, .null) => pushX dbg .null
  | (_, .bool b) => pushX dbg (.bool b)
  | (_, .int i) => pushX dbg (.int i)
  | (_, .uint n) => pushX dbg (.uint n)
  | (_, .dbl d) => pushX dbg (.dbl d)
  | (_, .str t) => pushX dbg (.ref t)
  | (m, .blob b) => binaryX dbg m b
  | (m, .key k) => keyX m k
  | (_, .beginArr _) => openX dbg false
  | (_, .endArr) => endArrX
  | (_, .beginMap _) => openX dbg true
  | (_, .endMap) => endMapX

/-- The outcome as in `step`; after an exception the state is as before, up to an unused node. -/
def Agree (s : RS) (x : Res Unit × RS) (y : Res RS) : Prop :=
  (∃ s', y = .ok s' ∧ x = (.ok (), s')) ∨ (∃ s', y = .err .logic ∧ x = (.err .logic, s') ∧ (s' = s ∨ ∃ n, s' = s.new n)) ∨
    (y = .ub ∧ x.1 = .ub)

theorem pushValueX_eq (dbg : Bool) (v : Nat) (s : RS) :
    (∃ s', pushValue dbg s v = .ok s' ∧ pushValueX dbg v s = (.ok (), s')) ∨
      (pushValue dbg s v = .err .logic ∧ pushValueX dbg v s = (.err .logic, s)) := by
  obtain ⟨nodes, root, wrote, st⟩ := s
  cases st with
  | nil =>
    cases wrote with
    | true => exact .inr ⟨rfl, rfl⟩
    | false => exact .inl ⟨_, rfl, rfl⟩
  | cons c cs =>
    cases hc : c.isObj with
    | false => exact .inl ⟨_, by simp [pushValue, hc]; rfl, by simp [pushValueX, Exc.bind_run, Exc.get_run, Exc.put_run, hc]⟩
    | true =>
      by_cases h1 : c.pending = []
      · right
        simp only [pushValue, pushValueX, Exc.bind_run, Exc.get_run, Exc.ite_run, Exc.throw_run, hc, if_true, if_pos h1, and_self]
      by_cases h2 : dbg = true ∧ (0 : UInt8) ∈ c.pending
      · right
        simp only [pushValue, pushValueX, Exc.bind_run, Exc.get_run, Exc.ite_run, Exc.throw_run, hc, if_true, if_neg h1, if_pos h2, and_self]
      · left
        exact ⟨⟨nodes.modify c.node (addKid (cstr c.pending) v), root, wrote, { c with pending := [] } :: cs⟩,
          by simp only [pushValue, hc, if_true, if_neg h1, if_neg h2],
          by simp only [pushValueX, Exc.bind_run, Exc.get_run, Exc.ite_run, Exc.put_run, hc, if_true, if_neg h1, if_neg h2]⟩

theorem pushX_agree (dbg : Bool) (n : Node) (s : RS) : Agree s (pushX dbg n s) (push dbg s n) := by
  simp only [pushX, newX, Exc.bind_run, Exc.get_run, Exc.put_run, Exc.pure_run, push]
  rcases pushValueX_eq dbg s.nodes.length (s.new n) with ⟨s', h1, h2⟩ | ⟨h1, h2⟩
  · exact .inl ⟨s', h1, h2⟩
  · exact .inr (.inl ⟨_, h1, h2, .inr ⟨n, rfl⟩⟩)

theorem openX_agree (dbg o : Bool) (s : RS) : Agree s (openX dbg o s) (openC dbg o s) := by
  simp only [openX, newX, Exc.bind_run, Exc.get_run, Exc.put_run, Exc.pure_run, openC]
  rcases pushValueX_eq dbg s.nodes.length (s.new (if o then .obj [] else .arr [])) with ⟨s', h1, h2⟩ | ⟨h1, h2⟩
  · exact .inl ⟨{ s' with st := { isObj := o, node := s.nodes.length } :: s'.st }, by rw [h1]; rfl, by rw [h2]⟩
  · exact .inr (.inl ⟨_, by rw [h1]; rfl, by rw [h2], .inr ⟨_, rfl⟩⟩)

theorem endArrX_agree (s : RS) : Agree s (endArrX s) (endArr s) := by
  obtain ⟨nodes, root, wrote, st⟩ := s
  cases st with
  | nil => exact .inr (.inl ⟨_, rfl, rfl, .inl rfl⟩)
  | cons c cs =>
    simp only [endArrX, endArr, Exc.bind_run, Exc.get_run, Exc.ite_run, Exc.throw_run, Exc.put_run]
    split
    · exact .inr (.inl ⟨_, rfl, rfl, .inl rfl⟩)
    · exact .inl ⟨_, rfl, rfl⟩

theorem endMapX_agree (s : RS) : Agree s (endMapX s) (endMap s) := by
  obtain ⟨nodes, root, wrote, st⟩ := s
  cases st with
  | nil => exact .inr (.inl ⟨_, rfl, rfl, .inl rfl⟩)
  | cons c cs =>
    simp only [endMapX, endMap, Exc.bind_run, Exc.get_run, Exc.ite_run, Exc.throw_run, Exc.put_run]
    split
    · split
      · exact .inl ⟨_, rfl, rfl⟩
      · exact .inr (.inl ⟨_, rfl, rfl, .inl rfl⟩)
    · exact .inr (.inl ⟨_, rfl, rfl, .inl rfl⟩)

theorem read_cases (m : Mem) (k : Slice) : (∃ b, m.read k = .ok b) ∨ m.read k = .ub := by
  unfold Mem.read
  split
  · exact .inl ⟨_, rfl⟩
  · split
    · exact .inr rfl
    · unfold sliceAt
      split
      · exact .inl ⟨_, rfl⟩
      · exact .inr rfl

theorem keyX_agree (m : Mem) (k : Slice) (s : RS) : Agree s (keyX m k s) (key m s k) := by
  obtain ⟨nodes, root, wrote, st⟩ := s
  cases st with
  | nil => exact .inr (.inl ⟨_, rfl, rfl, .inl rfl⟩)
  | cons c cs =>
    simp only [keyX, key, Exc.bind_run, Exc.get_run, Exc.ite_run, Exc.throw_run, Exc.put_run, Exc.lift_run]
    split
    · split
      · rcases read_cases m k with ⟨b, h⟩ | h
        · rw [h]; exact .inl ⟨_, rfl, rfl⟩
        · rw [h]; exact .inr (.inr ⟨rfl, rfl⟩)
      · exact .inr (.inl ⟨_, rfl, rfl, .inl rfl⟩)
    · exact .inr (.inl ⟨_, rfl, rfl, .inl rfl⟩)

/-- Once the array of a blob is open, its three strings are accepted. -/
theorem push_in_arr (dbg : Bool) (n : Node) {s : RS} {c : Ctx} {cs : List Ctx} (hs : s.st = c :: cs) (hc : c.isObj = false) :
    ∃ s', push dbg s n = .ok s' ∧ pushX dbg n s = (.ok (), s') ∧ s'.st = c :: cs := by
  refine ⟨_, by simp [push, pushValue, RS.new, hs, hc]; rfl, ?_, ?_⟩
  · simp [pushX, newX, pushValueX, RS.new, Exc.bind_run, Exc.get_run, Exc.put_run, Exc.pure_run, hs, hc]
  · rfl

theorem binaryX_agree (dbg : Bool) (m : Mem) (b : Slice) (s : RS) : Agree s (binaryX dbg m b s) (binary dbg m s b) := by
  simp only [binaryX, binary, Exc.bind_run, Exc.lift_run]
  rcases read_cases m b with ⟨t, h⟩ | h
  · rw [h]
    simp only [Res.ok_bind]
    rcases openX_agree dbg false s with ⟨s1, h1, h2⟩ | ⟨s1, h1, h2, h3⟩ | ⟨h1, h2⟩
    · rw [h1, h2]
      simp only [Res.ok_bind]
      have hst : ∃ c cs, s1.st = c :: cs ∧ c.isObj = false := by
        simp only [openC] at h1
        obtain ⟨s0, _, h0⟩ := Res.bind_eq_ok.1 h1
        cases h0
        exact ⟨_, _, rfl, rfl⟩
      obtain ⟨c, cs, hc1, hc2⟩ := hst
      obtain ⟨s2, a1, a2, a3⟩ := push_in_arr dbg (.own blobTag) hc1 hc2
      obtain ⟨s3, b1, b2, b3⟩ := push_in_arr dbg (.own (Base64.encode t)) a3 hc2
      obtain ⟨s4, c1, c2, c3⟩ := push_in_arr dbg (.own blobEncoding) b3 hc2
      rw [a1, a2]
      simp only [Res.ok_bind]
      rw [b1, b2]
      simp only [Res.ok_bind]
      rw [c1, c2]
      simp only [Res.ok_bind, endArrX, endArr, Exc.bind_run, Exc.get_run, Exc.ite_run, Exc.put_run, c3, hc2]
      exact .inl ⟨_, rfl, rfl⟩
    · rw [h1, h2]
      exact .inr (.inl ⟨s1, rfl, rfl, h3⟩)
    · simp only [openC] at h1
      rcases pushValueX_eq dbg s.nodes.length (s.new (if false = true then Node.obj [] else .arr [])) with ⟨s', k1, k2⟩ | ⟨k1, k2⟩
      · rw [k1] at h1; cases h1
      · rw [k1] at h1; cases h1
  · rw [h]; exact .inr (.inr ⟨rfl, rfl⟩)

theorem callX_agree (dbg : Bool) (m : Mem) (c : Call) (s : RS) : Agree s (callX dbg (m, c) s) (step dbg m s c) := by
  cases c with
  | null => exact pushX_agree _ _ _
  | bool b => exact pushX_agree _ _ _
  | int b => exact pushX_agree _ _ _
  | uint b => exact pushX_agree _ _ _
  | dbl b => exact pushX_agree _ _ _
  | str t => exact pushX_agree _ _ _
  | blob b => exact binaryX_agree _ _ _ _
  | key k => exact keyX_agree _ _ _
  | beginArr n => exact openX_agree _ _ _
  | endArr => exact endArrX_agree _
  | beginMap n => exact openX_agree _ _ _
  | endMap => exact endMapX_agree _

variable {rd : Slice → Res Bytes}

/-- A caller that catches has the document of the accepted calls. -/
theorem catching_match (dbg : Bool) : ∀ {h : List (Mem × Call)} {l : List ((Mem × Call) × Bool)} {es : List Ev} {s : Json.RS} {S S' : RS}
    {P : Nat → Prop}, Inv rd s S none P → catching (callX dbg) S h = .ok (l, S') → SaysAll rd (accepted l) es →
    ∃ s' P', (writer dbg).run s es = .ok s' ∧ Inv rd s' S' none P'
  | [], l, es, s, S, S', P, hI, hc, hs => by
    cases hc; cases hs
    exact ⟨s, P, rfl, hI⟩
  | (m, c) :: h, l, es, s, S, S', P, hI, hc, hs => by
    unfold catching at hc
    rcases callX_agree dbg m c S with ⟨S1, h1, h2⟩ | ⟨S1, h1, h2, h3⟩ | ⟨h1, h2⟩
    · rw [h2] at hc
      obtain ⟨⟨l', S2⟩, k1, k2⟩ := Res.bind_eq_ok.1 hc
      cases k2
      rw [accepted_true] at hs
      obtain ⟨e, es', e1, e2, rfl⟩ := hs
      rcases step_match hI dbg e1 with ⟨s1, S1', P1, m1, m2, m3⟩ | ⟨r, m1, m2⟩
      · rw [h1] at m2; cases m2
        obtain ⟨s', P', n1, n2⟩ := catching_match dbg m3 k1 e2
        exact ⟨s', P', by
          show Json.step dbg s e >>= _ = _
          rw [m1]; exact n1, n2⟩
      · rw [h1] at m2; cases m2
    · rw [h2] at hc
      obtain ⟨⟨l', S2⟩, k1, k2⟩ := Res.bind_eq_ok.1 hc
      cases k2
      rw [accepted_false] at hs
      have hI' : Inv rd s S1 none P := by
        rcases h3 with rfl | ⟨n, rfl⟩
        · exact hI
        · exact hI.new n
      exact catching_match dbg hI' k1 hs
    · generalize callX dbg (m, c) S = x at hc h2
      obtain ⟨x1, x2⟩ := x
      dsimp only at h2
      subst h2
      cases hc

end Zer.Json.Heap
