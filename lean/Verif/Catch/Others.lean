import Verif.Catch.Json
import Verif.Flex.Model
import Verif.Cbor.Model
import Verif.MsgPack.Model

/-!
# The Flex writer when its exceptions are caught, and what `finish()` leaves behind
-/

namespace Zer.Flex
open Exc (get put throw lift)

/-- `ensure_in`, flex.hpp:97-100 -/
def ensureIn (isObj : Bool) : Exc RS Unit := do
  let s ← get
  match s.st with
  | [] => throw .logic
  | c :: _ => if c.1 = isObj then pure () else throw .logic

/-- One writer call, flex.hpp:51-94: `end_array` and `end_map` remove the entry of `st` before flexbuffers closes the
container. -/
def callX (L : Lib) (dbg : Bool) : Ev → Exc RS Unit
  | .null => do let s ← get; put (push s ⟨0, 0, 0⟩)
  | .bool b => do let s ← get; put (push s ⟨26, if b then 1 else 0, 0⟩)
  | .int i => do let s ← get; put (push s ⟨1, i.toUInt64.toNat, widthI i.toUInt64.toNat⟩)
  | .uint n => do let s ← get; put (push s ⟨2, n.toNat, widthU n.toNat⟩)
  | .dbl d => do let s ← get; put (push s ⟨3, d.toNat, widthF d.toNat⟩)
  | .str t => do let s ← get; put (pushBlob s (createBlob s.buf 5 t [0]))
  | .blob b => do let s ← get; put (pushBlob s (createBlob s.buf 25 b []))
  | .key k => do let s ← get; let s' ← lift (keyBytes s (k ++ [0])); put s'
  | .beginArr _ => do let s ← get; put (openC false s)
  | .beginMap _ => do let s ← get; put (openC true s)
  | .endArr => do
    ensureIn false
    let s ← get
    let start := (s.st.headD (false, 0)).2
    put { s with st := s.st.tail }
    let c := createVector s.buf (s.stack.drop start) (s.stack.drop start).length 1 false none
    put { s with buf := c.1, st := s.st.tail, stack := s.stack.take start ++ [c.2] }
  | .endMap => do
    ensureIn true
    let s ← get
    let start := (s.st.headD (false, 0)).2
    put { s with st := s.st.tail }
    let c ← lift (buildMap L dbg s.buf (s.stack.drop start))
    put { s with buf := c.1, st := s.st.tail, stack := s.stack.take start ++ [c.2] }

/-- An exception (not the end of the process) leaves the state as it was. -/
theorem callX_eq (L : Lib) (dbg : Bool) (e : Ev) (s : RS) :
    (∃ s', step L dbg s e = .ok s' ∧ callX L dbg e s = (.ok (), s')) ∨
    (step L dbg s e = .err .logic ∧ callX L dbg e s = (.err .logic, s)) ∨
    (step L dbg s e = .err .abort ∧ (callX L dbg e s).1 = .err .abort) ∨
    (step L dbg s e = .ub ∧ (callX L dbg e s).1 = .ub) := by
  have hc : ∀ b p, (∃ d, cstrAt b p = .ok d) ∨ cstrAt b p = .ub := by
    intro b p
    unfold cstrAt
    split
    · exact .inl ⟨_, rfl⟩
    · exact .inr rfl
  have hf : ∀ b n ps, (∃ d, findKey b n ps = .ok d) ∨ findKey b n ps = .ub := by
    intro b n ps
    induction ps with
    | nil => exact .inl ⟨_, rfl⟩
    | cons p ps ih =>
      unfold findKey
      rcases hc b p with ⟨x, h⟩ | h
      · rcases hc b n with ⟨y, h'⟩ | h'
        · simp only [h, h', Res.ok_bind]
          split
          · exact .inl ⟨_, rfl⟩
          · exact ih
        · rw [h, h']; exact .inr rfl
      · rw [h]; exact .inr rfl
  have hk : ∀ s k, (∃ d, keyBytes s k = .ok d) ∨ keyBytes s k = .ub := by
    intro s k
    unfold keyBytes createKey
    rcases hf (s.buf ++ k) s.buf.length s.pool with ⟨o, h⟩ | h
    · rw [h]
      cases o <;> exact .inl ⟨_, rfl⟩
    · rw [h]; exact .inr rfl
  have hs : ∀ b ps, (∃ d, keyStrings b ps = .ok d) ∨ keyStrings b ps = .ub := by
    intro b ps
    induction ps with
    | nil => exact .inl ⟨_, rfl⟩
    | cons p ps ih =>
      unfold keyStrings
      rcases hc b p.1.u with ⟨x, h⟩ | h
      · rcases ih with ⟨y, h'⟩ | h'
        · rw [h, h']; exact .inl ⟨_, rfl⟩
        · rw [h, h']; exact .inr rfl
      · rw [h]; exact .inr rfl
  have hb : ∀ b ds, (∃ d, buildMap L dbg b ds = .ok d) ∨ buildMap L dbg b ds = .err .abort ∨ buildMap L dbg b ds = .ub := by
    intro b ds
    unfold buildMap
    split
    · exact .inr (.inl rfl)
    · unfold sortPairs
      split
      · exact .inl ⟨_, rfl⟩
      · rcases hs b (pairs ds) with ⟨x, h⟩ | h
        · rw [h]; exact .inl ⟨_, rfl⟩
        · rw [h]; exact .inr (.inr rfl)
  obtain ⟨buf, stack, pool, wrote, st⟩ := s
  cases e with
  | endArr =>
    cases st with
    | nil => exact .inr (.inl ⟨rfl, rfl⟩)
    | cons c cs =>
      obtain ⟨o, start⟩ := c
      cases o with
      | true => exact .inr (.inl ⟨rfl, rfl⟩)
      | false => exact .inl ⟨_, rfl, rfl⟩
  | endMap =>
    cases st with
    | nil => exact .inr (.inl ⟨rfl, rfl⟩)
    | cons c cs =>
      obtain ⟨o, start⟩ := c
      cases o with
      | false => exact .inr (.inl ⟨rfl, rfl⟩)
      | true =>
        simp only [callX, step, endMap, ensureIn, Exc.bind_run, Exc.get_run, if_true, Exc.pure_run, Exc.put_run, Exc.lift_run,
          List.headD_cons, List.tail_cons]
        rcases hb buf (stack.drop start) with ⟨d, h⟩ | h | h
        · rw [h]; exact .inl ⟨_, rfl, rfl⟩
        · rw [h]; exact .inr (.inr (.inl ⟨rfl, rfl⟩))
        · rw [h]; exact .inr (.inr (.inr ⟨rfl, rfl⟩))
  | key k =>
    simp only [callX, step, Exc.bind_run, Exc.get_run, Exc.put_run, Exc.lift_run]
    rcases hk ⟨buf, stack, pool, wrote, st⟩ (k ++ [0]) with ⟨d, h⟩ | h
    · rw [h]; exact .inl ⟨_, rfl, rfl⟩
    · rw [h]; exact .inr (.inr (.inr ⟨rfl, rfl⟩))
  | _ => exact .inl ⟨_, rfl, rfl⟩

theorem catching_run (L : Lib) (dbg : Bool) : ∀ {es : List Ev} {l : List (Ev × Bool)} {s s' : RS},
    catching (callX L dbg) s es = .ok (l, s') → (writer L dbg).run s (accepted l) = .ok s'
  | [], _, _, _, h => by cases h; rfl
  | e :: es, l, s, s', h => by
    unfold catching at h
    rcases callX_eq L dbg e s with ⟨s1, h1, h2⟩ | ⟨h1, h2⟩ | ⟨h1, h2⟩ | ⟨h1, h2⟩
    · rw [h2] at h
      obtain ⟨⟨l', s2⟩, k1, k2⟩ := Res.bind_eq_ok.1 h
      cases k2
      show (step L dbg s e >>= _) = _
      rw [h1]
      exact catching_run L dbg k1
    · rw [h2] at h
      obtain ⟨⟨l', s2⟩, k1, k2⟩ := Res.bind_eq_ok.1 h
      cases k2
      rw [accepted_false]
      exact catching_run L dbg k1
    all_goals
      generalize callX L dbg e s = x at h h2
      obtain ⟨x1, x2⟩ := x
      dsimp only at h2
      subst h2
      cases h

/-- `RootSerializer` around `finish()`: `finished_` and whether the vector of the builder has been taken. Calls after
`finish()` are not modelled. -/
structure Done where
  rs : RS
  finished : Bool := false

/-- `finish`, flex.hpp:33-43: the builder's vector is moved out; the second time it is empty (and `finished_` is set, so
that nothing is written again). -/
def finishX (dbg : Bool) : Exc Done Bytes := do
  let s ← get
  if s.finished then pure []
  else do
    let b ← lift (finish dbg s.rs)
    put { s with finished := true }
    pure b

end Zer.Flex

namespace Zer.MsgPack
open Exc (get put throw lift)

/-- One writer call; never refused. -/
def callX (e : Ev) : Exc Bytes Unit := do
  let s ← get
  put (s ++ packEv e)

/-- `finish`, msgpack.hpp:508-515: the buffer is taken out of `sbuf`. -/
def finishX : Exc Bytes Bytes := do
  let s ← get
  put []
  pure s

/-- The calls between the `finish()`s, in order; the calls after the last one are dropped. -/
def segments : List Op → List Ev → List (List Ev)
  | [], _ => []
  | .call e :: os, cur => segments os (cur ++ [e])
  | .finish :: os, cur => cur :: segments os []

end Zer.MsgPack

namespace Zer.Cbor
open Exc (get put throw lift)

/-- `finish`, cbor.hpp:38-44: `out_` is moved out and thereby empty; `wrote_root` stays. -/
def finishX : Exc WS Bytes := do
  let s ← get
  if s.wrote then pure ()
  else put { s with out := s.out ++ [0xf6], stack := bump s.stack, wrote := true }
  let s ← get
  put { s with out := [] }
  pure s.out

end Zer.Cbor

namespace Zer.Json
open Exc (get put throw lift)

/-- `RootSerializer` with its document: `doc == nullptr` after `finish()`. -/
structure Live where
  rs : RS := {}
  doc : Bool := true

/-- The calls that make a node of the document. -/
def usesDoc : Ev → Bool
  | .key _ => false
  | .endArr => false
  | .endMap => false
  | _ => true

/-- One writer call. Without document every `yyjson_mut_*` constructor returns NULL and the call throws
`std::bad_alloc` before the state is touched; `key`, `end_array`, `end_map` do not use the document. -/
def callX (dbg : Bool) (e : Ev) : Exc Live Unit := fun s =>
  if usesDoc e && !s.doc then (.err .badAlloc, s)
  else match step dbg s.rs e with
    | .ok r => (.ok (), { s with rs := r })
    | .err x => (.err x, s)
    | .ub => (.ub, s)
    | .diverge => (.diverge, s)

/-- `finish`, json.hpp:252-272: the document is freed and forgotten whether or not it could be written;
`yyjson_mut_write` of no document returns NULL. -/
def finishX (T : Text) : Exc Live Bytes := do
  let s ← get
  if s.doc then do
    put { s with doc := false }
    lift (finish T s.rs)
  else throw .runtime

end Zer.Json
