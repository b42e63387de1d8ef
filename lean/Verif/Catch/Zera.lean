import Verif.Catch.Basic
import Verif.Zera.Sim

/-!
# The ZERA writer when its exceptions are caught

Transcribed again from zera.hpp:659-812, statement by statement, so that the state at a throw is visible. `arena_alloc`
and the copy into the arena are separate here.
-/

namespace Zer.Zera
open Exc (get put throw lift)

/-- `append_env_payload`, zera.hpp:659-664 -/
def appendEnvX (bytes : Bytes) : Exc RS Nat := do
  let s ← get
  if s.env.length > u32max then throw .ser
  else do
    put { s with env := s.env ++ bytes }
    pure (u32 s.env.length)

/-- `arena_alloc`, zera.hpp:666-675: the arena has grown when the checks throw. -/
def arenaAllocX (len align : Nat) : Exc RS Nat := do
  let s ← get
  let arena1 := s.arena ++ List.replicate (alignUp s.arena.length (max 1 align) - s.arena.length) 0
  put { s with arena := arena1 ++ List.replicate len 0 }
  if arena1.length > u32max then throw .ser
  else if len > u32max then throw .ser
  else pure (u32 arena1.length)

/-- `std::memcpy` into the arena, zera.hpp:751, 758. -/
def arenaCopyX (ofs : Nat) (b : Bytes) : Exc RS Unit := do
  let s ← get
  if b = [] then pure ()
  else if ofs + b.length ≤ s.arena.length then
    put { s with arena := s.arena.take ofs ++ b ++ s.arena.drop (ofs + b.length) }
  else lift .ub

/-- `write_root_vr`, zera.hpp:684-687 -/
def writeRootX (vr : Bytes) : Exc RS Unit := do
  let s ← get
  match s.root with
  | some _ => throw .ser
  | none => do
    let ofs ← appendEnvX vr
    let s ← get
    put { s with root := some ofs }

/-- `deliver_vr`, zera.hpp:689-707 -/
def deliverX (vr : Bytes) : Exc RS Unit := do
  let s ← get
  match s.st with
  | [] => writeRootX vr
  | .arr p n :: st => put { s with st := .arr (p ++ vr) (u32 (n + 1)) :: st }
  | .map _ _ none :: _ => throw .ser
  | .map p n (some pos) :: st =>
    if pos + 16 > p.length then throw .ser
    else put { s with st := .map (p.take pos ++ vr ++ p.drop (pos + 16)) n none :: st }

/-- One writer call, zera.hpp:714-812. In `end_map` the context is moved out of the stack *before* the check for a
dangling key: a moved-from vector is empty, a moved-from `std::optional<size_t>` keeps its value, and so does the count
(zera.hpp:791-792). -/
def callX : Ev → Exc RS Unit
  | .null => deliverX (makeVr tNull 0 0 0 0 0)
  | .bool b => deliverX (makeVr tBool 0 (if b then 1 else 0) 0 0 0)
  | .int i => deliverX (makeVr tI64 0 0 (lo32 i.toUInt64.toNat) (hi32 i.toUInt64.toNat) 0)
  | .uint n => deliverX (makeVr tU64 0 0 (lo32 n.toNat) (hi32 n.toNat) 0)
  | .dbl d => deliverX (makeVr tF64 0 0 (lo32 d.toNat) (hi32 d.toNat) 0)
  | .str sv => do
    let s ← get
    if sv.length ≤ min s.thr InlineMax then
      let out := makeVr tString 1 sv.length 0 0 0
      deliverX (out.take 4 ++ sv ++ out.drop (4 + sv.length))
    else if sv.length > u32max then throw .ser
    else do
      let ofs ← arenaAllocX sv.length 1
      arenaCopyX ofs sv
      deliverX (makeVr tString 0 0 ofs sv.length 0)
  | .blob b => do
    if b.length > u32max then throw .ser
    else do
      let arenaOfs ← arenaAllocX b.length ArenaBaseAlign
      arenaCopyX arenaOfs b
      let shapeOfs ← appendEnvX (shapeBytes b.length)
      deliverX (makeVr tTyped 0 dtU8 arenaOfs b.length shapeOfs)
  | .beginArr _ => do
    let s ← get
    put { s with st := .arr (le32 0) 0 :: s.st }
  | .endArr => do
    let s ← get
    match s.st with
    | .arr p n :: st => do
      put { s with st := st }
      let p' ← lift (writeU32At p 0 n)
      let ofs ← appendEnvX p'
      deliverX (makeVr tArray 0 0 ofs 0 0)
    | _ => throw .ser
  | .beginMap _ => do
    let s ← get
    put { s with st := .map (le32 0) 0 none :: s.st }
  | .endMap => do
    let s ← get
    match s.st with
    | .map p n pend :: st => do
      put { s with st := .map [] n pend :: st }
      match pend with
      | some _ => throw .ser
      | none => do
        put { s with st := st }
        let p' ← lift (writeU32At p 0 n)
        let ofs ← appendEnvX p'
        deliverX (makeVr tObject 0 0 ofs 0 0)
    | _ => throw .ser
  | .key k => do
    let s ← get
    match s.st with
    | .map p n pend :: st =>
      match pend with
      | some _ => throw .ser
      | none =>
        if k.length > u16max then throw .ser
        else
          let p1 := p ++ le16 k.length ++ le16 0 ++ k
          put { s with st := .map (p1 ++ List.replicate 16 0) (u32 (n + 1)) (some p1.length) :: st }
    | _ => throw .ser

/-- The calls with an effect that survives an exception. -/
inductive Left : RS → Ev → RS → Prop
  /-- Only unreferenced bytes were added. -/
  | bytes {s : RS} {e : Ev} (ee aa : Bytes) (he : (e ≠ .endArr ∧ e ≠ .endMap) ∨
      (e = .endArr ∧ ∀ p n st, s.st ≠ .arr p n :: st) ∨ (e = .endMap ∧ ∀ p n q st, s.st ≠ .map p n q :: st)) :
      Left s e { s with env := s.env ++ ee, arena := s.arena ++ aa }
  /-- An array is gone. -/
  | array {s : RS} {p : Bytes} {n : Nat} {st : List Ctx} (ee : Bytes) (h : s.st = .arr p n :: st) :
      Left s .endArr { s with st := st, env := s.env ++ ee }
  /-- A map is gone. -/
  | map {s : RS} {p : Bytes} {n : Nat} {st : List Ctx} (ee : Bytes) (h : s.st = .map p n none :: st) :
      Left s .endMap { s with st := st, env := s.env ++ ee }
  /-- A map that waits for a value has lost its entries. -/
  | moved {s : RS} {p : Bytes} {n pos : Nat} {st : List Ctx} (h : s.st = .map p n (some pos) :: st) :
      Left s .endMap { s with st := .map [] n (some pos) :: st }

/-- Either the call is accepted as in `step`, or both raise and something is left behind. -/
def Agree (s : RS) (e : Ev) (x : Res Unit × RS) (y : Res RS) : Prop :=
  (∃ s', y = .ok s' ∧ x = (.ok (), s')) ∨ ∃ r s', y = .err r ∧ r ≠ .abort ∧ x = (.err r, s') ∧ Left s e s'

theorem Left.refl {s : RS} {e : Ev} (he : (e ≠ .endArr ∧ e ≠ .endMap) ∨
      (e = .endArr ∧ ∀ p n st, s.st ≠ .arr p n :: st) ∨ (e = .endMap ∧ ∀ p n q st, s.st ≠ .map p n q :: st)) : Left s e s := by
  have := Left.bytes (s := s) (e := e) [] [] he
  simpa using this

/-- `deliver_vr` throws before it changes anything. -/
theorem deliverX_eq (vr : Bytes) (s : RS) :
    (∃ s', deliverVr s vr = .ok s' ∧ deliverX vr s = (.ok (), s')) ∨
      (deliverVr s vr = .err .ser ∧ deliverX vr s = (.err .ser, s)) := by
  obtain ⟨st, env, arena, root, thr⟩ := s
  cases st with
  | nil =>
    cases root with
    | some o => right; exact ⟨rfl, rfl⟩
    | none =>
      by_cases h : env.length > u32max
      · right
        simp only [deliverVr, writeRootVr, appendEnv, if_pos h, Res.err_bind, deliverX, writeRootX, appendEnvX,
          Exc.bind_run, Exc.get_run, Exc.ite_run, Exc.throw_run, and_self]
      · left
        exact ⟨⟨[], env ++ vr, arena, some (u32 env.length), thr⟩,
          by simp only [deliverVr, writeRootVr, appendEnv, if_neg h, Res.ok_bind, Res.pure_eq],
          by simp only [deliverX, writeRootX, appendEnvX, Exc.bind_run, Exc.get_run, Exc.ite_run, Exc.put_run,
            Exc.pure_run, if_neg h]⟩
  | cons c cs =>
    cases c with
    | arr p n => left; exact ⟨_, rfl, rfl⟩
    | map p n pend =>
      cases pend with
      | none => right; exact ⟨rfl, rfl⟩
      | some pos =>
        by_cases h : pos + 16 > p.length
        · right
          simp only [deliverVr, deliverX, Exc.bind_run, Exc.get_run, Exc.ite_run, Exc.throw_run, if_pos h, and_self]
        · left
          exact ⟨⟨.map (p.take pos ++ vr ++ p.drop (pos + 16)) n none :: cs, env, arena, root, thr⟩,
            by simp only [deliverVr, if_neg h],
            by simp only [deliverX, Exc.bind_run, Exc.get_run, Exc.ite_run, Exc.put_run, if_neg h]⟩

theorem deliver_agree {s : RS} {e : Ev} (vr : Bytes) (he : e ≠ .endArr ∧ e ≠ .endMap) : Agree s e (deliverX vr s) (deliverVr s vr) := by
  rcases deliverX_eq vr s with ⟨s', h1, h2⟩ | ⟨h1, h2⟩
  · exact .inl ⟨s', h1, h2⟩
  · exact .inr ⟨_, _, h1, by decide, h2, .refl (.inl he)⟩

/-- Delivering after bytes were added. -/
theorem deliver_agree' {s : RS} {e : Ev} (vr ee aa : Bytes) (he : e ≠ .endArr ∧ e ≠ .endMap) :
    Agree s e (deliverX vr { s with env := s.env ++ ee, arena := s.arena ++ aa })
      (deliverVr { s with env := s.env ++ ee, arena := s.arena ++ aa } vr) := by
  rcases deliverX_eq vr { s with env := s.env ++ ee, arena := s.arena ++ aa } with ⟨s', h1, h2⟩ | ⟨h1, h2⟩
  · exact .inl ⟨s', h1, h2⟩
  · exact .inr ⟨_, _, h1, by decide, h2, .bytes ee aa (.inl he)⟩

theorem take_drop_zeros (a b : Bytes) :
    (a ++ List.replicate b.length 0).take a.length ++ b ++ (a ++ List.replicate b.length (0 : UInt8)).drop (a.length + b.length) = a ++ b := by
  simp

/-- Allocating and copying is the append of the simpler model. -/
theorem alloc_copy (s : RS) (b : Bytes) (align : Nat) {β : Type} (k : Nat → Exc RS β) :
    (∃ pad, arenaPut s b align = .ok ({ s with arena := s.arena ++ (pad ++ b) }, u32 (s.arena ++ pad).length) ∧
      (do let ofs ← arenaAllocX b.length align; arenaCopyX ofs b; k ofs : Exc RS β) s =
        k (u32 (s.arena ++ pad).length) { s with arena := s.arena ++ (pad ++ b) }) ∨
    (arenaPut s b align = .err .ser ∧ ∃ aa,
      (do let ofs ← arenaAllocX b.length align; arenaCopyX ofs b; k ofs : Exc RS β) s =
        (.err .ser, { s with arena := s.arena ++ aa })) := by
  obtain ⟨st, env, arena, root, thr⟩ := s
  generalize hp : List.replicate (alignUp arena.length (max 1 align) - arena.length) (0 : UInt8) = pad
  by_cases h1 : (arena ++ pad).length > u32max
  · right
    refine ⟨?_, pad ++ List.replicate b.length 0, ?_⟩
    · simp only [arenaPut, hp, if_pos h1]
    · simp only [arenaAllocX, Exc.bind_run, Exc.get_run, Exc.put_run, Exc.throw_run, hp, if_pos h1,
        List.append_assoc]
  by_cases h2 : b.length > u32max
  · right
    refine ⟨?_, pad ++ List.replicate b.length 0, ?_⟩
    · simp only [arenaPut, hp, if_neg h1, if_pos h2]
    · simp only [arenaAllocX, Exc.bind_run, Exc.get_run, Exc.put_run, Exc.ite_run, Exc.throw_run, hp, if_neg h1, if_pos h2,
        List.append_assoc]
  left
  have hu : u32 (arena ++ pad).length = (arena ++ pad).length := Nat.mod_eq_of_lt (by simp only [u32max] at h1; omega)
  refine ⟨pad, ?_, ?_⟩
  · simp only [arenaPut, hp, if_neg h1, if_neg h2, List.append_assoc]
  · simp only [arenaAllocX, arenaCopyX, Exc.bind_run, Exc.get_run, Exc.put_run, Exc.ite_run, Exc.pure_run, hp, if_neg h1,
      if_neg h2, hu]
    by_cases hb : b = []
    · subst hb; simp
    · rw [if_neg hb, if_pos (by simp [Nat.add_assoc]), take_drop_zeros, List.append_assoc]

theorem callX_agree (e : Ev) (s : RS) : Agree s e (callX e s) (step s e) := by
  cases e with
  | null => exact deliver_agree _ ⟨by simp, by simp⟩
  | bool b => exact deliver_agree _ ⟨by simp, by simp⟩
  | int i => exact deliver_agree _ ⟨by simp, by simp⟩
  | uint n => exact deliver_agree _ ⟨by simp, by simp⟩
  | dbl d => exact deliver_agree _ ⟨by simp, by simp⟩
  | str sv =>
    by_cases h1 : sv.length ≤ min s.thr InlineMax
    · simp only [callX, step, Exc.bind_run, Exc.get_run, Exc.ite_run, if_pos h1]
      exact deliver_agree _ ⟨by simp, by simp⟩
    by_cases h2 : sv.length > u32max
    · simp only [callX, step, Exc.bind_run, Exc.get_run, Exc.ite_run, if_neg h1, if_pos h2]
      exact .inr ⟨_, _, rfl, by decide, rfl, .refl (.inl ⟨by simp, by simp⟩)⟩
    · have hc : callX (.str sv) s = (do let ofs ← arenaAllocX sv.length 1; arenaCopyX ofs sv
                                        deliverX (makeVr tString 0 0 ofs sv.length 0) : Exc RS Unit) s := by
        simp only [callX, Exc.bind_run, Exc.get_run, Exc.ite_run, if_neg h1, if_neg h2]
      rw [hc]
      simp only [step, if_neg h1, if_neg h2]
      rcases alloc_copy s sv 1 (fun ofs => deliverX (makeVr tString 0 0 ofs sv.length 0)) with ⟨pad, h3, h4⟩ | ⟨h3, aa, h4⟩
      · rw [h3, h4]
        simp only [Res.ok_bind]
        have := deliver_agree' (s := s) (e := .str sv) (makeVr tString 0 0 (u32 (s.arena ++ pad).length) sv.length 0) [] (pad ++ sv)
          ⟨by simp, by simp⟩
        simpa using this
      · rw [h3, h4]
        refine .inr ⟨_, _, rfl, by decide, rfl, ?_⟩
        have := Left.bytes (s := s) (e := .str sv) [] aa (.inl ⟨by simp, by simp⟩)
        simpa using this
  | blob b =>
    by_cases h2 : b.length > u32max
    · simp only [callX, step, Exc.ite_run, if_pos h2]
      exact .inr ⟨_, _, rfl, by decide, rfl, .refl (.inl ⟨by simp, by simp⟩)⟩
    · have hc : callX (.blob b) s = (do let ofs ← arenaAllocX b.length ArenaBaseAlign; arenaCopyX ofs b
                                        let shapeOfs ← appendEnvX (shapeBytes b.length)
                                        deliverX (makeVr tTyped 0 dtU8 ofs b.length shapeOfs) : Exc RS Unit) s := by
        simp only [callX, Exc.ite_run, if_neg h2]
      rw [hc]
      simp only [step, if_neg h2]
      rcases alloc_copy s b ArenaBaseAlign (fun ofs => do
          let shapeOfs ← appendEnvX (shapeBytes b.length)
          deliverX (makeVr tTyped 0 dtU8 ofs b.length shapeOfs)) with ⟨pad, h3, h4⟩ | ⟨h3, aa, h4⟩
      · rw [h3, h4]
        simp only [Res.ok_bind, appendEnv, appendEnvX, Exc.bind_run, Exc.get_run, Exc.ite_run, Exc.put_run, Exc.throw_run,
          Exc.pure_run]
        by_cases h5 : s.env.length > u32max
        · simp only [if_pos h5, Res.err_bind]
          refine .inr ⟨_, _, rfl, by decide, rfl, ?_⟩
          have := Left.bytes (s := s) (e := .blob b) [] (pad ++ b) (.inl ⟨by simp, by simp⟩)
          simpa using this
        · simp only [if_neg h5, Res.ok_bind]
          exact deliver_agree' (s := s) (e := .blob b) _ (shapeBytes b.length) (pad ++ b) ⟨by simp, by simp⟩
      · rw [h3, h4]
        refine .inr ⟨_, _, rfl, by decide, rfl, ?_⟩
        have := Left.bytes (s := s) (e := .blob b) [] aa (.inl ⟨by simp, by simp⟩)
        simpa using this
  | key k =>
    obtain ⟨st, env, arena, root, thr⟩ := s
    cases st with
    | nil => exact .inr ⟨_, _, rfl, by decide, rfl, .refl (.inl ⟨by simp, by simp⟩)⟩
    | cons c cs =>
      cases c with
      | arr p n => exact .inr ⟨_, _, rfl, by decide, rfl, .refl (.inl ⟨by simp, by simp⟩)⟩
      | map p n pend =>
        cases pend with
        | some pos => exact .inr ⟨_, _, rfl, by decide, rfl, .refl (.inl ⟨by simp, by simp⟩)⟩
        | none =>
          by_cases h : k.length > u16max
          · simp only [callX, step, Exc.bind_run, Exc.get_run, Exc.ite_run, if_pos h, Exc.throw_run]
            exact .inr ⟨_, _, rfl, by decide, rfl, .refl (.inl ⟨by simp, by simp⟩)⟩
          · simp only [callX, step, Exc.bind_run, Exc.get_run, Exc.ite_run, if_neg h, Exc.put_run]
            exact .inl ⟨_, rfl, rfl⟩
  | beginArr n => exact .inl ⟨_, rfl, rfl⟩
  | beginMap n => exact .inl ⟨_, rfl, rfl⟩
  | endArr =>
    obtain ⟨st, env, arena, root, thr⟩ := s
    cases st with
    | nil => exact .inr ⟨_, _, rfl, by decide, rfl, .refl (.inr (.inl ⟨rfl, by simp⟩))⟩
    | cons c cs =>
      cases c with
      | map p n pend => exact .inr ⟨_, _, rfl, by decide, rfl, .refl (.inr (.inl ⟨rfl, by simp⟩))⟩
      | arr p n =>
        simp only [callX, step, Exc.bind_run, Exc.get_run, Exc.put_run, Exc.lift_run, writeU32At]
        by_cases h : 0 + 4 ≤ p.length
        · simp only [if_pos h, Res.ok_bind, appendEnv, appendEnvX, Exc.bind_run, Exc.get_run, Exc.ite_run, Exc.put_run, Exc.throw_run,
            Exc.pure_run]
          by_cases h5 : env.length > u32max
          · simp only [if_pos h5, Res.err_bind]
            refine .inr ⟨_, _, rfl, by decide, rfl, ?_⟩
            have := Left.array (s := ⟨.arr p n :: cs, env, arena, root, thr⟩) [] rfl
            simpa using this
          · simp only [if_neg h5, Res.ok_bind]
            rcases deliverX_eq (makeVr tArray 0 0 (u32 env.length) 0 0)
              ⟨cs, env ++ (p.take 0 ++ le32 n ++ p.drop (0 + 4)), arena, root, thr⟩ with ⟨s', h1, h2⟩ | ⟨h1, h2⟩
            · exact .inl ⟨s', h1, h2⟩
            · exact .inr ⟨_, _, h1, by decide, h2, Left.array (s := ⟨.arr p n :: cs, env, arena, root, thr⟩) _ rfl⟩
        · simp only [if_neg h, Res.err_bind]
          refine .inr ⟨_, _, rfl, by decide, rfl, ?_⟩
          have := Left.array (s := ⟨.arr p n :: cs, env, arena, root, thr⟩) [] rfl
          simpa using this
  | endMap =>
    obtain ⟨st, env, arena, root, thr⟩ := s
    cases st with
    | nil => exact .inr ⟨_, _, rfl, by decide, rfl, .refl (.inr (.inr ⟨rfl, by simp⟩))⟩
    | cons c cs =>
      cases c with
      | arr p n => exact .inr ⟨_, _, rfl, by decide, rfl, .refl (.inr (.inr ⟨rfl, by simp⟩))⟩
      | map p n pend =>
        cases pend with
        | some pos => exact .inr ⟨_, _, rfl, by decide, rfl, Left.moved (s := ⟨.map p n (some pos) :: cs, env, arena, root, thr⟩) rfl⟩
        | none =>
          simp only [callX, step, Exc.bind_run, Exc.get_run, Exc.put_run, Exc.lift_run, writeU32At]
          by_cases h : 0 + 4 ≤ p.length
          · simp only [if_pos h, Res.ok_bind, appendEnv, appendEnvX, Exc.bind_run, Exc.get_run, Exc.ite_run, Exc.put_run, Exc.throw_run,
              Exc.pure_run]
            by_cases h5 : env.length > u32max
            · simp only [if_pos h5, Res.err_bind]
              refine .inr ⟨_, _, rfl, by decide, rfl, ?_⟩
              have := Left.map (s := ⟨.map p n none :: cs, env, arena, root, thr⟩) [] rfl
              simpa using this
            · simp only [if_neg h5, Res.ok_bind]
              rcases deliverX_eq (makeVr tObject 0 0 (u32 env.length) 0 0)
                ⟨cs, env ++ (p.take 0 ++ le32 n ++ p.drop (0 + 4)), arena, root, thr⟩ with ⟨s', h1, h2⟩ | ⟨h1, h2⟩
              · exact .inl ⟨s', h1, h2⟩
              · exact .inr ⟨_, _, h1, by decide, h2, Left.map (s := ⟨.map p n none :: cs, env, arena, root, thr⟩) _ rfl⟩
          · simp only [if_neg h, Res.err_bind]
            refine .inr ⟨_, _, rfl, by decide, rfl, ?_⟩
            have := Left.map (s := ⟨.map p n none :: cs, env, arena, root, thr⟩) [] rfl
            simpa using this

/-! ## Histories -/

/-- A map whose `end_map` was refused because of a dangling key. -/
def Dead (s : RS) : Prop := ∃ n pos, Ctx.map [] n (some pos) ∈ s.st

/-- Nothing removes it from the stack. -/
theorem Dead.callX {s s' : RS} (h : Dead s) (e : Ev) {r : Res Unit} (hc : callX e s = (r, s')) : Dead s' := by
  obtain ⟨n, pos, hm⟩ := h
  have hdel : ∀ {s s' : RS} {vr : Bytes}, Ctx.map [] n (some pos) ∈ s.st → deliverVr s vr = .ok s' → Ctx.map [] n (some pos) ∈ s'.st := by
    intro s s' vr hm hd
    obtain ⟨st, env, arena, root, thr⟩ := s
    cases st with
    | nil => cases hm
    | cons c cs =>
      cases c with
      | arr p k =>
        cases hd
        rcases List.mem_cons.1 hm with h | h
        · cases h
        · exact List.mem_cons_of_mem _ h
      | map p k q =>
        cases q with
        | none => cases hd
        | some q =>
          simp only [deliverVr] at hd
          split at hd
          · cases hd
          · rename_i hlt
            cases hd
            rcases List.mem_cons.1 hm with h | h
            · cases h; simp at hlt
            · exact List.mem_cons_of_mem _ h
  have happ : ∀ {s : RS} {x : RS × Nat} {b : Bytes}, appendEnv s b = .ok x → x.1.st = s.st := by
    intro s x b hx
    simp only [appendEnv] at hx
    split at hx
    · cases hx
    · cases hx; rfl
  have hput : ∀ {s : RS} {x : RS × Nat} {b : Bytes} {a : Nat}, arenaPut s b a = .ok x → x.1.st = s.st := by
    intro s x b a hx
    simp only [arenaPut] at hx
    split at hx
    · cases hx
    · split at hx
      · cases hx
      · cases hx; rfl
  rcases callX_agree e s with ⟨s1, h1, h2⟩ | ⟨r', s1, h1, h0, h2, h3⟩
  · rw [h2] at hc; cases hc
    refine ⟨n, pos, ?_⟩
    cases e with
    | null => exact hdel hm h1
    | bool b => exact hdel hm h1
    | int i => exact hdel hm h1
    | uint n => exact hdel hm h1
    | dbl d => exact hdel hm h1
    | str sv =>
      simp only [step] at h1
      split at h1
      · exact hdel hm h1
      · split at h1
        · cases h1
        · obtain ⟨x, hx, hd⟩ := Res.bind_eq_ok.1 h1
          exact hdel (by rw [hput hx]; exact hm) hd
    | blob b =>
      simp only [step] at h1
      split at h1
      · cases h1
      · obtain ⟨x, hx, hd⟩ := Res.bind_eq_ok.1 h1
        obtain ⟨y, hy, hd⟩ := Res.bind_eq_ok.1 hd
        exact hdel (by rw [happ hy, hput hx]; exact hm) hd
    | key k =>
      simp only [step] at h1
      split at h1
      · rename_i p k' q cs hst
        split at h1
        · cases h1
        · split at h1
          · cases h1
          · cases h1
            rw [hst] at hm
            rcases List.mem_cons.1 hm with h | h
            · cases h
            · exact List.mem_cons_of_mem _ h
      · cases h1
    | beginArr k => cases h1; exact List.mem_cons_of_mem _ hm
    | beginMap k => cases h1; exact List.mem_cons_of_mem _ hm
    | endArr =>
      simp only [step] at h1
      split at h1
      · rename_i p k cs hst
        obtain ⟨p', _, h1⟩ := Res.bind_eq_ok.1 h1
        obtain ⟨y, hy, hd⟩ := Res.bind_eq_ok.1 h1
        refine hdel ?_ hd
        rw [happ hy]
        rw [hst] at hm
        rcases List.mem_cons.1 hm with h | h
        · cases h
        · exact h
      · cases h1
    | endMap =>
      simp only [step] at h1
      split at h1
      · rename_i p k q cs hst
        split at h1
        · cases h1
        · obtain ⟨p', _, h1⟩ := Res.bind_eq_ok.1 h1
          obtain ⟨y, hy, hd⟩ := Res.bind_eq_ok.1 h1
          refine hdel ?_ hd
          rw [happ hy]
          rw [hst] at hm
          rcases List.mem_cons.1 hm with h | h
          · cases h
          · exact h
      · cases h1
  · rw [h2] at hc; cases hc
    cases h3 with
    | bytes ee aa he => exact ⟨n, pos, hm⟩
    | array ee h =>
      rw [h] at hm
      rcases List.mem_cons.1 hm with h | h
      · cases h
      · exact ⟨n, pos, h⟩
    | map ee h =>
      rw [h] at hm
      rcases List.mem_cons.1 hm with h | h
      · cases h
      · exact ⟨n, pos, h⟩
    | moved h => exact ⟨_, _, List.mem_cons_self⟩

theorem Dead.finish {s : RS} (h : Dead s) : finish s = .err .ser := by
  obtain ⟨n, pos, hm⟩ := h
  cases hs : s.st with
  | nil => rw [hs] at hm; cases hm
  | cons c cs => simp [Zera.finish, hs]

end Zer.Zera

namespace Zer

/-- What a caller of the ZERA writer who catches exceptions gets: an accepted call has its usual effect; the refused end of
a container deletes the container with all that was put in it; the refused end of a map that waits for a value spoils the
document (`none`); any other refused call has no effect. -/
def Tree.next (t : Tree) : Ev × Bool → Option Tree
  | (e, true) => t.step e
  | (.endArr, false) => match t.stack with
    | .arr _ :: st => some { t with stack := st }
    | _ => some t
  | (.endMap, false) => match t.stack with
    | .map _ none :: st => some { t with stack := st }
    | .map _ (some _) :: _ => none
    | _ => some t
  | (_, false) => some t

end Zer

namespace Zer.Zera

/-- The writer state belongs to the document, or the document is spoiled. -/
def RelX (s : RS) : Option Tree → Prop
  | some t => Rel s t
  | none => Dead s

theorem callX_ok {s s' : RS} {t : Tree} {e : Ev} (R : Rel s t) (h : callX e s = (.ok (), s')) :
    ∃ t', t.next (e, true) = some t' ∧ Rel s' t' := by
  rcases callX_agree e s with ⟨s1, h1, h2⟩ | ⟨r', s1, h1, h0, h2, h3⟩
  · rw [h2] at h; cases h
    rcases step_sim R e with ⟨s'', t', k1, k2, k3, k4⟩ | k
    · rw [h1] at k1; cases k1
      exact ⟨t', k2, k3⟩
    · rw [h1] at k; cases k
  · rw [h2] at h; cases h

theorem callX_err {s s' : RS} {t : Tree} {e : Ev} {r : Err} (R : Rel s t) (h : callX e s = (.err r, s')) :
    RelX s' (t.next (e, false)) := by
  obtain ⟨stack, troot⟩ := t
  rcases callX_agree e s with ⟨s1, h1, h2⟩ | ⟨r', s1, h1, h0, h2, h3⟩
  · rw [h2] at h; cases h
  · rw [h2] at h; cases h
    have hst := R.stack
    have hro := R.root
    cases h3 with
    | bytes ee aa he =>
      have hn : Tree.next ⟨stack, troot⟩ (e, false) = some ⟨stack, troot⟩ := by
        rcases he with ⟨h1, h2⟩ | ⟨rfl, hno⟩ | ⟨rfl, hno⟩
        · cases e <;> first | rfl | exact absurd rfl h1 | exact absurd rfl h2
        · cases stack with
          | nil => rfl
          | cons f fs =>
            cases f with
            | map => rfl
            | arr xs =>
              exfalso
              cases hs : s.st with
              | nil => rw [hs] at hst; exact hst
              | cons c cs =>
                rw [hs] at hst
                cases c with
                | arr p n => exact hno p n cs hs
                | map p n q => exact hst.1
        · cases stack with
          | nil => rfl
          | cons f fs =>
            cases f with
            | arr => rfl
            | map xs =>
              exfalso
              cases hs : s.st with
              | nil => rw [hs] at hst; exact hst
              | cons c cs =>
                rw [hs] at hst
                cases c with
                | arr p n => exact hst.1
                | map p n q => exact hno p n q cs hs
      rw [hn]
      exact R.mono ee aa
    | array ee hs =>
      rw [hs] at hst
      cases stack with
      | nil => exact hst.elim
      | cons f fs =>
        cases f with
        | map => exact hst.1.elim
        | arr xs =>
          refine ⟨?_, ?_⟩
          · have := hst.2.mono ee []
            simpa using this
          · have := hro.mono ee []
            simpa using this
    | map ee hs =>
      rw [hs] at hst
      cases stack with
      | nil => exact hst.elim
      | cons f fs =>
        cases f with
        | arr => exact hst.1.elim
        | map ms pk =>
          have hpk : pk = none := by
            obtain ⟨ps, _, _, _, h4⟩ := hst.1
            cases pk with
            | none => rfl
            | some k => obtain ⟨_, _, p1, _, h8, _⟩ := h4; cases h8
          subst hpk
          refine ⟨?_, ?_⟩
          · have := hst.2.mono ee []
            simpa using this
          · have := hro.mono ee []
            simpa using this
    | moved hs =>
      rw [hs] at hst
      cases stack with
      | nil => exact hst.elim
      | cons f fs =>
        cases f with
        | arr => exact hst.1.elim
        | map ms pk =>
          have hpk : ∃ k, pk = some k := by
            obtain ⟨ps, _, _, _, h4⟩ := hst.1
            cases pk with
            | none => obtain ⟨h5, _, _⟩ := h4; cases h5
            | some k => exact ⟨k, rfl⟩
          obtain ⟨k, rfl⟩ := hpk
          exact ⟨_, _, List.mem_cons_self⟩

/-- Catching goes on: no call is undefined. -/
theorem catching_total : ∀ (es : List Ev) (s : RS), ∃ l s', catching callX s es = .ok (l, s')
  | [], s => ⟨[], s, rfl⟩
  | e :: es, s => by
    rcases callX_agree e s with ⟨s1, h1, h2⟩ | ⟨r', s1, h1, h0, h2, h3⟩
    · obtain ⟨l, s', h⟩ := catching_total es s1
      exact ⟨(e, true) :: l, s', by simp [catching, h2, h]⟩
    · obtain ⟨l, s', h⟩ := catching_total es s1
      refine ⟨(e, false) :: l, s', ?_⟩
      unfold catching
      rw [h2]
      cases r' <;> first | exact absurd rfl h0 | simp [h]

theorem catching_sim {es : List Ev} {s s' : RS} {l : List (Ev × Bool)} {t : Tree} (R : Rel s t)
    (h : catching callX s es = .ok (l, s')) : RelX s' (l.foldlM Tree.next t) := by
  have hall : ∀ (l : List (Ev × Bool)) (o : Option Tree),
      l.foldlM (fun (o : Option Tree) p => some (o.bind (·.next p))) o = some (o.bind fun t => l.foldlM Tree.next t) := by
    intro l
    induction l with
    | nil => intro o; cases o <;> rfl
    | cons p l ih =>
      intro o
      cases o with
      | none => simp only [List.foldlM, Option.bind_none]; exact ih none
      | some t => simp only [List.foldlM, Option.bind_some]; exact ih (t.next p)
  obtain ⟨o, h1, h2⟩ := catching_rel (R := RelX) (next := fun (o : Option Tree) p => some (o.bind (·.next p)))
    (fun {s t e s'} hR hc => by
      cases t with
      | none => exact ⟨none, rfl, hR.callX e hc⟩
      | some t =>
        obtain ⟨t', k1, k2⟩ := callX_ok hR hc
        exact ⟨some t', by simp [k1], k2⟩)
    (fun {s t e r s'} hR hc => by
      cases t with
      | none => exact ⟨none, rfl, hR.callX e hc⟩
      | some t => exact ⟨_, rfl, callX_err hR hc⟩)
    (t := some t) R h
  rw [hall] at h1
  cases h1
  exact h2

end Zer.Zera

namespace Zer.Zera
open Exc (get put throw lift)

/-! ## finish -/

/-- `finish`, zera.hpp:593-634: a missing root is added to the state; nothing is taken out of it. -/
def finishX : Exc RS Bytes := do
  let s ← get
  match s.st with
  | _ :: _ => throw .ser
  | [] => do
    match s.root with
      | none => writeRootX (makeVr tNull 0 0 0 0 0)
      | some _ => pure ()
    let s ← get
    if s.env.length > u32max then throw .ser
    else if s.arena.length > u32max then throw .ser
    else
      let envSize := u32 s.env.length
      let arenaOfs := alignUp (HeaderSize + envSize) ArenaBaseAlign
      if arenaOfs > u32max then throw .ser
      else pure (assemble s.env s.arena (s.root.getD 0) arenaOfs)

/-- `finishX` returns what `finish` returns; the state is as before, or has a null root. -/
theorem finishX_eq (s : RS) :
    ((∃ b, finish s = .ok b ∧ (finishX s).1 = .ok b) ∨ (finish s = .err .ser ∧ (finishX s).1 = .err .ser)) ∧
    ((finishX s).2 = s ∨ s.st = [] ∧ s.root = none ∧ writeRootVr s (makeVr tNull 0 0 0 0 0) = .ok (finishX s).2) := by
  obtain ⟨st, env, arena, root, thr⟩ := s
  cases st with
  | cons c cs => exact ⟨.inr ⟨rfl, rfl⟩, .inl rfl⟩
  | nil =>
    cases root with
    | some o =>
      simp only [finish, finishX, Exc.bind_run, Exc.get_run, Exc.pure_run, Exc.ite_run, Exc.throw_run, Res.pure_eq, Res.ok_bind]
      split
      · exact ⟨.inr ⟨rfl, rfl⟩, .inl rfl⟩
      · split
        · exact ⟨.inr ⟨rfl, rfl⟩, .inl rfl⟩
        · split
          · exact ⟨.inr ⟨rfl, rfl⟩, .inl rfl⟩
          · exact ⟨.inl ⟨_, rfl, rfl⟩, .inl rfl⟩
    | none =>
      by_cases h : env.length > u32max
      · have h1 : writeRootX (makeVr tNull 0 0 0 0 0) (⟨[], env, arena, none, thr⟩ : RS) = (.err .ser, ⟨[], env, arena, none, thr⟩) := by
          simp only [writeRootX, appendEnvX, Exc.bind_run, Exc.get_run, Exc.ite_run, Exc.throw_run, if_pos h]
        have h2 : writeRootVr (⟨[], env, arena, none, thr⟩ : RS) (makeVr tNull 0 0 0 0 0) = .err .ser := by
          simp only [writeRootVr, appendEnv, if_pos h, Res.err_bind]
        refine ⟨.inr ⟨?_, ?_⟩, .inl ?_⟩
        · simp only [finish, h2, Res.err_bind]
        · simp only [finishX, Exc.bind_run, Exc.get_run, h1]
        · simp only [finishX, Exc.bind_run, Exc.get_run, h1]
      · have h1 : writeRootX (makeVr tNull 0 0 0 0 0) (⟨[], env, arena, none, thr⟩ : RS) =
            (.ok (), ⟨[], env ++ makeVr tNull 0 0 0 0 0, arena, some (u32 env.length), thr⟩) := by
          simp only [writeRootX, appendEnvX, Exc.bind_run, Exc.get_run, Exc.ite_run, Exc.put_run, Exc.pure_run, if_neg h]
        have h2 : writeRootVr (⟨[], env, arena, none, thr⟩ : RS) (makeVr tNull 0 0 0 0 0) =
            .ok ⟨[], env ++ makeVr tNull 0 0 0 0 0, arena, some (u32 env.length), thr⟩ := by
          simp only [writeRootVr, appendEnv, if_neg h, Res.ok_bind, Res.pure_eq]
        simp only [finish, finishX, Exc.bind_run, Exc.get_run, Exc.pure_run, Exc.ite_run, Exc.throw_run, h1, h2, Res.ok_bind]
        split
        · exact ⟨.inr ⟨rfl, rfl⟩, .inr ⟨trivial, trivial, rfl⟩⟩
        · split
          · exact ⟨.inr ⟨rfl, rfl⟩, .inr ⟨trivial, trivial, rfl⟩⟩
          · split
            · exact ⟨.inr ⟨rfl, rfl⟩, .inr ⟨trivial, trivial, rfl⟩⟩
            · exact ⟨.inl ⟨_, rfl, rfl⟩, .inr ⟨trivial, trivial, rfl⟩⟩

end Zer.Zera
