import Verif.Json.Sim

/-!
# JSON: the document written for a value
-/

namespace Zer.Json

mutual
/-- The document the writer builds for a value: as `toDom`, with keys cut at the first NUL. -/
def domC : Val → Val
  | .null => .null
  | .bool b => .bool b
  | .int i => .int i
  | .uint n => .uint n
  | .dbl d => .dbl d
  | .str s => .str s
  | .blob s => .arr [.str blobTag, .str (Base64.encode s), .str blobEncoding]
  | .arr xs => .arr (domCList xs)
  | .map ms => .map (domCEntries ms)
def domCList : List Val → List Val
  | [] => []
  | x :: xs => domC x :: domCList xs
def domCEntries : List (Bytes × Val) → List (Bytes × Val)
  | [] => []
  | (k, v) :: ms => (cstr k, domC v) :: domCEntries ms
end

/-- Keys the writer takes: not empty and, in debug builds, without NUL. -/
def keyB (dbg : Bool) (k : Bytes) : Bool := decide (k ≠ [] ∧ ¬ (dbg = true ∧ (0 : UInt8) ∈ k))

mutual
/-- All keys inside the value are taken. -/
def keysB (dbg : Bool) : Val → Bool
  | .arr xs => keysBList dbg xs
  | .map ms => keysBEntries dbg ms
  | _ => true
def keysBList (dbg : Bool) : List Val → Bool
  | [] => true
  | x :: xs => keysB dbg x && keysBList dbg xs
def keysBEntries (dbg : Bool) : List (Bytes × Val) → Bool
  | [] => true
  | (k, v) :: ms => keyB dbg k && keysB dbg v && keysBEntries dbg ms
end

theorem slot_err (dbg : Bool) (s : RS) : (∃ k s', slot dbg s = .ok (k, s')) ∨ slot dbg s = .err .logic := by
  unfold slot
  repeat' split
  all_goals first
    | exact .inr rfl
    | exact .inl ⟨_, _, rfl⟩

mutual
theorem run_emit (dbg : Bool) (s : RS) : ∀ v : Val, (writer dbg).run s (emit v) =
    if keysB dbg v then push dbg s (domC v) else .err .logic
  | .null => by simp [emit, writer, step, keysB, domC]
  | .bool b => by simp [emit, writer, step, keysB, domC]
  | .int i => by simp [emit, writer, step, keysB, domC]
  | .uint n => by simp [emit, writer, step, keysB, domC]
  | .dbl d => by simp [emit, writer, step, keysB, domC]
  | .str t => by simp [emit, writer, step, keysB, domC]
  | .blob b => by
    simp only [emit, Writer.run_cons, Writer.run_nil, writer, step, keysB, domC, binary_eq, if_true, toDom]
    cases push dbg s (.arr [.str blobTag, .str (Base64.encode b), .str blobEncoding]) <;> rfl
  | .arr xs => by
    simp only [emit, Writer.run_cons, keysB, domC, push]
    rcases slot_err dbg s with ⟨k, s', h⟩ | h
    · show (openC dbg false s >>= _) = _
      simp only [openC, h, Res.ok_bind, Res.pure_eq, Writer.run_append]
      rw [run_emitList dbg s'.root s'.wrote { isObj := false, key := k } s'.st rfl xs]
      cases keysBList dbg xs
      · rfl
      · obtain ⟨r, w, st⟩ := s'
        simp only [if_true, Res.ok_bind, Writer.run_cons, Writer.run_nil, List.nil_append]
        rfl
    · show (openC dbg false s >>= _) = _
      simp only [openC, h, Res.err_bind]
      split <;> rfl
  | .map ms => by
    simp only [emit, Writer.run_cons, keysB, domC, push]
    rcases slot_err dbg s with ⟨k, s', h⟩ | h
    · show (openC dbg true s >>= _) = _
      simp only [openC, h, Res.ok_bind, Res.pure_eq, Writer.run_append]
      rw [run_emitEntries dbg s'.root s'.wrote { isObj := true, key := k } s'.st rfl rfl ms]
      cases keysBEntries dbg ms
      · rfl
      · obtain ⟨r, w, st⟩ := s'
        simp only [if_true, Res.ok_bind, Writer.run_cons, Writer.run_nil, List.nil_append]
        rfl
    · show (openC dbg true s >>= _) = _
      simp only [openC, h, Res.err_bind]
      split <;> rfl
theorem run_emitList (dbg : Bool) (r : Option Val) (w : Bool) (c : Ctx) (cs : List Ctx)
    (hc : c.isObj = false) : ∀ xs : List Val, (writer dbg).run ⟨r, w, c :: cs⟩ (emitList xs) =
    if keysBList dbg xs then .ok ⟨r, w, { c with xs := c.xs ++ domCList xs } :: cs⟩ else .err .logic
  | [] => by simp [emitList, keysBList, domCList]
  | x :: xs => by
    simp only [emitList, Writer.run_append, run_emit dbg _ x, keysBList, domCList]
    rcases Bool.eq_false_or_eq_true (keysB dbg x) with hx | hx <;> simp only [hx]
    rotate_left
    · simp
    · have : push dbg ⟨r, w, c :: cs⟩ (domC x) = .ok ⟨r, w, { c with xs := c.xs ++ [domC x] } :: cs⟩ := by
        simp [push, slot, hc, attach, Ctx.add]
      simp only [this, if_true, Res.ok_bind]
      rw [run_emitList dbg r w _ cs (by simpa using hc) xs]
      simp
theorem run_emitEntries (dbg : Bool) (r : Option Val) (w : Bool) (c : Ctx) (cs : List Ctx)
    (hc : c.isObj = true) (hp : c.pending = []) : ∀ ms : List (Bytes × Val),
    (writer dbg).run ⟨r, w, c :: cs⟩ (emitEntries ms) =
    if keysBEntries dbg ms then .ok ⟨r, w, { c with ms := c.ms ++ domCEntries ms } :: cs⟩ else .err .logic
  | [] => by simp [emitEntries, keysBEntries, domCEntries]
  | (k, v) :: ms => by
    have h1 : (writer dbg).step ⟨r, w, c :: cs⟩ (.key k) = .ok ⟨r, w, { c with pending := k } :: cs⟩ := by
      simp [writer, step, key, hc, hp]
    simp only [emitEntries, Writer.run_cons, Writer.run_append, h1, Res.ok_bind, run_emit dbg _ v,
      keysBEntries, domCEntries]
    rcases Bool.eq_false_or_eq_true (keysB dbg v) with hv | hv <;> simp only [hv]
    rotate_left
    · simp
    · simp only [Bool.and_true, if_true]
      cases hk : keyB dbg k
      · have : push dbg ⟨r, w, { c with pending := k } :: cs⟩ (domC v) = .err .logic := by
          have h := of_decide_eq_false hk
          by_cases h0 : k = []
          · simp [push, slot, hc, h0]
          · have h2 : dbg = true ∧ (0 : UInt8) ∈ k := Classical.not_not.1 fun n => h ⟨h0, n⟩
            simp [push, slot, hc, h0, h2]
        simp [this]
      · have : push dbg ⟨r, w, { c with pending := k } :: cs⟩ (domC v) =
            .ok ⟨r, w, { c with ms := c.ms ++ [(cstr k, domC v)] } :: cs⟩ := by
          have h := of_decide_eq_true hk
          simp [push, slot, hc, h.1, h.2, attach, Ctx.add, hp]
        simp only [this, Res.ok_bind, Bool.true_and]
        rw [run_emitEntries dbg r w _ cs (by simpa using hc) (by simpa using hp) ms]
        simp
end

/-- What `serialize<JSON>` does, for every value. -/
theorem serialize_eq (T : Text) (dbg : Bool) (v : Val) : (proto T dbg).serialize v =
    if keysB dbg v then (match T.print (domC v) with | some b => .ok b | none => .err .runtime)
    else .err .logic := by
  simp only [Proto.serialize, Proto.bytesOf]
  show (writer dbg).run {} (emit v) >>= finish T = _
  rw [run_emit]
  split
  · rfl
  · rfl

/-! ## Keys without NUL -/

/-- All keys are non-empty and without NUL. -/
def KeysOk (v : Val) : Prop := v.Each (fun _ => True) KeyOk

theorem domC_eq : ∀ {v : Val}, KeysOk v → domC v = toDom v := by
  intro v
  induction v using Val.ind with
  | arr xs ih =>
    intro h
    have h1 := h.arr
    simp only [domC, toDom]
    congr 1
    clear h
    induction xs with
    | nil => rfl
    | cons x xs ihx =>
      simp only [domCList, toDomList]
      rw [ih x (by simp) (h1 x (by simp)), ihx (fun y hy => ih y (by simp [hy])) (fun y hy => h1 y (by simp [hy]))]
  | map ms ih =>
    intro h
    have h1 := h.map
    simp only [domC, toDom]
    congr 1
    clear h
    induction ms with
    | nil => rfl
    | cons m ms ihx =>
      obtain ⟨k, v⟩ := m
      have hm := h1 (k, v) (by simp)
      simp only [domCEntries, toDomEntries]
      rw [ih (k, v) (by simp) hm.2, ihx (fun y hy => ih y (by simp [hy])) (fun y hy => h1 y (by simp [hy])),
        cstr_ok hm.1.2]
  | _ => intro _; rfl

theorem keysB_ok (dbg : Bool) : ∀ {v : Val}, KeysOk v → keysB dbg v = true := by
  intro v
  induction v using Val.ind with
  | arr xs ih =>
    intro h
    have h1 := h.arr
    simp only [keysB]
    clear h
    induction xs with
    | nil => rfl
    | cons x xs ihx =>
      simp only [keysBList]
      rw [ih x (by simp) (h1 x (by simp)), ihx (fun y hy => ih y (by simp [hy])) (fun y hy => h1 y (by simp [hy]))]
      rfl
  | map ms ih =>
    intro h
    have h1 := h.map
    simp only [keysB]
    clear h
    induction ms with
    | nil => rfl
    | cons m ms ihx =>
      obtain ⟨k, v⟩ := m
      have hm := h1 (k, v) (by simp)
      simp only [keysBEntries]
      rw [ih (k, v) (by simp) hm.2, ihx (fun y hy => ih y (by simp [hy])) (fun y hy => h1 y (by simp [hy]))]
      simp [keyB, hm.1.1, hm.1.2]
  | _ => intro _; rfl

end Zer.Json
