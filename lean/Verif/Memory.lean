import Verif.Amplify
import Verif.Tensor.Model

/-!
# Memory that is reserved in advance

`begin_array(n)` and `begin_map(n)` of the ZERA writer reserve memory for `n` entries (zera.hpp:765-770, 782-787) before any of
them is written; `write_value` passes what `arraySize()` says (translate.hpp:62-64). `tensor_shape` reserves `arraySize()`
elements as well (utils.hpp:89-90). Only these reservations are accounted for here, not the growth of vectors by what is put into
them. The memory limit is a parameter.
-/

namespace Zer

mutual
/-- Bytes reserved at the same time while `v` is written: by the containers on a path. -/
def Val.need : Val → Nat
  | .arr xs => 4 + 16 * xs.length + needList xs
  | .map ms => 4 + 28 * ms.length + needEntries ms
  | _ => 0
def Val.needList : List Val → Nat
  | [] => 0
  | x :: xs => max x.need (needList xs)
def Val.needEntries : List (Bytes × Val) → Nat
  | [] => 0
  | (_, v) :: ms => max v.need (needEntries ms)
end

namespace Zera

/-- The argument of `payload.reserve`, zera.hpp:767 and 784; `size_t` arithmetic wraps. -/
def reserveOf : Ev → Nat
  | .beginArr n => u64 (4 + u64 (n * 16))
  | .beginMap n => u64 (4 + u64 (n * 28))
  | _ => 0

/-- The writer with the reservations of the open containers, innermost first. -/
structure MS where
  s : RS := {}
  caps : List Nat := []

/-- `ctx.payload.reserve(n)` on an empty vector with `used` bytes of `limit` in use: `std::length_error` beyond `max_size()`, which is
`PTRDIFF_MAX` for bytes, `std::bad_alloc` if the memory is not there. -/
def reserve (limit used n : Nat) : Res Unit :=
  if n > 2 ^ 63 - 1 then .err .length
  else if used + n > limit then .err .badAlloc
  else .ok ()

/-- One writer call with a memory limit. Opening a container reserves, closing it frees. -/
def stepM (limit : Nat) (m : MS) (e : Ev) : Res MS :=
  match e with
  | .beginArr _ | .beginMap _ => do
    reserve limit m.caps.sum (reserveOf e)
    let s ← step m.s e
    pure ⟨s, reserveOf e :: m.caps⟩
  | .endArr | .endMap => do
    let s ← step m.s e
    pure ⟨s, m.caps.tail⟩
  | _ => do
    let s ← step m.s e
    pure ⟨s, m.caps⟩

def writerM (limit : Nat) : Writer MS := ⟨stepM limit⟩

/-- `translate<Zera>(src)`, translate.hpp:77-100, with a memory limit. -/
def translateM (limit : Nat) {ρ : Type} (R : Reader ρ) (fuel : Nat) (r : ρ) : Res View := do
  let m ← writeValue R (writerM limit) fuel r {}
  let b ← finish m.s
  initFrom b

/-- What is proved of a sequence of calls: the limit makes no difference and the reservations are freed. -/
def Fine (limit : Nat) (caps : List Nat) (es : List Ev) : Prop :=
  ∀ s : RS, (writerM limit).run ⟨s, caps⟩ es = writer.run s es >>= fun s' => pure ⟨s', caps⟩

theorem Fine.nil (limit : Nat) (caps : List Nat) : Fine limit caps [] := fun _ => rfl

theorem Fine.append {limit : Nat} {caps : List Nat} {es fs : List Ev} (h1 : Fine limit caps es) (h2 : Fine limit caps fs) :
    Fine limit caps (es ++ fs) := by
  intro s
  rw [Writer.run_append, Writer.run_append, h1 s, bind_assoc, bind_assoc]
  congr 1
  funext s'
  exact h2 s'

theorem Fine.one {limit : Nat} {caps : List Nat} {e : Ev} (h : ∀ s, stepM limit ⟨s, caps⟩ e = step s e >>= fun s' => pure ⟨s', caps⟩) :
    Fine limit caps [e] := by
  intro s
  simp only [Writer.run, writerM, writer, h s, bind_assoc, Res.pure_eq, Res.ok_bind]

/-- A container whose reservation fits. -/
theorem Fine.wrap {limit n : Nat} {caps : List Nat} {b e : Ev} {es : List Ev}
    (hb : ∀ s, stepM limit ⟨s, caps⟩ b = step s b >>= fun s' => pure ⟨s', n :: caps⟩)
    (he : ∀ s, stepM limit ⟨s, n :: caps⟩ e = step s e >>= fun s' => pure ⟨s', caps⟩) (h : Fine limit (n :: caps) es) :
    Fine limit caps (b :: (es ++ [e])) := by
  intro s
  simp only [Writer.run_cons, Writer.run_append, writerM, writer, hb s, bind_assoc, Res.pure_eq, Res.ok_bind]
  congr 1
  funext s1
  have := h s1
  simp only [writerM, writer] at this
  rw [this, bind_assoc]
  congr 1
  funext s2
  simp only [Writer.run, he s2, bind_assoc, Res.pure_eq, Res.ok_bind]

theorem stepM_open {limit : Nat} {caps : List Nat} {e : Ev} (he : (∃ n, e = .beginArr n) ∨ ∃ n, e = .beginMap n)
    (h1 : reserveOf e ≤ 2 ^ 63 - 1) (h2 : caps.sum + reserveOf e ≤ limit) (s : RS) :
    stepM limit ⟨s, caps⟩ e = step s e >>= fun s' => pure ⟨s', reserveOf e :: caps⟩ := by
  have : reserve limit caps.sum (reserveOf e) = .ok () := by
    unfold reserve; rw [if_neg (by omega), if_neg (by omega)]
  rcases he with ⟨n, rfl⟩ | ⟨n, rfl⟩ <;> simp only [stepM, this, Res.ok_bind]

mutual
theorem fine_emit {limit : Nat} : ∀ (v : Val) (caps : List Nat), caps.sum + v.need ≤ limit → v.need < 2 ^ 63 → Fine limit caps (emit v)
  | .null, _, _, _ | .bool _, _, _, _ | .int _, _, _, _ | .uint _, _, _, _ | .dbl _, _, _, _ | .str _, _, _, _ | .blob _, _, _, _ =>
    Fine.one fun _ => rfl
  | .arr xs, caps, h1, h2 => by
    simp only [Val.need] at h1 h2
    have e : reserveOf (.beginArr xs.length) = 4 + 16 * xs.length := by simp only [reserveOf, u64]; omega
    have hb := stepM_open (limit := limit) (caps := caps) (e := .beginArr xs.length) (.inl ⟨_, rfl⟩) (by omega) (by omega)
    exact Fine.wrap hb (fun _ => rfl) (fine_emitList xs _ (by rw [e, List.sum_cons]; omega) (by omega))
  | .map ms, caps, h1, h2 => by
    simp only [Val.need] at h1 h2
    have e : reserveOf (.beginMap ms.length) = 4 + 28 * ms.length := by simp only [reserveOf, u64]; omega
    have hb := stepM_open (limit := limit) (caps := caps) (e := .beginMap ms.length) (.inr ⟨_, rfl⟩) (by omega) (by omega)
    exact Fine.wrap hb (fun _ => rfl) (fine_emitEntries ms _ (by rw [e, List.sum_cons]; omega) (by omega))
theorem fine_emitList {limit : Nat} : ∀ (xs : List Val) (caps : List Nat), caps.sum + Val.needList xs ≤ limit → Val.needList xs < 2 ^ 63 →
    Fine limit caps (emitList xs)
  | [], caps, _, _ => Fine.nil limit caps
  | x :: xs, caps, h1, h2 => by
    simp only [Val.needList] at h1 h2
    exact (fine_emit x caps (by omega) (by omega)).append (fine_emitList xs caps (by omega) (by omega))
theorem fine_emitEntries {limit : Nat} : ∀ (ms : List (Bytes × Val)) (caps : List Nat), caps.sum + Val.needEntries ms ≤ limit →
    Val.needEntries ms < 2 ^ 63 → Fine limit caps (emitEntries ms)
  | [], caps, _, _ => Fine.nil limit caps
  | (k, v) :: ms, caps, h1, h2 => by
    simp only [Val.needEntries] at h1 h2
    have e : emitEntries ((k, v) :: ms) = [Ev.key k] ++ (emit v ++ emitEntries ms) := by simp [emitEntries]
    rw [e]
    exact (Fine.one fun _ => rfl).append ((fine_emit v caps (by omega) (by omega)).append (fine_emitEntries ms caps (by omega) (by omega)))
end

theorem stepM_lack {limit : Nat} {caps : List Nat} {e : Ev} (he : (∃ n, e = .beginArr n) ∨ ∃ n, e = .beginMap n)
    (h1 : reserveOf e ≤ 2 ^ 63 - 1) (h2 : limit < caps.sum + reserveOf e) (s : RS) : stepM limit ⟨s, caps⟩ e = .err .badAlloc := by
  have : reserve limit caps.sum (reserveOf e) = .err .badAlloc := by
    unfold reserve; rw [if_neg (by omega), if_pos (by omega)]
  rcases he with ⟨n, rfl⟩ | ⟨n, rfl⟩ <;> simp only [stepM, this, Res.err_bind]

/-- A container whose contents need more than there is. -/
theorem lack_wrap {limit n : Nat} {caps : List Nat} {b e : Ev} {es : List Ev} {s s' : RS}
    (hb : ∀ s, stepM limit ⟨s, caps⟩ b = step s b >>= fun s' => pure ⟨s', n :: caps⟩) (h : writer.run s (b :: (es ++ [e])) = .ok s')
    (hes : ∀ s s', writer.run s es = .ok s' → (writerM limit).run ⟨s, n :: caps⟩ es = .err .badAlloc) :
    (writerM limit).run ⟨s, caps⟩ (b :: (es ++ [e])) = .err .badAlloc := by
  rw [Writer.run_cons] at h
  obtain ⟨s1, h1, h⟩ := Res.bind_eq_ok.1 h
  rw [Writer.run_append] at h
  obtain ⟨s2, h2, h⟩ := Res.bind_eq_ok.1 h
  have h1 : step s b = .ok s1 := h1
  rw [Writer.run_cons]
  show stepM limit ⟨s, caps⟩ b >>= _ = _
  rw [hb, h1]
  simp only [Res.ok_bind, Res.pure_eq]
  rw [Writer.run_append, hes _ _ h2]
  rfl

mutual
/-- Less memory than the value needs is not enough. -/
theorem lack_emit {limit : Nat} : ∀ (v : Val) (caps : List Nat) (s s' : RS), caps.sum ≤ limit → limit < caps.sum + v.need → v.need < 2 ^ 63 →
    writer.run s (emit v) = .ok s' → (writerM limit).run ⟨s, caps⟩ (emit v) = .err .badAlloc
  | .null, _, _, _, h, h', _, _ | .bool _, _, _, _, h, h', _, _ | .int _, _, _, _, h, h', _, _ | .uint _, _, _, _, h, h', _, _
  | .dbl _, _, _, _, h, h', _, _ | .str _, _, _, _, h, h', _, _ | .blob _, _, _, _, h, h', _, _ => by
    simp only [Val.need] at h'; omega
  | .arr xs, caps, s, s', h0, h1, h2, h3 => by
    simp only [Val.need] at h1 h2
    have e : reserveOf (.beginArr xs.length) = 4 + 16 * xs.length := by simp only [reserveOf, u64]; omega
    by_cases hl : limit < caps.sum + reserveOf (.beginArr xs.length)
    · have := stepM_lack (.inl ⟨_, rfl⟩) (by omega) hl s
      simp only [emit, Writer.run_cons, writerM, this, Res.err_bind]
    · have hb := stepM_open (limit := limit) (caps := caps) (e := .beginArr xs.length) (.inl ⟨_, rfl⟩) (by omega) (by omega)
      exact lack_wrap hb h3 fun s s' h => lack_emitList xs _ s s' (by rw [List.sum_cons]; omega) (by rw [List.sum_cons]; omega) (by omega) h
  | .map ms, caps, s, s', h0, h1, h2, h3 => by
    simp only [Val.need] at h1 h2
    have e : reserveOf (.beginMap ms.length) = 4 + 28 * ms.length := by simp only [reserveOf, u64]; omega
    by_cases hl : limit < caps.sum + reserveOf (.beginMap ms.length)
    · have := stepM_lack (.inr ⟨_, rfl⟩) (by omega) hl s
      simp only [emit, Writer.run_cons, writerM, this, Res.err_bind]
    · have hb := stepM_open (limit := limit) (caps := caps) (e := .beginMap ms.length) (.inr ⟨_, rfl⟩) (by omega) (by omega)
      exact lack_wrap hb h3 fun s s' h => lack_emitEntries ms _ s s' (by rw [List.sum_cons]; omega) (by rw [List.sum_cons]; omega) (by omega) h
theorem lack_emitList {limit : Nat} : ∀ (xs : List Val) (caps : List Nat) (s s' : RS), caps.sum ≤ limit → limit < caps.sum + Val.needList xs →
    Val.needList xs < 2 ^ 63 → writer.run s (emitList xs) = .ok s' → (writerM limit).run ⟨s, caps⟩ (emitList xs) = .err .badAlloc
  | [], _, _, _, h, h', _, _ => by simp only [Val.needList] at h'; omega
  | x :: xs, caps, s, s', h0, h1, h2, h3 => by
    simp only [Val.needList] at h1 h2
    simp only [emitList] at h3 ⊢
    rw [Writer.run_append] at h3
    obtain ⟨s1, h4, h5⟩ := Res.bind_eq_ok.1 h3
    rw [Writer.run_append]
    by_cases hl : limit < caps.sum + x.need
    · rw [lack_emit x caps s s1 h0 hl (by omega) h4]; rfl
    · rw [fine_emit x caps (by omega) (by omega) s, h4]
      simp only [Res.ok_bind, Res.pure_eq]
      exact lack_emitList xs caps s1 s' h0 (by omega) (by omega) h5
theorem lack_emitEntries {limit : Nat} : ∀ (ms : List (Bytes × Val)) (caps : List Nat) (s s' : RS), caps.sum ≤ limit →
    limit < caps.sum + Val.needEntries ms → Val.needEntries ms < 2 ^ 63 → writer.run s (emitEntries ms) = .ok s' →
    (writerM limit).run ⟨s, caps⟩ (emitEntries ms) = .err .badAlloc
  | [], _, _, _, h, h', _, _ => by simp only [Val.needEntries] at h'; omega
  | (k, v) :: ms, caps, s, s', h0, h1, h2, h3 => by
    simp only [Val.needEntries] at h1 h2
    have e : emitEntries ((k, v) :: ms) = [Ev.key k] ++ (emit v ++ emitEntries ms) := by simp [emitEntries]
    rw [e, Writer.run_append] at h3
    obtain ⟨s1, h4, h3⟩ := Res.bind_eq_ok.1 h3
    rw [Writer.run_append] at h3
    obtain ⟨s2, h5, h6⟩ := Res.bind_eq_ok.1 h3
    rw [e, Writer.run_append, (Fine.one (limit := limit) (caps := caps) (e := .key k) fun _ => rfl) s, h4]
    simp only [Res.ok_bind, Res.pure_eq]
    rw [Writer.run_append]
    by_cases hl : limit < caps.sum + v.need
    · rw [lack_emit v caps s1 s2 h0 hl (by omega) h5]; rfl
    · rw [fine_emit v caps (by omega) (by omega) s1, h5]
      simp only [Res.ok_bind, Res.pure_eq]
      exact lack_emitEntries ms caps s2 s' h0 (by omega) (by omega) h6
end

end Zera

/-! ### How much a value needs -/

theorem emit_pos (v : Val) : 1 ≤ (emit v).length := by cases v <;> simp [emit]

mutual
theorem Val.need_le : ∀ v : Val, v.need ≤ 16 * (emit v).length
  | .null | .bool _ | .int _ | .uint _ | .dbl _ | .str _ | .blob _ => by simp [Val.need]
  | .arr xs => by
    have := Val.needList_le xs
    simp only [Val.need, emit, List.length_cons, List.length_append, List.length_nil]
    omega
  | .map ms => by
    have := Val.needEntries_le ms
    simp only [Val.need, emit, List.length_cons, List.length_append, List.length_nil]
    omega
theorem Val.needList_le : ∀ xs : List Val, 16 * xs.length + Val.needList xs ≤ 16 * (emitList xs).length + 16
  | [] => by simp [Val.needList]
  | x :: xs => by
    have := Val.need_le x
    have := Val.needList_le xs
    have := Val.length_le_list xs
    have := emit_pos x
    simp only [Val.needList, emitList, List.length_cons, List.length_append]
    omega
theorem Val.length_le_list : ∀ xs : List Val, xs.length ≤ (emitList xs).length
  | [] => by simp
  | x :: xs => by
    have := Val.length_le_list xs
    have := emit_pos x
    simp only [emitList, List.length_cons, List.length_append]
    omega
theorem Val.needEntries_le : ∀ ms : List (Bytes × Val), 28 * ms.length + Val.needEntries ms ≤ 16 * (emitEntries ms).length + 28
  | [] => by simp [Val.needEntries]
  | (k, v) :: ms => by
    have := Val.need_le v
    have := Val.needEntries_le ms
    have := Val.length_le_entries ms
    have := emit_pos v
    simp only [Val.needEntries, emitEntries, List.length_cons, List.length_append]
    omega
theorem Val.length_le_entries : ∀ ms : List (Bytes × Val), 2 * ms.length ≤ (emitEntries ms).length
  | [] => by simp
  | (k, v) :: ms => by
    have := Val.length_le_entries ms
    have := emit_pos v
    simp only [emitEntries, List.length_cons, List.length_append]
    omega
end

theorem Val.need_le_entries {ms : List (Bytes × Val)} {m : Bytes × Val} (h : m ∈ ms) : m.2.need ≤ Val.needEntries ms := by
  induction ms with
  | nil => simp at h
  | cons y ys ih =>
    obtain ⟨k, v⟩ := y
    simp only [Val.needEntries]
    rcases List.mem_cons.1 h with rfl | h
    · exact Nat.le_max_left _ _
    · have := ih h; omega

theorem Val.needList_le_of {xs : List Val} {n : Nat} (h : ∀ x ∈ xs, x.need ≤ n) : Val.needList xs ≤ n := by
  induction xs with
  | nil => simp [Val.needList]
  | cons x xs ih =>
    have := h x (by simp)
    have := ih fun y hy => h y (by simp [hy])
    simp only [Val.needList]; omega

theorem Val.need_le_list {xs : List Val} {x : Val} (h : x ∈ xs) : x.need ≤ Val.needList xs := by
  induction xs with
  | nil => simp at h
  | cons y ys ih =>
    simp only [Val.needList]
    rcases List.mem_cons.1 h with rfl | h
    · omega
    · have := ih h; omega

theorem Val.needEntries_le_of {ms : List (Bytes × Val)} {n : Nat} (h : ∀ m ∈ ms, m.2.need ≤ n) : Val.needEntries ms ≤ n := by
  induction ms with
  | nil => simp [Val.needEntries]
  | cons x xs ih =>
    obtain ⟨k, v⟩ := x
    have := h (k, v) (by simp)
    have := ih fun y hy => h y (by simp [hy])
    simp only [Val.needEntries]; simp only at *; omega

/-- Repeated keys do not add to the reservations. -/
theorem Val.need_firstWins (v : Val) : v.firstWins.need ≤ v.need := by
  induction v using Val.ind with
  | arr xs ih =>
    simp only [Val.firstWins, Val.need, Val.firstWinsList_eq, List.length_map]
    have : Val.needList (xs.map Val.firstWins) ≤ Val.needList xs := Val.needList_le_of fun x hx => by
      obtain ⟨y, hy, rfl⟩ := List.mem_map.1 hx
      exact Nat.le_trans (ih y hy) (Val.need_le_list hy)
    omega
  | map ms ih =>
    rw [Val.firstWins_map]
    simp only [Val.need, List.length_map]
    have : Val.needEntries ((ms.map Prod.fst).map (fun k => (k, ((firstVal ms k).getD .null).firstWins))) ≤ Val.needEntries ms :=
      Val.needEntries_le_of fun x hx => by
        obtain ⟨k, hk, rfl⟩ := List.mem_map.1 hx
        simp only
        cases e : firstVal ms k with
        | none => simp [Val.firstWins, Val.need]
        | some w =>
          have hm := firstVal_mem e
          exact Nat.le_trans (ih _ hm) (Val.need_le_entries hm)
    omega
  | _ => exact Nat.le_refl _

mutual
theorem Val.need_canon : ∀ v : Val, v.canon.need = v.need
  | .null | .bool _ | .uint _ | .dbl _ | .str _ | .blob _ => by simp only [Val.canon]
  | .int i => by simp only [Val.canon]; split <;> rfl
  | .arr xs => by simp only [Val.canon, Val.need, Val.needList_canon xs]; simp [Val.canonList_eq]
  | .map ms => by simp only [Val.canon, Val.need, Val.needEntries_canon ms]; simp [Val.canonEntries_eq]
theorem Val.needList_canon : ∀ xs : List Val, Val.needList (Val.canonList xs) = Val.needList xs
  | [] => rfl
  | x :: xs => by simp [Val.canonList, Val.needList, Val.need_canon x, Val.needList_canon xs]
theorem Val.needEntries_canon : ∀ ms : List (Bytes × Val), Val.needEntries (Val.canonEntries ms) = Val.needEntries ms
  | [] => rfl
  | (k, v) :: ms => by simp [Val.canonEntries, Val.needEntries, Val.need_canon v, Val.needEntries_canon ms]
end

theorem Val.Same.need {v w : Val} (h : v.Same w) : v.need = w.need := by
  rw [← Val.need_canon v, ← Val.need_canon w, h]

end Zer

namespace Zer.Tensor

variable {ρ : Type}

/-- `tensor_shape`, utils.hpp:85-113, with a memory limit: `vshape.reserve(d.arraySize())` for elements of four bytes. -/
def tensorShapeM (limit : Nat) (R : Reader ρ) (r : ρ) : Res (List Nat) := do
  Res.require (← R.isArray r) .deser
  let n ← R.arraySize r
  if n > (2 ^ 63 - 1) / 4 then .err .length
  else if 4 * n > limit then .err .badAlloc
  else shapeLoop R r n 0

end Zer.Tensor
