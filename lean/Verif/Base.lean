/-!
# Base definitions shared by all models

`Bytes` is the content of a C++ byte buffer; a pointer into it is an offset.
`Res` is the outcome of a C++ call.
-/

namespace Zer

/-- Content of a byte buffer (`std::vector<uint8_t>`, `std::span<const uint8_t>`, `std::string`). -/
abbrev Bytes := List UInt8

/-- Exception classes (`include/zerialize/errors.hpp` and the standard library). -/
inductive Err where
  | deser      -- zerialize::DeserializationError
  | ser        -- zerialize::SerializationError
  | logic      -- std::logic_error
  | runtime    -- std::runtime_error that is none of the above
  | invalidArg -- std::invalid_argument
  | outOfRange -- std::out_of_range
  | length     -- std::length_error
  | badAlloc   -- std::bad_alloc
  | abort      -- not an exception: the process ends (assert, std::terminate)
  deriving DecidableEq, Repr

/-- Outcome of a C++ call: normal return, exception, undefined behaviour, or no return.
`diverge` is produced when the fuel that bounds a loop or a recursion is used up. -/
inductive Res (α : Type) where
  | ok (a : α)
  | err (e : Err)
  | ub
  | diverge
  deriving DecidableEq, Repr

namespace Res

/-- Sequencing: the first outcome that is not a normal return is the outcome of the whole. -/
protected def bind {α β : Type} (x : Res α) (f : α → Res β) : Res β :=
  match x with
  | ok a => f a
  | err e => err e
  | ub => ub
  | diverge => diverge

instance : Monad Res where
  pure := ok
  bind := Res.bind

@[simp] theorem pure_eq {α : Type} (a : α) : (pure a : Res α) = ok a := rfl
@[simp] theorem ok_bind {α β : Type} (a : α) (f : α → Res β) : (ok a >>= f) = f a := rfl
@[simp] theorem err_bind {α β : Type} (e : Err) (f : α → Res β) : ((err e : Res α) >>= f) = err e := rfl
@[simp] theorem ub_bind {α β : Type} (f : α → Res β) : ((ub : Res α) >>= f) = ub := rfl
@[simp] theorem diverge_bind {α β : Type} (f : α → Res β) : ((diverge : Res α) >>= f) = diverge := rfl

instance : LawfulMonad Res := LawfulMonad.mk' _
  (id_map := fun x => by cases x <;> rfl)
  (pure_bind := fun _ _ => rfl)
  (bind_assoc := fun x _ _ => by cases x <;> rfl)

@[simp] theorem bind_ok_self {α : Type} (x : Res α) : (x >>= fun a => ok a) = x := by
  cases x <;> rfl

theorem bind_eq_ok {α β : Type} {x : Res α} {f : α → Res β} {b : β} :
    (x >>= f) = ok b ↔ ∃ a, x = ok a ∧ f a = ok b := by
  cases x <;> simp

/-- `if (!c) throw e;` -/
def require (c : Bool) (e : Err) : Res Unit := if c then ok () else err e

@[simp] theorem require_true {e : Err} : require true e = ok () := rfl
@[simp] theorem require_false {e : Err} : require false e = err e := rfl

theorem require_eq_ok {c : Bool} {e : Err} {u : Unit} : require c e = ok u ↔ c = true := by
  cases c <;> simp [require]

/-- The call neither is undefined behaviour nor runs forever. -/
def Safe {α : Type} (x : Res α) : Prop := (∃ a, x = ok a) ∨ (∃ e, x = err e)

/-- The call returns or raises a DeserializationError. -/
def Clean {α : Type} (x : Res α) : Prop := (∃ a, x = ok a) ∨ x = err .deser

theorem Clean.safe {α : Type} {x : Res α} (h : x.Clean) : x.Safe := by
  rcases h with h | h
  · exact .inl h
  · exact .inr ⟨_, h⟩

theorem Clean.ok {α : Type} (a : α) : (Res.ok a).Clean := .inl ⟨a, rfl⟩
theorem Clean.pure {α : Type} (a : α) : (Pure.pure a : Res α).Clean := .inl ⟨a, rfl⟩
theorem Clean.deser {α : Type} : (Res.err .deser : Res α).Clean := .inr rfl
theorem Clean.require (c : Bool) : (Res.require c .deser).Clean := by
  cases c
  · exact .inr rfl
  · exact .inl ⟨(), rfl⟩
theorem Clean.bind {α β : Type} {x : Res α} {f : α → Res β} (hx : x.Clean)
    (hf : ∀ a, x = .ok a → (f a).Clean) : (x >>= f).Clean := by
  rcases hx with ⟨a, rfl⟩ | rfl
  · exact hf a rfl
  · exact .inr rfl

end Res

/-- `static_cast<uint32_t>(x)` / 32-bit unsigned arithmetic. -/
abbrev u32 (n : Nat) : Nat := n % 2 ^ 32
/-- 64-bit `size_t`/`uint64_t` arithmetic. -/
abbrev u64 (n : Nat) : Nat := n % 2 ^ 64

/-- Largest `uint32_t`. -/
abbrev u32max : Nat := 2 ^ 32 - 1
/-- Largest `uint16_t`. -/
abbrev u16max : Nat := 2 ^ 16 - 1

/-- Read one byte through a pointer at offset `p`; outside the buffer this is undefined. -/
def byteAt (b : Bytes) (p : Nat) : Res Nat :=
  match b[p]? with
  | some x => .ok x.toNat
  | none => .ub

/-- The bytes `[p, p+n)` seen through a `string_view`/`span`; if the range leaves the buffer,
looking at the view is undefined. (Creating such a view is not by itself undefined in C++;
the model identifies returning it with using it.) -/
def sliceAt (b : Bytes) (p n : Nat) : Res Bytes :=
  if p + n ≤ b.length then .ok ((b.drop p).take n) else .ub

/-- `bs` occurs in `b` at offset `o`. -/
def At (b : Bytes) (o : Nat) (bs : Bytes) : Prop :=
  ∃ pre post, b = pre ++ (bs ++ post) ∧ pre.length = o

namespace At

theorem bound {b : Bytes} {o : Nat} {bs : Bytes} (h : At b o bs) : o + bs.length ≤ b.length := by
  obtain ⟨p, q, rfl, rfl⟩ := h; simp

theorem append_right {b : Bytes} {o : Nat} {bs : Bytes} (h : At b o bs) (e : Bytes) :
    At (b ++ e) o bs := by
  obtain ⟨p, q, rfl, rfl⟩ := h
  exact ⟨p, q ++ e, by simp, rfl⟩

theorem shift {b : Bytes} {o : Nat} {bs : Bytes} (h : At b o bs) (pre : Bytes) :
    At (pre ++ b) (pre.length + o) bs := by
  obtain ⟨p, q, rfl, rfl⟩ := h
  exact ⟨pre ++ p, q, by simp, by simp⟩

theorem split {b : Bytes} {o : Nat} {x y : Bytes} :
    At b o (x ++ y) ↔ At b o x ∧ At b (o + x.length) y := by
  constructor
  · rintro ⟨p, q, rfl, rfl⟩
    exact ⟨⟨p, y ++ q, by simp, rfl⟩, ⟨p ++ x, q, by simp, by simp⟩⟩
  · rintro ⟨⟨p, q, h1, h2⟩, ⟨p', q', h1', h2'⟩⟩
    subst h1
    have hb : (p ++ x) ++ q = p' ++ (y ++ q') := by simpa using h1'
    have hl : (p ++ x).length = p'.length := by simp [h2, h2']
    obtain ⟨_, h4⟩ := List.append_inj hb hl
    exact ⟨p, q', by simp [h4], h2⟩

theorem left {b : Bytes} {o : Nat} {x y : Bytes} (h : At b o (x ++ y)) : At b o x := (split.1 h).1
theorem right {b : Bytes} {o : Nat} {x y : Bytes} (h : At b o (x ++ y)) : At b (o + x.length) y :=
  (split.1 h).2

theorem self_end (b x : Bytes) : At (b ++ x) b.length x := ⟨b, [], by simp, rfl⟩

theorem getElem? {b : Bytes} {o : Nat} {bs : Bytes} (h : At b o bs) {i : Nat} (hi : i < bs.length) :
    b[o + i]? = bs[i]? := by
  obtain ⟨p, q, rfl, rfl⟩ := h
  rw [List.getElem?_append_right (by omega)]
  simp [List.getElem?_append_left hi]

theorem byteAt {b : Bytes} {o : Nat} {bs : Bytes} (h : At b o bs) {i : Nat} (hi : i < bs.length) :
    Zer.byteAt b (o + i) = .ok (bs[i].toNat) := by
  simp [Zer.byteAt, h.getElem? hi, hi]

theorem sliceAt {b : Bytes} {o : Nat} {bs : Bytes} (h : At b o bs) :
    Zer.sliceAt b o bs.length = .ok bs := by
  have := h.bound
  obtain ⟨p, q, rfl, rfl⟩ := h
  simp [Zer.sliceAt]

theorem of_slice {b : Bytes} {o n : Nat} (h : o + n ≤ b.length) :
    At b o ((b.drop o).take n) :=
  ⟨b.take o, b.drop (o + n), by
    have : b.drop (o + n) = (b.drop o).drop n := by simp
    rw [this, List.take_append_drop, List.take_append_drop], by simp; omega⟩

theorem inj {b : Bytes} {o : Nat} {x y : Bytes} (hx : At b o x) (hy : At b o y)
    (hl : x.length = y.length) : x = y := by
  obtain ⟨p, q, rfl, hp⟩ := hx
  obtain ⟨p', q', h, hp'⟩ := hy
  obtain ⟨_, h2⟩ := List.append_inj h (by omega)
  exact (List.append_inj h2 hl).1

theorem trans {b c d : Bytes} {o p : Nat} (h : At b o c) (h' : At c p d) : At b (o + p) d := by
  obtain ⟨x, y, rfl, rfl⟩ := h
  obtain ⟨x', y', rfl, rfl⟩ := h'
  exact ⟨x ++ x', y' ++ y, by simp, by simp⟩

end At

theorem byteAt_lt {b : Bytes} {p : Nat} {x : Nat} (h : byteAt b p = .ok x) : x < 256 := by
  unfold byteAt at h
  split at h
  · injection h with h; subst h; exact UInt8.toNat_lt _
  · cases h

theorem byteAt_ok {b : Bytes} {p : Nat} (h : p < b.length) : byteAt b p = .ok b[p].toNat := by
  simp [byteAt, h]

/-! ## Calls that return -/

/-- The call does not run forever. -/
def Returns {α : Type} (x : Res α) : Prop := x ≠ .diverge

theorem Returns.bind {α β : Type} {x : Res α} {f : α → Res β} (hx : Returns x)
    (hf : ∀ a, x = .ok a → Returns (f a)) : Returns (x >>= f) := by
  intro h
  cases x with
  | ok a => exact hf a rfl h
  | diverge => exact hx rfl
  | _ => cases h

theorem returns_ok {α : Type} (a : α) : Returns (Res.ok a) := fun h => by cases h
theorem returns_pure {α : Type} (a : α) : Returns (pure a : Res α) := fun h => by cases h
theorem returns_err {α : Type} (e : Err) : Returns (Res.err e : Res α) := fun h => by cases h
theorem returns_require (c : Bool) (e : Err) : Returns (Res.require c e) := by
  cases c <;> exact fun h => by cases h
theorem returns_byteAt (v : Bytes) (p : Nat) : Returns (byteAt v p) := by
  unfold byteAt; split <;> exact fun h => by cases h
theorem returns_sliceAt (v : Bytes) (p n : Nat) : Returns (sliceAt v p n) := by
  unfold sliceAt; split <;> exact fun h => by cases h

theorem Res.Clean.returns {α : Type} {x : Res α} (h : x.Clean) : Returns x := by
  rcases h with ⟨a, rfl⟩ | rfl <;> exact fun h => by cases h

end Zer
