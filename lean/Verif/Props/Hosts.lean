import Verif.Props.Tensor

/-!
# Property C113: numbers mean the same on machines of either byte order

The protocols put together integers from single bytes with shifts (zera.hpp:62-104, msgpack.hpp:22-34, cbor.hpp:83-87), so that the order of the
machine does not matter; bits of floating-point numbers go through `memcpy` between an integer and a number of the same size (zera.hpp:265, 734,
msgpack.hpp:352-353, cbor.hpp:264-265). Tensors are copied as they are in memory (`span_from_data_of`, utils.hpp:122-129; xtensor.hpp:165, 196,
eigen.hpp:173, 196), and nothing in the message says in what order that was. Assumed of machines: floating-point numbers are in the same order as
integers of their size; complex numbers are their two parts one after the other.
-/

namespace Zer.Tensor

/-- The order of bytes of a machine. -/
inductive Order where
  | little | big
  deriving DecidableEq

/-- The bytes of a number in `w` bytes of memory, least significant first. -/
def leBytes : Nat → Nat → Bytes
  | 0, _ => []
  | w + 1, x => UInt8.ofNat (x % 256) :: leBytes w (x / 256)

/-- The number that bytes are, least significant first. -/
def leNum : Bytes → Nat
  | [] => 0
  | c :: cs => c.toNat + 256 * leNum cs

/-- A number in memory. -/
def Order.store : Order → Nat → Nat → Bytes
  | .little, w, x => leBytes w x
  | .big, w, x => (leBytes w x).reverse

/-- The number that is in memory. -/
def Order.load : Order → Bytes → Nat
  | .little, b => leNum b
  | .big, b => leNum b.reverse

/-- How many numbers an element is, and in how many bytes each. -/
def DType.parts : DType → Nat × Nat
  | .c32 => (2, 4)
  | .c64 => (2, 8)
  | dt => (1, dt.size)

/-- An element in memory. -/
def Order.elem (o : Order) (w : Nat) (xs : List Nat) : Bytes := xs.flatMap (o.store w)

/-- The `n` numbers that an element in memory is. -/
def Order.value (o : Order) (w : Nat) : Nat → Bytes → List Nat
  | 0, _ => []
  | n + 1, b => o.load (b.take w) :: o.value w n (b.drop w)

/-- A number with its `w` bytes in the other order. -/
def swapped : Nat → Nat → Nat
  | 0, _ => 0
  | w + 1, x => x % 256 * 256 ^ w + swapped w (x / 256)

theorem leBytes_length : ∀ w x, (leBytes w x).length = w
  | 0, _ => rfl
  | w + 1, x => by simp [leBytes, leBytes_length w]

theorem leNum_leBytes : ∀ w x, leNum (leBytes w x) = x % 256 ^ w
  | 0, x => by simp [leBytes, leNum, Nat.mod_one]
  | w + 1, x => by
    show (UInt8.ofNat (x % 256)).toNat + 256 * leNum (leBytes w (x / 256)) = x % (256 ^ w * 256)
    rw [leNum_leBytes w, Nat.mul_comm (256 ^ w) 256, Nat.mod_mul]
    simp

theorem leNum_append : ∀ a b, leNum (a ++ b) = leNum a + 256 ^ a.length * leNum b
  | [], b => by simp [leNum]
  | c :: a, b => by
    rw [List.cons_append, leNum, leNum_append a, leNum, List.length_cons, Nat.pow_succ, Nat.mul_add, Nat.mul_comm (256 ^ a.length) 256, Nat.mul_assoc]
    omega

theorem leNum_reverse : ∀ w x, leNum (leBytes w x).reverse = swapped w x
  | 0, _ => rfl
  | w + 1, x => by
    rw [leBytes, List.reverse_cons, leNum_append, leNum_reverse w, List.length_reverse, leBytes_length, swapped]
    simp [leNum, Nat.mul_comm]
    omega

theorem store_length (o : Order) (w x : Nat) : (o.store w x).length = w := by
  cases o <;> simp [Order.store, leBytes_length]

/-- What one machine has stored, read by another. -/
theorem load_store (A B : Order) (w : Nat) {x : Nat} (hx : x < 256 ^ w) : B.load (A.store w x) = if A = B then x else swapped w x := by
  cases A <;> cases B <;> simp [Order.load, Order.store, leNum_leBytes, leNum_reverse, Nat.mod_eq_of_lt hx]

theorem value_elem (A B : Order) (w : Nat) : ∀ (xs : List Nat), (∀ x ∈ xs, x < 256 ^ w) →
    B.value w xs.length (A.elem w xs) = if A = B then xs else xs.map (swapped w)
  | [], _ => by simp [Order.value]
  | x :: xs, h => by
    have ih := value_elem A B w xs fun y hy => h y (List.mem_cons_of_mem _ hy)
    have e : A.elem w (x :: xs) = A.store w x ++ A.elem w xs := by simp [Order.elem]
    rw [e, List.length_cons, Order.value, List.take_left' (store_length A w x), List.drop_left' (store_length A w x), ih,
      load_store A B w (h x (List.mem_cons_self ..))]
    split <;> simp

/-- **C113** Numbers that are not in tensors: the bits that are copied between an integer and a floating-point number by `memcpy` are the same bits on
every machine, so that the bytes of a message, which the model gives without reference to a machine, are the same on every machine. -/
theorem c113_memcpy (o : Order) (w : Nat) {x : Nat} (hx : x < 256 ^ w) : o.load (o.store w x) = x := by
  rw [load_store o o w hx, if_pos rfl]

/-- C113 for tensors, exactly: a row-major tensor that was written on machine `A` in any protocol, and read on machine `B`, has at every index the
numbers that it had, if both have the same order, and otherwise these with their bytes in the other order. -/
theorem c113_tensor_exact {P : TProto} {q : Prop} {dom : Val → Prop} (L : P.Law q dom) {k : Cont}
    {dt : DType} {x : Dyn.Src} (hx : xtSrc k dt = .ok x) (hd : ∀ d ∈ k.shape, d < 2 ^ 32)
    (hc : ∀ p q, k.shape = p ++ q → 0 ∉ p → p.foldr (· * ·) 1 < 2 ^ 64)
    (hn : k.shape.foldr (· * ·) 1 * dt.size < 2 ^ 64)
    (hdom : dom (tval dt.code k.shape (k.mem.take (k.shape.foldr (· * ·) 1 * dt.size)))) {b : Bytes}
    (hb : Dyn.serialize P.toProto x = .ok b) (addr : P.ρ → Nat) (hm : RowMajor k)
    (A B : Order) (val : List Nat → List Nat)
    (hA : ∀ idx, Inside idx k.shape → k.at dt idx = .ok (A.elem dt.parts.2 (val idx)))
    (hval : ∀ idx, Inside idx k.shape → (val idx).length = dt.parts.1 ∧ ∀ x ∈ val idx, x < 256 ^ dt.parts.2) :
    ∃ r v, P.opn b = .ok r ∧ asXTensorView (P.treader addr) dt none r = .ok v ∧ v.shape = k.shape ∧
      ∀ idx, Inside idx k.shape → ∃ e, v.at dt idx = .ok e ∧
        B.value dt.parts.2 dt.parts.1 e = if A = B then val idx else (val idx).map (swapped dt.parts.2) := by
  obtain ⟨r, v, h1, h2, h3⟩ := c69_xtensor_elements_partial L hx hd hc hn hdom hb addr hm
  obtain ⟨r', v', h1', h2', h4, -⟩ := c37_xtensor_end_to_end_partial L hx hd hc hn hdom hb addr
  cases h1.symm.trans h1'
  cases h2.symm.trans h2'
  refine ⟨r, v, h1, h2, h4, fun idx hi => ?_⟩
  obtain ⟨e, he, hv⟩ := h3 idx hi
  obtain ⟨hl, hr⟩ := hval idx hi
  cases (hA idx hi).symm.trans he
  exact ⟨_, hv, hl ▸ value_elem A B _ _ hr⟩

/-- C113 for matrices of Eigen, exactly: the same, if the matrix is read with the storage order that it was written with. -/
theorem c113_matrix_exact {P : TProto} {q : Prop} {dom : Val → Prop} (L : P.Law q dom) {k : Cont} {dt : DType}
    {x : Dyn.Src} (hx : eigenSrc k dt = .ok x) {rows cols : Nat} (hs : k.shape = [rows, cols])
    (hr : rows < 2 ^ 32) (hc : cols < 2 ^ 32) (hn : rows * cols * dt.size < 2 ^ 64)
    (hdom : dom (tval dt.code [rows, cols] (k.mem.take (rows * cols * dt.size)))) {b : Bytes}
    (hb : Dyn.serialize P.toProto x = .ok b) (addr : P.ρ → Nat) (rowMajor : Bool)
    (hm : if rowMajor then RowMajor k else ColMajor k)
    (A B : Order) (val : Nat → Nat → List Nat)
    (hA : ∀ i j, i < rows → j < cols → k.at dt [i, j] = .ok (A.elem dt.parts.2 (val i j)))
    (hval : ∀ i j, i < rows → j < cols → (val i j).length = dt.parts.1 ∧ ∀ x ∈ val i j, x < 256 ^ dt.parts.2) :
    ∃ r v, P.opn b = .ok r ∧ asEigenMatrixView (P.treader addr) dt none none r = .ok v ∧
      ∀ i j, i < rows → j < cols → ∃ e, v.atEigen dt rowMajor [i, j] = .ok e ∧
        B.value dt.parts.2 dt.parts.1 e = if A = B then val i j else (val i j).map (swapped dt.parts.2) := by
  obtain ⟨r, v, h1, h2, h3⟩ := c69_eigen_elements_partial L hx hs hr hc hn hdom hb addr rowMajor hm
  refine ⟨r, v, h1, h2, fun i j hi hj => ?_⟩
  obtain ⟨e, he, hv⟩ := h3 i j hi hj
  obtain ⟨hl, hb⟩ := hval i j hi hj
  cases (hA i j hi hj).symm.trans he
  exact ⟨_, hv, hl ▸ value_elem A B _ _ hb⟩

theorem swapped_one {x : Nat} (h : x < 256 ^ 1) : swapped 1 x = x := by
  simp only [swapped, Nat.pow_zero]
  omega

/-- C113 for tensors between machines of the same order, and for tensors of bytes between any machines. Missing: other element types between machines
of different orders (`c113_tensor_refuted`). -/
theorem c113_tensor_partial {P : TProto} {q : Prop} {dom : Val → Prop} (L : P.Law q dom) {k : Cont}
    {dt : DType} {x : Dyn.Src} (hx : xtSrc k dt = .ok x) (hd : ∀ d ∈ k.shape, d < 2 ^ 32)
    (hc : ∀ p q, k.shape = p ++ q → 0 ∉ p → p.foldr (· * ·) 1 < 2 ^ 64)
    (hn : k.shape.foldr (· * ·) 1 * dt.size < 2 ^ 64)
    (hdom : dom (tval dt.code k.shape (k.mem.take (k.shape.foldr (· * ·) 1 * dt.size)))) {b : Bytes}
    (hb : Dyn.serialize P.toProto x = .ok b) (addr : P.ρ → Nat) (hm : RowMajor k)
    (A B : Order) (hAB : A = B ∨ dt.parts.2 = 1) (val : List Nat → List Nat)
    (hA : ∀ idx, Inside idx k.shape → k.at dt idx = .ok (A.elem dt.parts.2 (val idx)))
    (hval : ∀ idx, Inside idx k.shape → (val idx).length = dt.parts.1 ∧ ∀ x ∈ val idx, x < 256 ^ dt.parts.2) :
    ∃ r v, P.opn b = .ok r ∧ asXTensorView (P.treader addr) dt none r = .ok v ∧ v.shape = k.shape ∧
      ∀ idx, Inside idx k.shape → ∃ e, v.at dt idx = .ok e ∧ B.value dt.parts.2 dt.parts.1 e = val idx := by
  obtain ⟨r, v, h1, h2, h3, h4⟩ := c113_tensor_exact L hx hd hc hn hdom hb addr hm A B val hA hval
  refine ⟨r, v, h1, h2, h3, fun idx hi => ?_⟩
  obtain ⟨e, he, hv⟩ := h4 idx hi
  refine ⟨e, he, hv.trans ?_⟩
  split
  · rfl
  · rename_i hne
    have h1 := hAB.resolve_left hne
    rw [h1]
    have hr := (hval idx hi).2
    rw [h1] at hr
    exact (List.map_congr_left fun x hx => swapped_one (hr x hx)).trans (by simp)

/-- The tensor `{1.0}` in the memory of a machine. -/
def unit (A : Order) : Cont := ⟨A.store 8 0x3FF0000000000000, [1], [1], 0⟩

/-- C113 is false of tensors: `{1.0}`, written in ZERA on a machine of either order, is read without an error on a machine of the other as
3.03865e-319. -/
theorem c113_tensor_refuted (A B : Order) (h : A ≠ B) : ∃ x b r v e, xtSrc (unit A) .f64 = .ok x ∧ Dyn.serialize zera.toProto x = .ok b ∧
    zera.opn b = .ok r ∧ asXTensorView (zera.treader fun _ => 0) .f64 none r = .ok v ∧ v.at .f64 [0] = .ok e ∧
    A.value 8 1 e = [0x3FF0000000000000] ∧ B.value 8 1 e = [0xF03F] := by
  have e : ∀ A B : Order, A ≠ B → (do
      let x ← xtSrc (unit A) .f64
      let b ← Dyn.serialize zera.toProto x
      let r ← zera.opn b
      let v ← asXTensorView (zera.treader fun _ => 0) .f64 none r
      let e ← v.at .f64 [0]
      pure (A.value 8 1 e, B.value 8 1 e)) = .ok ([0x3FF0000000000000], [0xF03F]) := by
    intro A B h
    cases A <;> cases B <;> first | exact absurd rfl h | decide +kernel
  obtain ⟨x, h1, e1⟩ := Res.bind_eq_ok.1 (e A B h)
  obtain ⟨b, h2, e2⟩ := Res.bind_eq_ok.1 e1
  obtain ⟨r, h3, e3⟩ := Res.bind_eq_ok.1 e2
  obtain ⟨v, h4, e4⟩ := Res.bind_eq_ok.1 e3
  obtain ⟨y, h5, e5⟩ := Res.bind_eq_ok.1 e4
  have e6 := Res.ok.inj e5
  exact ⟨x, b, r, v, y, h1, h2, h3, h4, h5, congrArg Prod.fst e6, congrArg Prod.snd e6⟩

/-- The hypotheses of `c113_tensor_exact` can be met: the tensor `{1.0}` in ZERA. -/
example (A : Order) : ∃ x b, xtSrc (unit A) .f64 = .ok x ∧ Dyn.serialize zera.toProto x = .ok b ∧ RowMajor (unit A) ∧
    ∀ idx, Inside idx (unit A).shape → (unit A).at .f64 idx = .ok (A.elem (DType.parts .f64).2 [0x3FF0000000000000]) := by
  have e : isOk (do let x ← xtSrc (unit A) .f64; Dyn.serialize zera.toProto x) = true := by cases A <;> decide +kernel
  obtain ⟨b, hb⟩ := isOk_iff.1 e
  obtain ⟨x, h1, h2⟩ := Res.bind_eq_ok.1 hb
  have hi : ∀ idx, Inside idx [1] → idx = [0] := by
    intro idx h
    match idx, h with
    | [i], h => simp only [Inside] at h; rw [show i = 0 by omega]
  refine ⟨x, b, h1, h2, fun idx h => ?_, fun idx h => ?_⟩
  · rw [hi idx h]; rfl
  · rw [hi idx h]; cases A <;> decide +kernel

/-- The tensor `{1.0f + 2.0fi}` in the memory of a machine. -/
def imag (A : Order) : Cont := ⟨A.store 4 0x3F800000 ++ A.store 4 0x40000000, [1], [1], 0⟩

/-- C113 is false of complex numbers in the same way: each part has its bytes swapped, and the parts keep their places. Stated with the parts that
`DType.parts` gives. -/
theorem c113_complex_refuted (A B : Order) (h : A ≠ B) : ∃ x b r v e, xtSrc (imag A) .c32 = .ok x ∧ Dyn.serialize zera.toProto x = .ok b ∧
    zera.opn b = .ok r ∧ asXTensorView (zera.treader fun _ => 0) .c32 none r = .ok v ∧ v.at .c32 [0] = .ok e ∧
    A.value (DType.parts .c32).2 (DType.parts .c32).1 e = [0x3F800000, 0x40000000] ∧
    B.value (DType.parts .c32).2 (DType.parts .c32).1 e = [0x803F, 0x40] := by
  have e : ∀ A B : Order, A ≠ B → (do
      let x ← xtSrc (imag A) .c32
      let b ← Dyn.serialize zera.toProto x
      let r ← zera.opn b
      let v ← asXTensorView (zera.treader fun _ => 0) .c32 none r
      let e ← v.at .c32 [0]
      pure (A.value (DType.parts .c32).2 (DType.parts .c32).1 e, B.value (DType.parts .c32).2 (DType.parts .c32).1 e)) =
        .ok ([0x3F800000, 0x40000000], [0x803F, 0x40]) := by
    intro A B h
    cases A <;> cases B <;> first | exact absurd rfl h | decide +kernel
  obtain ⟨x, h1, e1⟩ := Res.bind_eq_ok.1 (e A B h)
  obtain ⟨b, h2, e2⟩ := Res.bind_eq_ok.1 e1
  obtain ⟨r, h3, e3⟩ := Res.bind_eq_ok.1 e2
  obtain ⟨v, h4, e4⟩ := Res.bind_eq_ok.1 e3
  obtain ⟨y, h5, e5⟩ := Res.bind_eq_ok.1 e4
  have e6 := Res.ok.inj e5
  exact ⟨x, b, r, v, y, h1, h2, h3, h4, h5, congrArg Prod.fst e6, congrArg Prod.snd e6⟩

/-- The parts of an element are all of it: complex numbers are two numbers of half the size, everything else is one. -/
theorem DType.parts_spec (dt : DType) : dt.parts.1 * dt.parts.2 = dt.size ∧ (dt.parts.1 = 2 ↔ dt = .c32 ∨ dt = .c64) ∧ (dt.parts.1 = 1 ∨ dt.parts.1 = 2) := by
  cases dt <;> first | decide | simp [DType.parts]

/-- The matrix `{{1, 2}, {3, 4}}` of 16-bit numbers in the memory of a machine, row by row. -/
def quad (A : Order) : Cont := ⟨A.store 2 1 ++ A.store 2 2 ++ A.store 2 3 ++ A.store 2 4, [2, 2], [2, 1], 0⟩

/-- The hypotheses of `c113_matrix_exact` can be met: a matrix of four numbers in MessagePack. -/
example (A : Order) : ∃ x b, eigenSrc (quad A) .i16 = .ok x ∧ Dyn.serialize msgpack.toProto x = .ok b ∧ RowMajor (quad A) ∧
    ∀ i j, i < 2 → j < 2 → (quad A).at .i16 [i, j] = .ok (A.elem (DType.parts .i16).2 [2 * i + j + 1]) := by
  have e : isOk (do let x ← eigenSrc (quad A) .i16; Dyn.serialize msgpack.toProto x) = true := by cases A <;> decide +kernel
  obtain ⟨b, hb⟩ := isOk_iff.1 e
  obtain ⟨x, h1, h2⟩ := Res.bind_eq_ok.1 hb
  refine ⟨x, b, h1, h2, fun idx h => ?_, fun i j hi hj => ?_⟩
  · match idx, h with
    | [i, j], h =>
      simp only [quad, Inside] at h
      obtain ⟨hi, hj, -⟩ := h
      have : i = 0 ∨ i = 1 := by omega
      have : j = 0 ∨ j = 1 := by omega
      rcases ‹i = 0 ∨ i = 1› with rfl | rfl <;> rcases ‹j = 0 ∨ j = 1› with rfl | rfl <;> rfl
  · have : i = 0 ∨ i = 1 := by omega
    have : j = 0 ∨ j = 1 := by omega
    rcases ‹i = 0 ∨ i = 1› with rfl | rfl <;> rcases ‹j = 0 ∨ j = 1› with rfl | rfl <;> cases A <;> decide +kernel
end Zer.Tensor
