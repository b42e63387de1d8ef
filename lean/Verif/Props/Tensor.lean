import Verif.Tensor.Proto
import Verif.Tensor.Invert
import Verif.Props.Dyn

/-!
# Properties C37-C42, C66-C69: tensors
-/

namespace Zer.Tensor
open Zer

variable {ρ : Type}

/-! ### C41: element counts -/

/-- C41: what `checked_element_count` returns is the product of the dimensions, and fits in a `size_t`;
otherwise it raises DeserializationError. -/
theorem c41_count_product (ds : List Nat) :
    (∃ n, checkedCount 1 ds = .ok n ∧ n = ds.foldr (· * ·) 1 ∧ n < 2 ^ 64) ∨ checkedCount 1 ds = .err .deser := by
  rcases checkedCount_err (ds := ds) (c := 1) with ⟨n, h⟩ | h
  · exact .inl ⟨n, h, by rw [checkedCount_ok h, Nat.one_mul]; rfl, checkedCount_lt (by omega) h⟩
  · exact .inr h

/-- C41: without empty dimensions it succeeds exactly if the product fits. -/
theorem c41_count_exact {ds : List Nat} (h0 : 0 ∉ ds) :
    (ds.foldr (· * ·) 1 < 2 ^ 64 → checkedCount 1 ds = .ok (ds.foldr (· * ·) 1)) ∧
    (2 ^ 64 ≤ ds.foldr (· * ·) 1 → checkedCount 1 ds = .err .deser) := by
  have h := checkedCount_iff (ds := ds) (c := 1) (by omega)
  simp only [Nat.one_mul] at h
  have h' : (∃ n, checkedCount 1 ds = .ok n) ↔ prod ds < 2 ^ 64 := h.trans (countable_of_pos h0)
  refine ⟨fun hp => ?_, fun hp => ?_⟩
  · obtain ⟨n, hn⟩ := h'.2 hp
    rw [hn, checkedCount_ok hn, Nat.one_mul]; rfl
  · rcases checkedCount_err (ds := ds) (c := 1) with ⟨n, hn⟩ | hn
    · have := h'.1 ⟨n, hn⟩
      exact absurd hp (by unfold prod at this; omega)
    · exact hn

/-- C41, the exact condition for all shapes: the dimensions before the first zero decide. Two orders of the
same dimensions may differ. -/
theorem c41_count_iff (ds : List Nat) :
    ((∃ n, checkedCount 1 ds = .ok n) ↔ ∀ p q, ds = p ++ q → 0 ∉ p → p.foldr (· * ·) 1 < 2 ^ 64) ∧
    checkedCount 1 [2 ^ 32 - 1, 2 ^ 32 - 1, 2 ^ 32 - 1, 0] = .err .deser ∧
    checkedCount 1 [0, 2 ^ 32 - 1, 2 ^ 32 - 1, 2 ^ 32 - 1] = .ok 0 := by
  refine ⟨?_, by decide +kernel, by decide +kernel⟩
  have := checkedCount_iff (ds := ds) (c := 1) (by omega)
  simp only [Nat.one_mul] at this
  exact this

example : (0 ∉ [3, 4, 5]) ∧ checkedCount 1 [3, 4, 5] = .ok 60 := by decide

/-! ### C42: element types -/

/-- C42: supported element types with the same code, or with the same name, are the same; the name printed
for a code is the name of the type; and something is printed for every integer. -/
theorem c42_dtype_codes :
    (∀ a b : DType, a.Supported → b.Supported → (a.code = b.code ∨ a.name = b.name) → a = b) ∧
    (∀ a : DType, a.Supported → typeNameFromCode a.code = a.name) ∧
    (∀ c : Int, typeNameFromCode c ≠ "" ∧
      (typeNameFromCode c = "unknown" ↔ ¬ ∃ a : DType, a.Supported ∧ a.code = c)) := by
  refine ⟨?_, ?_, ?_⟩
  · intro a b ha hb h
    cases a <;> cases b <;> simp_all [DType.Supported, DType.code, DType.name]
  · intro a ha
    cases a <;> simp_all [DType.Supported, DType.code, DType.name, typeNameFromCode]
  · intro c
    have names : ∀ a : DType, a.Supported → a.name ≠ "" ∧ a.name ≠ "unknown" := by
      intro a ha
      cases a <;> simp_all [DType.Supported, DType.name]
    have codes : ∀ a : DType, a.Supported → typeNameFromCode a.code = a.name := by
      intro a ha
      cases a <;> simp_all [DType.Supported, DType.code, DType.name, typeNameFromCode]
    by_cases h : ∃ a : DType, a.Supported ∧ a.code = c
    · obtain ⟨a, ha, rfl⟩ := h
      rw [codes a ha]
      exact ⟨(names a ha).1, fun e => absurd e (names a ha).2, fun e => absurd ⟨a, ha, rfl⟩ e⟩
    · have hc : typeNameFromCode c = "unknown" := by
        have h1 : ∀ a : DType, a.Supported → c ≠ a.code := fun a ha e => h ⟨a, ha, e.symm⟩
        have := h1 .i8 trivial
        have := h1 .i16 trivial
        have := h1 .i32 trivial
        have := h1 .i64 trivial
        have := h1 .u8 trivial
        have := h1 .u16 trivial
        have := h1 .u32 trivial
        have := h1 .u64 trivial
        have := h1 .f32 trivial
        have := h1 .f64 trivial
        have := h1 .c32 trivial
        have := h1 .c64 trivial
        have := h1 .half trivial
        simp_all [typeNameFromCode, DType.code]
      rw [hc]
      exact ⟨by decide, fun _ => h, fun _ => rfl⟩

/-! ### C40: shapes -/

/-- The value is the integer `d` and a possible dimension. -/
def IsDim (v : Val) (d : Nat) : Prop :=
  d < 2 ^ 32 ∧ ((∃ i : Int64, v = .int i ∧ i.toInt = (d : Int)) ∨ ∃ n : UInt64, v = .uint n ∧ n.toNat = d)

theorem dimOf_iff {v : Val} {d : Nat} : dimOf v = some d ↔ IsDim v d := by
  unfold IsDim
  cases v with
  | int i =>
    simp only [dimOf, Val.int.injEq, reduceCtorEq, false_and, exists_false, or_false]
    constructor
    · intro h
      split at h
      · injection h with h
        exact ⟨by omega, i, rfl, by omega⟩
      · cases h
    · rintro ⟨h, j, rfl, e⟩
      rw [if_pos (by omega)]
      congr 1; omega
  | uint n =>
    simp only [dimOf, Val.uint.injEq, reduceCtorEq, false_and, exists_false, false_or]
    constructor
    · intro h
      split at h
      · injection h with h
        exact ⟨by omega, n, rfl, h⟩
      · cases h
    · rintro ⟨h, j, rfl, e⟩
      rw [if_pos (by omega), e]
  | _ => simp [dimOf]

theorem dimsOf_some : ∀ {vs : List Val} {ds : List Nat}, dimsOf vs = some ds ↔
    ds.length = vs.length ∧ ∀ i (h1 : i < vs.length) (h2 : i < ds.length), IsDim vs[i] ds[i]
  | [], ds => by
    simp only [dimsOf, Option.some.injEq, List.length_nil, List.length_eq_zero_iff]
    exact ⟨fun h => ⟨h.symm, fun i h1 => absurd h1 (by omega)⟩, fun h => h.1.symm⟩
  | v :: vs, ds => by
    simp only [dimsOf, Option.bind_eq_some_iff, Option.map_eq_some_iff]
    constructor
    · rintro ⟨d, hd, ds', h, rfl⟩
      obtain ⟨h1, h2⟩ := dimsOf_some.1 h
      refine ⟨by simp [h1], fun i hi hi' => ?_⟩
      cases i with
      | zero => exact dimOf_iff.1 hd
      | succ i => exact h2 i (by simpa using hi) (by simpa using hi')
    · rintro ⟨hl, h⟩
      cases ds with
      | nil => simp at hl
      | cons d ds =>
        refine ⟨d, dimOf_iff.2 (h 0 (by simp) (by simp)), ds, dimsOf_some.2 ⟨by simpa using hl, fun i hi hi' => ?_⟩, rfl⟩
        exact h (i + 1) (by simpa using hi) (by simpa using hi')

/-- C40: on any position that presents an array, `tensor_shape` returns the elements exactly if all of them
are integers from 0 to 2^32-1 (of either signedness), and raises DeserializationError otherwise. -/
theorem c40_tensor_shape {R : Reader ρ} {p : Prop} {r : ρ} {vs : List Val} (h : R.AgreesW p r (.arr vs)) :
    (∀ ds : List Nat, tensorShape R r = .ok ds ↔
      ds.length = vs.length ∧ ∀ i (h1 : i < vs.length) (h2 : i < ds.length), IsDim vs[i] ds[i]) ∧
    ((∃ v ∈ vs, ∀ d, ¬ IsDim v d) ↔ tensorShape R r = .err .deser) := by
  rw [tensorShape_arr h]
  refine ⟨fun ds => ?_, ?_⟩
  · rw [← dimsOf_some]
    cases dimsOf vs <;> simp
  · constructor
    · rintro ⟨v, hv, hd⟩
      cases e : dimsOf vs with
      | none => rfl
      | some ds =>
        obtain ⟨h1, h2⟩ := dimsOf_some.1 e
        obtain ⟨i, hi, rfl⟩ := List.mem_iff_getElem.1 hv
        exact absurd (h2 i hi (by omega)) (hd _)
    · intro h'
      by_cases hc : ∃ v ∈ vs, ∀ d, ¬ IsDim v d
      · exact hc
      · exfalso
        have hall : ∀ v ∈ vs, ∃ d, IsDim v d := fun v hv => Classical.byContradiction fun hn =>
          hc ⟨v, hv, fun d hd => hn ⟨d, hd⟩⟩
        have : ∃ ds, dimsOf vs = some ds := by
          clear h h' hc
          induction vs with
          | nil => exact ⟨[], rfl⟩
          | cons v vs ih =>
            obtain ⟨d, hd⟩ := hall v (by simp)
            obtain ⟨ds, hds⟩ := ih (fun v hv => hall v (by simp [hv]))
            exact ⟨d :: ds, by simp [dimsOf, dimOf_iff.2 hd, hds]⟩
        obtain ⟨ds, hds⟩ := this
        rw [hds] at h'
        cases h'

/-- C40: on a position that presents something that is no array, it raises DeserializationError. The blobs of
JSON are arrays too, for them see `c40_json_blob`. -/
theorem c40_tensor_shape_other {R : Reader ρ} {p : Prop} {r : ρ} {v : Val} (h : R.AgreesW p r v)
    (hv : ∀ vs, v ≠ .arr vs) (hb : p ∨ ∀ b, v ≠ .blob b) : tensorShape R r = .err .deser := by
  refine tensorShape_not_arr ?_
  cases h with
  | arr => exact absurd rfl (hv _)
  | blob h1 _ h3 =>
    rcases hb with hb | hb
    · have := h3 hb; subst this; exact h1.2.2.2.2.2.2.2
    · exact absurd rfl (hb _)
  | null h => exact h.2.2.2.2.2.2.2
  | bool h => exact h.2.2.2.2.2.2.2
  | int h => exact h.1.2.2.2.2.2.2.2
  | uint h => exact h.1.2.2.2.2.2.2.2
  | dbl h => exact h.2.2.2.2.2.2.2
  | str h => exact h.2.2.2.2.2.2.2
  | map _ h => exact h.2.2.2.2.2.2.2

/-- C40: a JSON blob, which is also an array, is no shape. -/
theorem c40_json_blob (t : Bytes) :
    tensorShape Json.reader (.arr [.str Json.blobTag, .str t, .str Json.blobEncoding]) = .err .deser := by
  rfl

/-- C40 for any position of any reader, also of corrupt data: if dimensions are returned, the node is an array
of that many elements, and each dimension is below 2^32 and is the number that the matching accessor returns. -/
theorem c40_tensor_shape_sound {R : Reader ρ} {r : ρ} {ds : List Nat} (h : tensorShape R r = .ok ds) :
    R.isArray r = .ok true ∧ R.arraySize r = .ok ds.length ∧
    ∀ i (hi : i < ds.length), ds[i] < 2 ^ 32 ∧ ∃ e, R.getIdx r i = .ok e ∧
      ((R.isUInt e = .ok true ∧ ∃ x, R.asUInt64 e = .ok x ∧ x.toNat = ds[i]) ∨
       (R.isUInt e = .ok false ∧ R.isInt e = .ok true ∧ ∃ x, R.asInt64 e = .ok x ∧ x.toInt = (ds[i] : Int))) := by
  have elem : ∀ {e d}, shapeElem R e = .ok d → d < 2 ^ 32 ∧
      ((R.isUInt e = .ok true ∧ ∃ x, R.asUInt64 e = .ok x ∧ x.toNat = d) ∨
       (R.isUInt e = .ok false ∧ R.isInt e = .ok true ∧ ∃ x, R.asInt64 e = .ok x ∧ x.toInt = (d : Int))) := by
    intro e d h
    have hm : u32max = 2 ^ 32 - 1 := rfl
    unfold shapeElem at h
    obtain ⟨u, hu, h⟩ := Res.bind_eq_ok.1 h
    cases u with
    | true =>
      simp only [if_true] at h
      obtain ⟨x, hx, h'⟩ := Res.bind_eq_ok.1 h
      split at h'
      · cases h'
      · injection h' with h'
        exact ⟨by omega, .inl ⟨hu, x, hx, h'⟩⟩
    | false =>
      simp only [Bool.false_eq_true, if_false] at h
      obtain ⟨i, hi, h⟩ := Res.bind_eq_ok.1 h
      cases i with
      | false => simp at h
      | true =>
        simp only [if_true] at h
        obtain ⟨x, hx, h'⟩ := Res.bind_eq_ok.1 h
        split at h'
        · cases h'
        · split at h'
          · cases h'
          · injection h' with h'
            exact ⟨by omega, .inr ⟨hu, hi, x, hx, by omega⟩⟩
  have loop : ∀ (n i : Nat) (ds : List Nat), shapeLoop R r n i = .ok ds → ds.length = n ∧
      ∀ j (hj : j < ds.length), ∃ e, R.getIdx r (i + j) = .ok e ∧ shapeElem R e = .ok ds[j] := by
    intro n
    induction n with
    | zero =>
      intro i ds h
      simp only [shapeLoop, Res.pure_eq, Res.ok.injEq] at h
      subst h
      exact ⟨rfl, fun j hj => by simp at hj⟩
    | succ n ih =>
      intro i ds h
      simp only [shapeLoop] at h
      obtain ⟨e, he, h⟩ := Res.bind_eq_ok.1 h
      obtain ⟨d, hd, h⟩ := Res.bind_eq_ok.1 h
      obtain ⟨ds', hds, h⟩ := Res.bind_eq_ok.1 h
      simp only [Res.pure_eq, Res.ok.injEq] at h
      subst h
      obtain ⟨h1, h2⟩ := ih _ _ hds
      refine ⟨by simp [h1], fun j hj => ?_⟩
      cases j with
      | zero => exact ⟨e, he, hd⟩
      | succ j =>
        have := h2 j (by simpa using hj)
        simpa [show i + 1 + j = i + (j + 1) by omega] using this
  unfold tensorShape at h
  obtain ⟨a, ha, h⟩ := Res.bind_eq_ok.1 h
  obtain ⟨_, hr, h⟩ := Res.bind_eq_ok.1 h
  obtain ⟨n, hn, hl⟩ := Res.bind_eq_ok.1 h
  have := Res.require_eq_ok.1 hr; subst this
  obtain ⟨h1, h2⟩ := loop n 0 ds hl
  refine ⟨ha, by rw [hn, h1], fun i hi => ?_⟩
  obtain ⟨e, he, hd⟩ := h2 i hi
  rw [Nat.zero_add] at he
  obtain ⟨h3, h4⟩ := elem hd
  exact ⟨h3, e, he, h4⟩


/-! ### C37: round trip -/

theorem eq_or_ne' (a b : Nat) : a = b ∨ (a ≠ b ∧ b ≠ a) := by omega

theorem countable_of_ok {ds : List Nat} {n : Nat} (h : checkedCount 1 ds = .ok n) :
    ∀ p q, ds = p ++ q → 0 ∉ p → p.foldr (· * ·) 1 < 2 ^ 64 := by
  have := (checkedCount_iff (ds := ds) (c := 1) (by omega)).1 ⟨n, h⟩
  simp only [Nat.one_mul] at this
  exact this

def isOk {α : Type} : Res α → Bool
  | .ok _ => true
  | _ => false

theorem isOk_iff {α : Type} {x : Res α} : isOk x = true ↔ ∃ a, x = .ok a := by
  cases x <;> simp [isOk]

theorem asXTensorView_presents {R : TReader ρ} (N : Narrow R) {r : ρ} {dt : DType} {dims : List Nat} {bytes : Bytes}
    (h : Presents R.toReader r dt.code dims bytes) (hd : ∀ d ∈ dims, d < 2 ^ 32) (D : Option Nat) :
    ∃ e2, R.getIdx r 2 = .ok e2 ∧ asXTensorView R dt D r = (if ¬ (D = none ∨ D = some dims.length) then .err .deser else do
      let count ← checkedCount 1 dims
      if bytes.length ≠ u64 (count * dt.size) then .err .deser
      else makeView R.span (R.addr e2) dt dims count bytes) := by
  obtain ⟨e0, e1, e2, h1, h2, h3, h4, h5, h6, h7, h8, h9, h10, h11, h12⟩ := h.parts N (code_range dt)
  refine ⟨e2, h5, ?_⟩
  rw [dimsOf_map hd] at h10
  unfold asXTensorView
  simp only [isTensor_presents N (code_range dt) h dt, decide_true, Res.ok_bind, Res.require_true, h3, h4, h5, h8, h10,
    h12, ne_eq, not_true, if_false]
  cases D with
  | none => simp
  | some n =>
    by_cases e : n = dims.length
    · simp [e]
    · simp [e, Ne.symm e]

/-- A position that presents a tensor is read as this tensor. -/
theorem xtensor_of_presents {P : TProto} {r : P.ρ} {dt : DType} {dims : List Nat} {bytes : Bytes}
    (hp : Presents P.reader r dt.code dims bytes) (hd : ∀ d ∈ dims, d < 2 ^ 32)
    (hc : ∀ p q, dims = p ++ q → 0 ∉ p → p.foldr (· * ·) 1 < 2 ^ 64)
    (hb : bytes.length = dims.foldr (· * ·) 1 * dt.size) (hn : bytes.length < 2 ^ 64) {addr : P.ρ → Nat}
    (N : Narrow (P.treader addr))
    (D : Option Nat) :
    (D = none ∨ D = some dims.length →
      ∃ v, asXTensorView (P.treader addr) dt D r = .ok v ∧ v.shape = dims ∧ v.count = dims.foldr (· * ·) 1 ∧
        v.bytes = bytes) ∧
    ∀ dt' : DType, isTensor (P.treader addr) dt' r = .ok (decide (dt'.code = dt.code)) ∧
      (dt'.code ≠ dt.code → asXTensorView (P.treader addr) dt' D r = .err .deser) := by
  constructor
  · intro hD
    obtain ⟨e2, _, e⟩ := asXTensorView_presents (R := P.treader addr) N hp hd D
    obtain ⟨n, hct⟩ := (checkedCount_iff (ds := dims) (c := 1) (by omega)).2
      (fun p q e hp => by rw [Nat.one_mul]; exact hc p q e hp)
    have hnp : n = prod dims := by simpa using checkedCount_ok hct
    subst hnp
    rw [e, hct, if_neg (fun h => h hD)]
    have hb' : bytes.length = prod dims * dt.size := hb
    have hu : u64 (prod dims * dt.size) = prod dims * dt.size := Nat.mod_eq_of_lt (by omega)
    simp only [Res.ok_bind, hu, hb', ne_eq, not_true, if_false]
    rw [makeView_exact hb' hn]
    exact ⟨_, rfl, rfl, rfl, rfl⟩
  · intro dt'
    have ht := isTensor_presents (R := P.treader addr) N (code_range dt) hp dt'
    have e : decide (dt.code = dt'.code) = decide (dt'.code = dt.code) := by
      by_cases h : dt.code = dt'.code <;> simp [h, eq_comm]
    rw [e] at ht
    refine ⟨ht, fun hne => ?_⟩
    unfold asXTensorView
    rw [ht]
    simp [hne]

/-- C37 for xtensor: a tensor that was written to any of the protocols, and then translated between them any
number of times, is read with the same shape and the same bytes, as the type that was written and as no type
with another code. Missing: shapes whose leading dimensions multiply to 2^64 or more before a zero. -/
theorem c37_tensor_round_trip_partial {P : TProto} {r : P.ρ} {dt : DType} {dims : List Nat} {bytes : Bytes}
    (h : Arrives dt.code dims bytes P r) (hd : ∀ d ∈ dims, d < 2 ^ 32)
    (hc : ∀ p q, dims = p ++ q → 0 ∉ p → p.foldr (· * ·) 1 < 2 ^ 64)
    (hb : bytes.length = dims.foldr (· * ·) 1 * dt.size) (hn : bytes.length < 2 ^ 64) (addr : P.ρ → Nat)
    (D : Option Nat) :
    (D = none ∨ D = some dims.length →
      ∃ v, asXTensorView (P.treader addr) dt D r = .ok v ∧ v.shape = dims ∧ v.count = dims.foldr (· * ·) 1 ∧
        v.bytes = bytes) ∧
    ∀ dt' : DType, isTensor (P.treader addr) dt' r = .ok (decide (dt'.code = dt.code)) ∧
      (dt'.code ≠ dt.code → asXTensorView (P.treader addr) dt' D r = .err .deser) :=
  xtensor_of_presents (h.presents (code_range dt)) hd hc hb hn (h.narrow addr) D

/-- A position that presents a matrix is read as this matrix. -/
theorem matrix_of_presents {P : TProto} {r : P.ρ} {dt : DType} {rows cols : Nat} {bytes : Bytes}
    (hp : Presents P.reader r dt.code [rows, cols] bytes) (hr : rows < 2 ^ 32) (hc : cols < 2 ^ 32)
    (hb : bytes.length = rows * cols * dt.size) (hn : bytes.length < 2 ^ 64) {addr : P.ρ → Nat}
    (N : Narrow (P.treader addr))
    (nr nc : Option Nat) :
    ((nr = none ∨ nr = some rows) ∧ (nc = none ∨ nc = some cols) →
      ∃ v, asEigenMatrixView (P.treader addr) dt nr nc r = .ok v ∧ v.shape = [rows, cols] ∧ v.count = rows * cols ∧
        v.bytes = bytes) ∧
    (¬ ((nr = none ∨ nr = some rows) ∧ (nc = none ∨ nc = some cols)) →
      asEigenMatrixView (P.treader addr) dt nr nc r = .err .deser) ∧
    ∀ dt' : DType, dt'.code ≠ dt.code → asEigenMatrixView (P.treader addr) dt' nr nc r = .err .deser := by
  obtain ⟨e0, e1, e2, h1, h2, h3, h4, h5, h6, h7, h8, h9, h10, h11, h12⟩ :=
    Presents.parts (R := P.treader addr) N (code_range dt) hp
  rw [dimsOf_map (ds := [rows, cols]) (by simp [hr, hc])] at h10
  have ht := isTensor_presents (R := P.treader addr) N (code_range dt) hp dt
  have hu : u64 (rows * cols) = rows * cols := Nat.mod_eq_of_lt (by
    calc rows * cols < 2 ^ 32 * 2 ^ 32 := Nat.mul_lt_mul'' hr hc
      _ = 2 ^ 64 := by decide)
  have hu' : u64 (rows * cols * dt.size) = rows * cols * dt.size := Nat.mod_eq_of_lt (by omega)
  have hpr : prod [rows, cols] = rows * cols := by simp [prod]
  have key : asEigenMatrixView (P.treader addr) dt nr nc r =
      if (nr = none ∨ nr = some rows) ∧ (nc = none ∨ nc = some cols) then
        .ok (viewOf P.span (addr e2) dt [rows, cols] bytes) else .err .deser := by
    have mv := makeView_exact (span := P.span) (addr := addr e2) (dt := dt) (shape := [rows, cols]) (bytes := bytes)
      (by rw [hpr]; exact hb) hn
    rw [hpr] at mv
    unfold asEigenMatrixView
    simp only [ht, decide_true, Res.ok_bind, Res.require_true, h3, h4, h5, h8, h10, h12, ne_eq, not_true, if_false,
      hu, hu', hb]
    rw [show (P.treader addr).span = P.span from rfl, show (P.treader addr).addr = addr from rfl, mv]
    cases nr with
    | none =>
      cases nc with
      | none => simp
      | some n => rcases eq_or_ne' n cols with e | ⟨e, e'⟩ <;> simp [*]
    | some m =>
      cases nc with
      | none => rcases eq_or_ne' m rows with e | ⟨e, e'⟩ <;> simp [*]
      | some n => rcases eq_or_ne' n cols with e | ⟨e, e'⟩ <;> rcases eq_or_ne' m rows with f | ⟨f, f'⟩ <;> simp [*]
  refine ⟨fun hok => ?_, fun hno => ?_, fun dt' hne => ?_⟩
  · rw [key, if_pos hok]
    exact ⟨_, rfl, rfl, hpr, rfl⟩
  · rw [key, if_neg hno]
  · have ht' := isTensor_presents (R := P.treader addr) N (code_range dt) hp dt'
    unfold asEigenMatrixView
    rw [ht', decide_eq_false (fun h => hne h.symm)]
    simp

/-- C37 for Eigen, which reads matrices only. -/
theorem c37_matrix_round_trip {P : TProto} {r : P.ρ} {dt : DType} {rows cols : Nat} {bytes : Bytes}
    (h : Arrives dt.code [rows, cols] bytes P r) (hr : rows < 2 ^ 32) (hc : cols < 2 ^ 32)
    (hb : bytes.length = rows * cols * dt.size) (hn : bytes.length < 2 ^ 64) (addr : P.ρ → Nat)
    (nr nc : Option Nat) :
    ((nr = none ∨ nr = some rows) ∧ (nc = none ∨ nc = some cols) →
      ∃ v, asEigenMatrixView (P.treader addr) dt nr nc r = .ok v ∧ v.shape = [rows, cols] ∧ v.count = rows * cols ∧
        v.bytes = bytes) ∧
    (¬ ((nr = none ∨ nr = some rows) ∧ (nc = none ∨ nc = some cols)) →
      asEigenMatrixView (P.treader addr) dt nr nc r = .err .deser) ∧
    ∀ dt' : DType, dt'.code ≠ dt.code → asEigenMatrixView (P.treader addr) dt' nr nc r = .err .deser :=
  matrix_of_presents (h.presents (code_range dt)) hr hc hb hn (h.narrow addr) nr nc

/-- C37 fails for some empty tensors: four dimensions below 2^32, no elements, written and translated in any
way, cannot be read. -/
theorem c37_tensor_empty_refuted :
    (∀ {P : TProto} {r : P.ρ} {dt : DType}, Arrives dt.code [2 ^ 32 - 1, 2 ^ 32 - 1, 2 ^ 32 - 1, 0] [] P r →
      ∀ addr D, asXTensorView (P.treader addr) dt D r = .err .deser) ∧
    ∃ r, Arrives DType.f64.code [2 ^ 32 - 1, 2 ^ 32 - 1, 2 ^ 32 - 1, 0] [] zera r := by
  constructor
  · intro P r dt h addr D
    have hp := h.presents (code_range dt)
    have N := h.narrow addr
    obtain ⟨e2, _, e⟩ := asXTensorView_presents (R := P.treader addr) N hp (by decide) D
    rw [e, show checkedCount 1 [2 ^ 32 - 1, 2 ^ 32 - 1, 2 ^ 32 - 1, 0] = .err .deser by decide +kernel]
    split <;> rfl
  · obtain ⟨b, hb⟩ : ∃ b, zera.serialize (tval DType.f64.code [2 ^ 32 - 1, 2 ^ 32 - 1, 2 ^ 32 - 1, 0] []) = .ok b :=
      isOk_iff.1 (by decide +kernel)
    obtain ⟨r, hr, _⟩ := zera_law.presents (code_range .f64) trivial rfl ⟨_, rfl⟩ hb
    exact ⟨r, .written zera_law trivial hb hr⟩

theorem headBytes_le (m n : Nat) : (Cbor.headBytes m n).length ≤ 9 := by
  unfold Cbor.headBytes
  split
  · simp
  · split
    · simp [Cbor.beBytes]
    · split
      · simp [Cbor.beBytes]
      · split <;> simp [Cbor.beBytes]

theorem encL_dims_le (dims : List Nat) :
    ((Cbor.encL (dims.map fun d => .uint (UInt64.ofNat d))).flatten).length ≤ 9 * dims.length := by
  induction dims with
  | nil => simp [Cbor.encL]
  | cons d ds ih =>
    have := headBytes_le 0 (UInt64.ofNat d).toNat
    simp only [List.map_cons, Cbor.encL, Cbor.encB, List.flatten_cons, List.length_append, List.length_cons]
    omega

/-- C37: when the tensor is in the domain of the round trips of each protocol. -/
theorem c37_domains (c : Int) (dims : List Nat) (bytes : Bytes) (hd : ∀ d ∈ dims, d < 2 ^ 32) :
    (dims.length < 2 ^ 32 → bytes.length < 2 ^ 32 - 5 →
      (tval c dims bytes).Sized ∧ (tval c dims bytes).Below (2 ^ 32 - 5)) ∧
    (∀ utf8 maxDepth fuel, 36 + 9 * dims.length + bytes.length < 2 ^ 64 → 36 + 9 * dims.length + bytes.length ≤ fuel →
      Cbor.Dom utf8 maxDepth fuel (tval c dims bytes)) ∧
    (Json.Plain (tval c dims bytes) ∧ Json.KeysOk (tval c dims bytes)) ∧
    ((tval c dims bytes).Distinct ∧ (tval c dims bytes).NulFree ∧ (tval c dims bytes).Sorted) := by
  have each : ∀ {p : Val → Prop} {q : Bytes → Prop}, p (tval c dims bytes) → p (.int (Int64.ofInt c)) →
      p (.arr (dims.map fun d => .uint (UInt64.ofNat d))) → (∀ d ∈ dims, p (.uint (UInt64.ofNat d))) →
      p (.blob bytes) → (tval c dims bytes).Each p q := by
    intro p q h1 h2 h3 h4 h5
    refine ⟨h1, h2, ⟨h3, ?_⟩, h5, trivial⟩
    rw [Val.eachList_iff]
    intro x hx
    obtain ⟨d, hd, rfl⟩ := List.mem_map.1 hx
    exact h4 d hd
  have small : ∀ d ∈ dims, (UInt64.ofNat d).toNat < 2 ^ 63 := by
    intro d h
    have := hd d h
    rw [UInt64.toNat_ofNat']
    omega
  refine ⟨fun hr hb => ⟨?_, ?_⟩, fun utf8 maxDepth fuel h1 h2 => ⟨each trivial trivial trivial small trivial, fun b hb => ?_⟩,
    ⟨each ?_ trivial ?_ small trivial, each trivial trivial trivial (fun _ _ => trivial) trivial⟩,
    tval_distinct c dims bytes, each trivial trivial trivial (fun _ _ => trivial) trivial,
    each trivial trivial trivial (fun _ _ => trivial) trivial⟩
  · refine ⟨by simp, trivial, ⟨by simpa using hr, ?_⟩, ?_, trivial⟩
    · clear hr hd small each
      induction dims with
      | nil => trivial
      | cons d ds ih => exact ⟨trivial, ih⟩
    · show bytes.length < 2 ^ 32
      omega
  · refine ⟨trivial, ?_, hb, trivial⟩
    clear hr hd small each
    induction dims with
    | nil => trivial
    | cons d ds ih => exact ⟨trivial, ih⟩
  · obtain ⟨rfl, _⟩ := Cbor.serialize_ok hb
    have h3 := headBytes_le 4 (0 + 1 + 1 + 1)
    have h4 := headBytes_le 4 dims.length
    have h5 := headBytes_le 2 bytes.length
    have h6 : (Cbor.intBytes (Int64.ofInt c)).length ≤ 9 := by
      unfold Cbor.intBytes
      split <;> exact headBytes_le _ _
    have h7 := encL_dims_le dims
    simp only [tval, Cbor.encB, Cbor.encL, List.length_append, List.flatten_cons, List.length_cons, List.length_nil,
      List.length_map, List.flatten_nil]
    omega
  · rintro ⟨t, h⟩
    cases h
  · rintro ⟨t, h⟩
    match dims, h with
    | [], h => cases h
    | d :: ds, h => cases h

/-- C37: what `xt::serialize` writes, to any protocol: the code, the dimensions reduced modulo 2^32, and as many
bytes as the tensor has elements from `data()` on. -/
theorem c37_xtensor_written {k : Cont} {dt : DType} {x : Dyn.Src} (h : xtSrc k dt = .ok x) (P : Proto) :
    Dyn.serialize P x = P.serialize (tval dt.code (k.shape.map (· % 2 ^ 32))
      (k.mem.take (k.shape.foldr (· * ·) 1 * dt.size))) := by
  unfold xtSrc spanFromDataOf sliceAt at h
  by_cases hl : 0 + prod k.shape * dt.size ≤ k.mem.length
  · rw [if_pos hl] at h
    simp only [List.drop_zero, Res.ok_bind, Res.pure_eq, Res.ok.injEq] at h
    subst h
    have hok : ∀ l : List Nat, Dyn.Src.okList (l.map fun d => .uint 32 (BitVec.ofNat 32 d)) := by
      intro l
      induction l with
      | nil => trivial
      | cons d ds ih => exact ⟨trivial, ih⟩
    have hval : ∀ l : List Nat, Dyn.Src.valList (l.map fun d => .uint 32 (BitVec.ofNat 32 d)) =
        (l.map (· % 2 ^ 32)).map fun d => .uint (UInt64.ofNat d) := by
      intro l
      induction l with
      | nil => rfl
      | cons d ds ih =>
        simp only [List.map_cons, Dyn.Src.valList, Dyn.Src.val, ih]
        simp
    have ok : Dyn.Src.Ok (.zvec [.sint 32 (codeBits dt), .seq .vector (k.shape.map fun d => .uint 32 (BitVec.ofNat 32 d)),
        .blob (k.mem.take (prod k.shape * dt.size))]) := ⟨trivial, hok _, trivial, trivial⟩
    rw [(Dyn.c36_same_bytes P ok ok rfl).2]
    congr 1
    have hcode : (codeBits dt).toInt = dt.code := by
      unfold codeBits
      rw [BitVec.toInt_ofInt]
      have := code_range dt
      exact Int.bmod_eq_of_le (by omega) (by omega)
    simp only [Dyn.Src.val, Dyn.Src.valList, hval, tval, hcode]
    rfl
  · rw [if_neg hl] at h; cases h

/-- C37: what `Eigen::serialize` writes. -/
theorem c37_eigen_written {k : Cont} {dt : DType} {x : Dyn.Src} (h : eigenSrc k dt = .ok x) (P : Proto) :
    Dyn.serialize P x = P.serialize (tval dt.code k.shape (k.mem.take (k.shape.foldr (· * ·) 1 * dt.size))) := by
  unfold eigenSrc spanFromDataOf sliceAt at h
  by_cases hl : 0 + prod k.shape * dt.size ≤ k.mem.length
  · rw [if_pos hl] at h
    simp only [List.drop_zero, Res.ok_bind, Res.pure_eq, Res.ok.injEq] at h
    subst h
    have hok : ∀ l : List Nat, Dyn.Src.okList (l.map fun d => .uint 64 (BitVec.ofNat 64 d)) := by
      intro l
      induction l with
      | nil => trivial
      | cons d ds ih => exact ⟨trivial, ih⟩
    have hval : ∀ l : List Nat, Dyn.Src.valList (l.map fun d => .uint 64 (BitVec.ofNat 64 d)) =
        l.map fun d => .uint (UInt64.ofNat d) := by
      intro l
      induction l with
      | nil => rfl
      | cons d ds ih =>
        simp only [List.map_cons, Dyn.Src.valList, Dyn.Src.val, ih, BitVec.toNat_ofNat]
        congr 2
        apply UInt64.toNat_inj.1
        simp
    have ok : Dyn.Src.Ok (.zvec [.sint 32 (codeBits dt), .seq .array (k.shape.map fun d => .uint 64 (BitVec.ofNat 64 d)),
        .blob (k.mem.take (prod k.shape * dt.size))]) := ⟨trivial, hok _, trivial, trivial⟩
    rw [(Dyn.c36_same_bytes P ok ok rfl).2]
    congr 1
    have hcode : (codeBits dt).toInt = dt.code := by
      unfold codeBits
      rw [BitVec.toInt_ofInt]
      have := code_range dt
      exact Int.bmod_eq_of_le (by omega) (by omega)
    simp only [Dyn.Src.val, Dyn.Src.valList, hval, tval, hcode]
    rfl
  · rw [if_neg hl] at h; cases h

/-- C37, end to end for xtensor: any container whose bytes are in memory, through any protocol. -/
theorem c37_xtensor_end_to_end_partial {P : TProto} {q : Prop} {dom : Val → Prop} (L : P.Law q dom) {k : Cont} {dt : DType}
    {x : Dyn.Src} (hx : xtSrc k dt = .ok x) (hd : ∀ d ∈ k.shape, d < 2 ^ 32)
    (hc : ∀ p q, k.shape = p ++ q → 0 ∉ p → p.foldr (· * ·) 1 < 2 ^ 64)
    (hn : k.shape.foldr (· * ·) 1 * dt.size < 2 ^ 64)
    (hdom : dom (tval dt.code k.shape (k.mem.take (k.shape.foldr (· * ·) 1 * dt.size)))) {b : Bytes}
    (hb : Dyn.serialize P.toProto x = .ok b) (addr : P.ρ → Nat) :
    ∃ r v, P.opn b = .ok r ∧ asXTensorView (P.treader addr) dt none r = .ok v ∧ v.shape = k.shape ∧
      v.bytes = k.mem.take (k.shape.foldr (· * ·) 1 * dt.size) := by
  have hl : k.shape.foldr (· * ·) 1 * dt.size ≤ k.mem.length := by
    unfold xtSrc spanFromDataOf sliceAt at hx
    by_cases hl : 0 + prod k.shape * dt.size ≤ k.mem.length
    · unfold prod at hl; omega
    · rw [if_neg hl] at hx; cases hx
  have hm : k.shape.map (· % 2 ^ 32) = k.shape :=
    (List.map_congr_left fun d h => Nat.mod_eq_of_lt (hd d h)).trans (by simp)
  rw [c37_xtensor_written hx, hm] at hb
  obtain ⟨r, hr, _⟩ := L.presents (code_range dt) hdom rfl ⟨_, rfl⟩ hb
  have hlen : (k.mem.take (k.shape.foldr (· * ·) 1 * dt.size)).length = k.shape.foldr (· * ·) 1 * dt.size := by
    rw [List.length_take]; omega
  obtain ⟨v, hv, h1, _, h2⟩ := (c37_tensor_round_trip_partial (.written L hdom hb hr) hd hc hlen (by omega) addr none).1 (.inl rfl)
  exact ⟨r, v, hr, hv, h1, h2⟩

/-- C37, end to end for Eigen. -/
theorem c37_eigen_end_to_end {P : TProto} {q : Prop} {dom : Val → Prop} (L : P.Law q dom) {k : Cont} {dt : DType}
    {x : Dyn.Src} (hx : eigenSrc k dt = .ok x) {rows cols : Nat} (hs : k.shape = [rows, cols])
    (hr : rows < 2 ^ 32) (hc : cols < 2 ^ 32) (hn : rows * cols * dt.size < 2 ^ 64)
    (hdom : dom (tval dt.code [rows, cols] (k.mem.take (rows * cols * dt.size)))) {b : Bytes}
    (hb : Dyn.serialize P.toProto x = .ok b) (addr : P.ρ → Nat) :
    ∃ r v, P.opn b = .ok r ∧ asEigenMatrixView (P.treader addr) dt none none r = .ok v ∧ v.shape = k.shape ∧
      v.bytes = k.mem.take (rows * cols * dt.size) := by
  have hp : prod k.shape = rows * cols := by rw [hs]; simp [prod]
  have hl : rows * cols * dt.size ≤ k.mem.length := by
    unfold eigenSrc spanFromDataOf sliceAt at hx
    by_cases hl : 0 + prod k.shape * dt.size ≤ k.mem.length
    · rw [hp] at hl; omega
    · rw [if_neg hl] at hx; cases hx
  rw [c37_eigen_written hx, show k.shape.foldr (· * ·) 1 = rows * cols from hp, hs] at hb
  obtain ⟨r, hr', _⟩ := L.presents (code_range dt) hdom rfl ⟨_, rfl⟩ hb
  have hlen : (k.mem.take (rows * cols * dt.size)).length = rows * cols * dt.size := by
    rw [List.length_take]; omega
  obtain ⟨v, hv, h1, _, h2⟩ := (c37_matrix_round_trip (.written L hdom hb hr') hr hc hlen (by omega) addr none none).1
    ⟨.inl rfl, .inl rfl⟩
  exact ⟨r, v, hr', hv, h1.trans hs.symm, h2⟩

/-- C37: dimensions of 2^32 and more do not come back: an empty tensor of shape [2^32, 0] is read with shape
[0, 0]. -/
theorem c37_truncated_refuted :
    ∃ x b r v, xtSrc ⟨[], [2 ^ 32, 0], [0, 0], 0⟩ .f64 = .ok x ∧ Dyn.serialize zera.toProto x = .ok b ∧ zera.opn b = .ok r ∧
      asXTensorView (zera.treader fun _ => 0) .f64 none r = .ok v ∧ v.shape = [0, 0] := by
  obtain ⟨x, hx⟩ : ∃ x, xtSrc ⟨[], [2 ^ 32, 0], [0, 0], 0⟩ .f64 = .ok x := isOk_iff.1 (by decide +kernel)
  have e := c37_xtensor_written hx zera.toProto
  obtain ⟨b, hb⟩ : ∃ b, zera.serialize (tval DType.f64.code [0, 0] []) = .ok b := isOk_iff.1 (by decide +kernel)
  have e' : Dyn.serialize zera.toProto x = .ok b := by rw [e, ← hb]; rfl
  obtain ⟨r, hr, _⟩ := zera_law.presents (code_range .f64) trivial rfl ⟨_, rfl⟩ hb
  obtain ⟨v, hv, h1, _⟩ := (c37_tensor_round_trip_partial (P := zera) (.written zera_law trivial hb hr) (by decide)
    (countable_of_ok (n := 0) rfl) (by decide) (by decide) (fun _ => 0) none).1 (.inl rfl)
  exact ⟨x, b, r, v, hx, e', hr, hv, h1⟩

/-! ### C38: views and their data -/

/-- C38: what a view of xtensor says about the size of its data: it is right modulo 2^64, and right if the number
of bytes is below 2^64 or the view owns its data; then every element is inside it. Missing: zero-copy views of
2^64 bytes or more. -/
theorem c38_xtensor_view_partial {R : TReader ρ} {dt : DType} {D : Option Nat} {r : ρ} {v : View}
    (h : asXTensorView R dt D r = .ok v) :
    v.count = v.shape.foldr (· * ·) 1 ∧ v.count < 2 ^ 64 ∧ v.byteSize = v.count * dt.size % 2 ^ 64 ∧
    (v.count * dt.size < 2 ^ 64 ∨ v.zeroCopy = false →
      v.bytes.length = v.count * dt.size ∧ v.byteSize = v.bytes.length ∧
      ∀ idx, Inside idx v.shape → ∃ e, v.at dt idx = .ok e ∧ e.length = dt.size) := by
  obtain ⟨e0, e1, e2, shape, bytes, count, hr, hD, hct, hl, hm⟩ := asXTensorView_ok h
  obtain ⟨m1, m2, m3, m4, m5, m6, m7, m8, m9⟩ := makeView_ok hm
  have hp : v.count = prod v.shape := by rw [m1, m2]; simpa using checkedCount_ok hct
  refine ⟨hp, by rw [m2]; exact checkedCount_lt (by omega) hct, by rw [m5, hl, m2], fun hex => ?_⟩
  have hlen : v.bytes.length = v.count * dt.size ∧ v.byteSize = v.bytes.length := by
    rw [m2] at hex ⊢
    cases hz : v.zeroCopy with
    | true =>
      have hlt : count * dt.size < 2 ^ 64 := hex.elim id (fun h => by rw [hz] at h; cases h)
      rw [m8 hz, m5, hl, Nat.mod_eq_of_lt hlt]
      exact ⟨rfl, rfl⟩
    | false =>
      obtain ⟨q1, q2, q3⟩ := m9 hz
      rw [q2, m5, hl, Nat.mod_eq_of_lt q1]
      exact ⟨rfl, rfl⟩
  refine ⟨hlen.1, hlen.2, fun idx hi => ?_⟩
  exact element_ok (n := prod v.shape) (dot_row_lt hi) (by rw [hlen.1, hp]; exact Nat.le_refl _)

/-- C38 for Eigen, in both layouts. -/
theorem c38_eigen_view_partial {R : TReader ρ} {dt : DType} {nr nc : Option Nat} {r : ρ} {v : View}
    (h : asEigenMatrixView R dt nr nc r = .ok v) :
    (∃ rows cols, v.shape = [rows, cols] ∧ v.count = rows * cols ∧
      v.byteSize = rows * cols * dt.size % 2 ^ 64) ∧
    (v.count * dt.size < 2 ^ 64 ∨ v.zeroCopy = false →
      v.bytes.length = v.count * dt.size ∧ v.byteSize = v.bytes.length ∧
      ∀ idx, Inside idx v.shape → ∀ rowMajor, ∃ e, v.atEigen dt rowMajor idx = .ok e ∧ e.length = dt.size) := by
  obtain ⟨e0, e1, e2, rows, cols, bytes, hr, _, _, hl, hm⟩ := asEigenMatrixView_ok h
  obtain ⟨m1, m2, m3, m4, m5, m6, m7, m8, m9⟩ := makeView_ok hm
  have hl' : bytes.length = rows * cols * dt.size % 2 ^ 64 := by rw [hl, Nat.mod_mul_mod]
  refine ⟨⟨rows, cols, m1, m2, by rw [m5, hl']⟩, fun hex => ?_⟩
  have hp : v.count = prod v.shape := by rw [m1, m2]; simp [prod]
  have hlen : v.bytes.length = v.count * dt.size ∧ v.byteSize = v.bytes.length := by
    rw [m2] at hex ⊢
    cases hz : v.zeroCopy with
    | true =>
      have hlt : rows * cols * dt.size < 2 ^ 64 := hex.elim id (fun h => by rw [hz] at h; cases h)
      rw [m8 hz, m5, hl', Nat.mod_eq_of_lt hlt]
      exact ⟨rfl, rfl⟩
    | false =>
      obtain ⟨q1, q2, q3⟩ := m9 hz
      rw [q2, m5, hl', Nat.mod_eq_of_lt q1]
      exact ⟨rfl, rfl⟩
  refine ⟨hlen.1, hlen.2, fun idx hi rowMajor => ?_⟩
  cases rowMajor with
  | true => exact element_ok (n := prod v.shape) (dot_row_lt hi) (by rw [hlen.1, hp]; exact Nat.le_refl _)
  | false => exact element_ok (n := prod v.shape) (dot_col hi) (by rw [hlen.1, hp]; exact Nat.le_refl _)

/-- A set of positions on which the accessors that tensors use are not undefined behaviour. -/
structure Calm (R : TReader ρ) (good : ρ → Prop) : Prop where
  isArray : ∀ r, good r → R.isArray r ≠ .ub
  arraySize : ∀ r, good r → R.arraySize r ≠ .ub
  getIdx : ∀ r i, good r → R.getIdx r i ≠ .ub
  next : ∀ r i e, good r → R.getIdx r i = .ok e → good e
  isInt : ∀ r, good r → R.isInt r ≠ .ub
  isUInt : ∀ r, good r → R.isUInt r ≠ .ub
  asInt64 : ∀ r, good r → R.asInt64 r ≠ .ub
  asUInt64 : ∀ r, good r → R.asUInt64 r ≠ .ub
  asIntN : ∀ w r, good r → R.asIntN w r ≠ .ub
  isBlob : ∀ r, good r → R.isBlob r ≠ .ub
  asBlob : ∀ r, good r → R.asBlob r ≠ .ub

theorem bind_ne_ub {α β : Type} {x : Res α} {f : α → Res β} (hx : x ≠ .ub) (hf : ∀ a, x = .ok a → f a ≠ .ub) :
    (x >>= f) ≠ .ub := by
  cases x with
  | ok a => exact hf a rfl
  | err e => exact fun h => by cases h
  | ub => exact absurd rfl hx
  | diverge => exact fun h => by cases h

theorem ite_ne_ub {α : Type} {c : Prop} [Decidable c] {x y : Res α} (hx : c → x ≠ .ub) (hy : ¬ c → y ≠ .ub) :
    (if c then x else y) ≠ .ub := by
  by_cases h : c
  · rw [if_pos h]; exact hx h
  · rw [if_neg h]; exact hy h

theorem isTensor_ne_ub {R : TReader ρ} {good : ρ → Prop} (C : Calm R good) {r : ρ} (hr : good r) (dt : DType) :
    isTensor R dt r ≠ .ub := by
  unfold isTensor
  refine bind_ne_ub (C.isArray r hr) fun _ _ => ite_ne_ub (fun _ h => by cases h) fun _ => ?_
  refine bind_ne_ub (C.arraySize r hr) fun _ _ => ite_ne_ub (fun _ h => by cases h) fun _ => ?_
  refine bind_ne_ub (C.getIdx r 0 hr) fun e0 h0 => ?_
  have g0 := C.next r 0 e0 hr h0
  refine bind_ne_ub (C.isInt e0 g0) fun _ _ => ite_ne_ub (fun _ h => by cases h) fun _ => ?_
  refine bind_ne_ub (C.getIdx r 0 hr) fun e0 h0 => ?_
  refine bind_ne_ub (C.asIntN 8 e0 (C.next r 0 e0 hr h0)) fun _ _ => ite_ne_ub (fun _ h => by cases h) fun _ => ?_
  refine bind_ne_ub (C.getIdx r 1 hr) fun e1 h1 => ?_
  refine bind_ne_ub (C.isArray e1 (C.next r 1 e1 hr h1)) fun _ _ => ite_ne_ub (fun _ h => by cases h) fun _ => ?_
  exact bind_ne_ub (C.getIdx r 2 hr) fun e2 h2 => C.isBlob e2 (C.next r 2 e2 hr h2)

theorem tensorShape_ne_ub {R : TReader ρ} {good : ρ → Prop} (C : Calm R good) {r : ρ} (hr : good r) :
    tensorShape R.toReader r ≠ .ub := by
  have elem : ∀ e, good e → shapeElem R.toReader e ≠ .ub := by
    intro e he
    unfold shapeElem
    refine bind_ne_ub (C.isUInt e he) fun _ _ => ite_ne_ub (fun _ => ?_) fun _ => ?_
    · exact bind_ne_ub (C.asUInt64 e he) fun _ _ => ite_ne_ub (fun _ h => by cases h) fun _ h => by cases h
    · refine bind_ne_ub (C.isInt e he) fun _ _ => ite_ne_ub (fun _ => ?_) fun _ h => by cases h
      exact bind_ne_ub (C.asInt64 e he) fun _ _ => ite_ne_ub (fun _ h => by cases h) fun _ =>
        ite_ne_ub (fun _ h => by cases h) fun _ h => by cases h
  have loop : ∀ n i, shapeLoop R.toReader r n i ≠ .ub := by
    intro n
    induction n with
    | zero => exact fun i h => by cases h
    | succ n ih =>
      intro i
      simp only [shapeLoop]
      refine bind_ne_ub (C.getIdx r i hr) fun e he => bind_ne_ub (elem e (C.next r i e hr he)) fun _ _ => ?_
      exact bind_ne_ub (ih _) fun _ _ h => by cases h
  unfold tensorShape
  refine bind_ne_ub (C.isArray r hr) fun b _ => bind_ne_ub (by cases b <;> simp [Res.require]) fun _ _ => ?_
  exact bind_ne_ub (C.arraySize r hr) fun n _ => loop n 0

theorem makeView_ne_ub {span : Bool} {addr : Nat} {dt : DType} {shape : List Nat} {count : Nat} {bytes : Bytes}
    (h : bytes.length = count * dt.size % 2 ^ 64) : makeView span addr dt shape count bytes ≠ .ub := by
  have ho : ownedCopy count dt.size bytes ≠ .ub := by
    unfold ownedCopy
    refine ite_ne_ub (fun _ => ite_ne_ub (fun _ h => by cases h) fun hl => ?_) fun _ h => by cases h
    exact absurd (h ▸ Nat.mod_le _ _) hl
  unfold makeView
  refine ite_ne_ub (fun _ => bind_ne_ub ho fun _ _ h => by cases h) fun _ => ?_
  exact ite_ne_ub (fun _ => bind_ne_ub ho fun _ _ h => by cases h) fun _ h => by cases h

/-- C38: making a view is not undefined behaviour, on any positions on which the accessors are not; in
particular the copy into an owning view never exceeds it. -/
theorem c38_view_defined {R : TReader ρ} {good : ρ → Prop} (C : Calm R good) {r : ρ} (hr : good r) (dt : DType) :
    (∀ D, asXTensorView R dt D r ≠ .ub) ∧ ∀ nr nc, asEigenMatrixView R dt nr nc r ≠ .ub := by
  constructor
  · intro D
    unfold asXTensorView
    refine bind_ne_ub (isTensor_ne_ub C hr dt) fun t _ => bind_ne_ub (by cases t <;> simp [Res.require]) fun _ _ => ?_
    refine bind_ne_ub (C.getIdx r 0 hr) fun e0 h0 => bind_ne_ub (C.asIntN 32 e0 (C.next r 0 e0 hr h0)) fun _ _ => ?_
    refine ite_ne_ub (fun _ h => by cases h) fun _ => ?_
    refine bind_ne_ub (C.getIdx r 1 hr) fun e1 h1 => bind_ne_ub (tensorShape_ne_ub C (C.next r 1 e1 hr h1)) fun _ _ => ?_
    refine ite_ne_ub (fun _ h => by cases h) fun _ => ?_
    refine bind_ne_ub (C.getIdx r 2 hr) fun e2 h2 => bind_ne_ub (C.asBlob e2 (C.next r 2 e2 hr h2)) fun _ _ => ?_
    refine bind_ne_ub ?_ fun _ _ => ite_ne_ub (fun _ h => by cases h) fun hl => makeView_ne_ub (Classical.not_not.1 hl)
    intro h
    rcases checkedCount_err (c := 1) (ds := ‹List Nat›) with ⟨n, h'⟩ | h' <;> rw [h] at h' <;> cases h'
  · intro nr nc
    unfold asEigenMatrixView
    refine bind_ne_ub (isTensor_ne_ub C hr dt) fun t _ => bind_ne_ub (by cases t <;> simp [Res.require]) fun _ _ => ?_
    refine bind_ne_ub (C.getIdx r 0 hr) fun e0 h0 => bind_ne_ub (C.asIntN 32 e0 (C.next r 0 e0 hr h0)) fun _ _ => ?_
    refine ite_ne_ub (fun _ h => by cases h) fun _ => ?_
    refine bind_ne_ub (C.getIdx r 1 hr) fun e1 h1 => bind_ne_ub (tensorShape_ne_ub C (C.next r 1 e1 hr h1)) fun sh _ => ?_
    match sh with
    | [rows, cols] =>
      refine ite_ne_ub (fun _ h => by cases h) fun _ => ite_ne_ub (fun _ h => by cases h) fun _ => ?_
      refine bind_ne_ub (C.getIdx r 2 hr) fun e2 h2 => bind_ne_ub (C.asBlob e2 (C.next r 2 e2 hr h2)) fun _ _ => ?_
      refine ite_ne_ub (fun _ h => by cases h) fun hl => makeView_ne_ub ?_
      have := Classical.not_not.1 hl
      rw [this]
      exact Nat.mod_mul_mod ..
    | [] => exact fun h => by cases h
    | [_] => exact fun h => by cases h
    | _ :: _ :: _ :: _ => exact fun h => by cases h

/-- C38 fails: a document of a few bytes is read, by both libraries, as a zero-copy view of 2^61 elements of 8
bytes without any data; reading its first element is undefined behaviour. -/
theorem c38_view_refuted :
    ∃ b r v, zera.serialize (tval DType.f64.code [2 ^ 31, 2 ^ 30] []) = .ok b ∧ b.length ≤ 200 ∧ zera.opn b = .ok r ∧
      asXTensorView (zera.treader fun _ => 0) .f64 none r = .ok v ∧
      asEigenMatrixView (zera.treader fun _ => 0) .f64 none none r = .ok v ∧
      v.count = 2 ^ 61 ∧ v.bytes = [] ∧ Inside [0, 0] v.shape ∧ v.at .f64 [0, 0] = .ub ∧
      v.atEigen .f64 false [0, 0] = .ub := by
  obtain ⟨b, hb, hlen⟩ : ∃ b, zera.serialize (tval DType.f64.code [2 ^ 31, 2 ^ 30] []) = .ok b ∧ b.length ≤ 200 := by
    have h : (match zera.serialize (tval DType.f64.code [2 ^ 31, 2 ^ 30] []) with
      | .ok b => decide (b.length ≤ 200) | _ => false) = true := by decide +kernel
    split at h
    · exact ⟨_, ‹_›, of_decide_eq_true h⟩
    · cases h
  obtain ⟨r, hr, hp⟩ := zera_law.presents (code_range .f64) trivial rfl ⟨_, rfl⟩ hb
  have N := zera_law.narrow (fun _ => 0)
  obtain ⟨e2, _, e⟩ := asXTensorView_presents (R := zera.treader fun _ => 0) N hp (by decide) none
  obtain ⟨e0, e1, e2', h1, h2, h3, h4, h5, h6, h7, h8, h9, h10, h11, h12⟩ :=
    Presents.parts (R := zera.treader fun _ => 0) N (code_range .f64) hp
  rw [dimsOf_map (by decide)] at h10
  refine ⟨b, r, ⟨[2 ^ 31, 2 ^ 30], 2 ^ 61, [], true, .ok, 8, 0, 0⟩, hb, hlen, hr, ?_, ?_, rfl, rfl, by decide,
    by decide, by decide⟩
  · rw [e, show (zera.treader fun _ => 0).addr e2 = 0 from rfl, show (zera.treader fun _ => 0).span = true from rfl]
    decide +kernel
  · unfold asEigenMatrixView
    simp only [isTensor_presents (R := zera.treader fun _ => 0) N (code_range .f64) hp .f64, decide_true, Res.ok_bind,
      Res.require_true, h3, h4, h5, h8, h10, h12]
    rw [show (zera.treader fun _ => 0).addr e2' = 0 from rfl, show (zera.treader fun _ => 0).span = true from rfl]
    decide +kernel

/-! ### C39: zero copy -/

/-- C38 for `array()` and `asXTensor`: whether or not the view was zero-copy, the owning copy holds the bytes of the view, or
its size is no `size_t` and the allocation is refused. -/
theorem c38_xtensor_owned {R : TReader ρ} {dt : DType} {D : Option Nat} {r : ρ} {v : View} (h : asXTensorView R dt D r = .ok v) :
    v.owned dt = if v.count * dt.size < 2 ^ 64 then .ok v.bytes else .err .badAlloc := by
  obtain ⟨e0, e1, e2, shape, bytes, count, hr, hD, hct, hl, hm⟩ := asXTensorView_ok h
  obtain ⟨m1, m2, m3, m4, m5, m6, m7, m8, m9⟩ := makeView_ok hm
  unfold View.owned
  cases hz : v.zeroCopy with
  | true =>
    simp only [if_true, ownedCopy, m2, m8 hz]
    split
    · rename_i hlt
      have : bytes.length = count * dt.size := by rw [hl, Nat.mod_eq_of_lt hlt]
      rw [if_pos (by omega), this, Nat.sub_self]
      simp
    · rfl
  | false =>
    rw [m2, if_pos (m9 hz).1]
    rfl

/-- C38 for `matrix()` and `asEigenMatrix`. -/
theorem c38_eigen_owned {R : TReader ρ} {dt : DType} {nr nc : Option Nat} {r : ρ} {v : View} (h : asEigenMatrixView R dt nr nc r = .ok v) :
    v.owned dt = if v.count * dt.size < 2 ^ 64 then .ok v.bytes else .err .badAlloc := by
  obtain ⟨e0, e1, e2, rows, cols, bytes, hr, _, _, hl, hm⟩ := asEigenMatrixView_ok h
  obtain ⟨m1, m2, m3, m4, m5, m6, m7, m8, m9⟩ := makeView_ok hm
  have hl' : bytes.length = rows * cols * dt.size % 2 ^ 64 := by rw [hl, Nat.mod_mul_mod]
  unfold View.owned
  cases hz : v.zeroCopy with
  | true =>
    simp only [if_true, ownedCopy, m2, m8 hz]
    split
    · rename_i hlt
      have : bytes.length = rows * cols * dt.size := by rw [hl', Nat.mod_eq_of_lt hlt]
      rw [if_pos (by omega), this, Nat.sub_self]
      simp
    · rfl
  | false =>
    rw [m2, if_pos (m9 hz).1]
    rfl

/-- C39: a view of any position aliases the blob exactly if the protocol hands out spans and the address is a
multiple of the alignment; otherwise it owns as many bytes as its elements need, starting with the blob. The
report says which. -/
theorem c39_xtensor_zero_copy {R : TReader ρ} {dt : DType} {D : Option Nat} {r : ρ} {v : View}
    (h : asXTensorView R dt D r = .ok v) :
    ∃ e2 blob, R.getIdx r 2 = .ok e2 ∧ R.asBlob e2 = .ok blob ∧ v.address = R.addr e2 ∧ v.required = dt.align ∧
      v.byteSize = blob.length ∧
      (v.zeroCopy = true ↔ R.span = true ∧ R.addr e2 % dt.align = 0) ∧
      (v.zeroCopy = true → v.bytes = blob ∧ v.reason = .ok) ∧
      (v.zeroCopy = false → v.bytes = blob ∧ v.bytes.length = v.count * dt.size ∧
        v.reason = if R.span then .misaligned else .notSpanBacked) := by
  obtain ⟨e0, e1, e2, shape, bytes, count, hr, hD, hct, hl, hm⟩ := asXTensorView_ok h
  obtain ⟨m1, m2, m3, m4, m5, m6, m7, m8, m9⟩ := makeView_ok hm
  refine ⟨e2, bytes, hr.g2, hr.blob, m4, m3, m5, ?_, fun hz => ⟨m8 hz, m6.trans (m7.1 hz)⟩, fun hz => ?_⟩
  · rw [m7]
    unfold reasonOf
    cases hs : R.span <;> by_cases ha : R.addr e2 % dt.align = 0 <;> simp [ha]
  · obtain ⟨q1, q2, q3⟩ := m9 hz
    rw [Nat.mod_eq_of_lt q1] at hl
    refine ⟨?_, by rw [m2]; exact q2, ?_⟩
    · rw [← q3, List.take_of_length_le (by omega)]
    · have hz' : ¬ reasonOf R.span (R.addr e2) dt.align = .ok := fun h => by rw [m7.2 h] at hz; cases hz
      rw [m6]
      unfold reasonOf at hz' ⊢
      cases hs : R.span <;> by_cases ha : R.addr e2 % dt.align = 0 <;> simp [ha, hs] at hz' ⊢

/-- C39 for Eigen. -/
theorem c39_eigen_zero_copy {R : TReader ρ} {dt : DType} {nr nc : Option Nat} {r : ρ} {v : View}
    (h : asEigenMatrixView R dt nr nc r = .ok v) :
    ∃ e2 blob, R.getIdx r 2 = .ok e2 ∧ R.asBlob e2 = .ok blob ∧ v.address = R.addr e2 ∧ v.required = dt.align ∧
      v.byteSize = blob.length ∧
      (v.zeroCopy = true ↔ R.span = true ∧ R.addr e2 % dt.align = 0) ∧
      (v.zeroCopy = true → v.bytes = blob ∧ v.reason = .ok) ∧
      (v.zeroCopy = false → v.bytes = blob ∧ v.bytes.length = v.count * dt.size ∧
        v.reason = if R.span then .misaligned else .notSpanBacked) := by
  obtain ⟨e0, e1, e2, rows, cols, bytes, hr, _, _, hl, hm⟩ := asEigenMatrixView_ok h
  obtain ⟨m1, m2, m3, m4, m5, m6, m7, m8, m9⟩ := makeView_ok hm
  refine ⟨e2, bytes, hr.g2, hr.blob, m4, m3, m5, ?_, fun hz => ⟨m8 hz, m6.trans (m7.1 hz)⟩, fun hz => ?_⟩
  · rw [m7]
    unfold reasonOf
    cases hs : R.span <;> by_cases ha : R.addr e2 % dt.align = 0 <;> simp [ha]
  · obtain ⟨q1, q2, q3⟩ := m9 hz
    rw [Nat.mod_mul_mod, Nat.mod_eq_of_lt q1] at hl
    refine ⟨?_, by rw [m2]; exact q2, ?_⟩
    · rw [← q3, List.take_of_length_le (by omega)]
    · have hz' : ¬ reasonOf R.span (R.addr e2) dt.align = .ok := fun h => by rw [m7.2 h] at hz; cases hz
      rw [m6]
      unfold reasonOf at hz' ⊢
      cases hs : R.span <;> by_cases ha : R.addr e2 % dt.align = 0 <;> simp [ha, hs] at hz' ⊢

/-- C39 for the formats: tensors read from JSON are copies, for the reason that there is no span; those read from the
other formats are copies exactly if the address of the blob does not suit the elements. -/
theorem c39_formats (T : Json.Text) (dbg : Bool) (L : Flex.Lib) (utf8 : Bytes → Bool) (maxDepth fuel : Nat) :
    (∀ {addr dt D r v}, asXTensorView ((json T dbg).treader addr) dt D r = .ok v →
      v.zeroCopy = false ∧ v.reason = .notSpanBacked) ∧
    (∀ {addr dt nr nc r v}, asEigenMatrixView ((json T dbg).treader addr) dt nr nc r = .ok v →
      v.zeroCopy = false ∧ v.reason = .notSpanBacked) ∧
    ∀ P ∈ [zera, msgpack, cbor utf8 maxDepth fuel, flex L dbg], 
      (∀ {addr dt D r v}, asXTensorView (TProto.treader P addr) dt D r = .ok v →
        ∃ e, P.reader.getIdx r 2 = .ok e ∧ (v.zeroCopy = true ↔ addr e % dt.align = 0) ∧
          v.reason = if addr e % dt.align = 0 then .ok else .misaligned) ∧
      (∀ {addr dt nr nc r v}, asEigenMatrixView (TProto.treader P addr) dt nr nc r = .ok v →
        ∃ e, P.reader.getIdx r 2 = .ok e ∧ (v.zeroCopy = true ↔ addr e % dt.align = 0) ∧
          v.reason = if addr e % dt.align = 0 then .ok else .misaligned) := by
  have js : ∀ {v : View} {s z : Bool} {a : Nat} {k : Reason}, s = false → (v.zeroCopy = true ↔ s = true ∧ a = 0) →
      (v.zeroCopy = false → v.reason = if s then .misaligned else .notSpanBacked) →
      v.zeroCopy = false ∧ v.reason = .notSpanBacked := by
    intro v s z a k hs h1 h2
    subst hs
    have hz : v.zeroCopy = false := by
      cases h : v.zeroCopy
      · rfl
      · exact absurd (h1.1 h).1 (by decide)
    exact ⟨hz, h2 hz⟩
  have sp : ∀ {v : View} {s : Bool} {a : Nat}, s = true → (v.zeroCopy = true ↔ s = true ∧ a = 0) →
      (v.zeroCopy = true → v.reason = .ok) →
      (v.zeroCopy = false → v.reason = if s then .misaligned else .notSpanBacked) →
      (v.zeroCopy = true ↔ a = 0) ∧ v.reason = if a = 0 then .ok else .misaligned := by
    intro v s a hs h1 h2 h3
    subst hs
    have h4 : v.zeroCopy = true ↔ a = 0 := by simpa using h1
    refine ⟨h4, ?_⟩
    by_cases ha : a = 0
    · rw [if_pos ha]; exact h2 (h4.2 ha)
    · rw [if_neg ha]
      refine h3 ?_
      cases h : v.zeroCopy
      · rfl
      · exact absurd (h4.1 h) ha
  refine ⟨fun h => ?_, fun h => ?_, fun P hP => ⟨fun h => ?_, fun h => ?_⟩⟩
  · obtain ⟨e, bl, h1, h2, h3, h4, h5, h6, h7, h8⟩ := c39_xtensor_zero_copy h
    exact js (z := true) (k := .ok) rfl h6 fun hz => (h8 hz).2.2
  · obtain ⟨e, bl, h1, h2, h3, h4, h5, h6, h7, h8⟩ := c39_eigen_zero_copy h
    exact js (z := true) (k := .ok) rfl h6 fun hz => (h8 hz).2.2
  · obtain ⟨e, bl, h1, h2, h3, h4, h5, h6, h7, h8⟩ := c39_xtensor_zero_copy h
    have hs : P.span = true := by
      simp only [List.mem_cons, List.not_mem_nil, or_false] at hP
      rcases hP with rfl | rfl | rfl | rfl <;> rfl
    exact ⟨e, h1, sp hs h6 (fun hz => (h7 hz).2) fun hz => (h8 hz).2.2⟩
  · obtain ⟨e, bl, h1, h2, h3, h4, h5, h6, h7, h8⟩ := c39_eigen_zero_copy h
    have hs : P.span = true := by
      simp only [List.mem_cons, List.not_mem_nil, or_false] at hP
      rcases hP with rfl | rfl | rfl | rfl <;> rfl
    exact ⟨e, h1, sp hs h6 (fun hz => (h7 hz).2) fun hz => (h8 hz).2.2⟩

/-- Two bytes as a tensor in JSON. -/
example (T : Json.Text) : ∃ v, asXTensorView ((json T true).treader fun _ => 0) .u8 none
    (.arr [.int 4, .arr [.int 2], .arr [.str [0x7e, 0x62], .str [0x41, 0x51, 0x49, 0x3d], .str [0x62, 0x61, 0x73, 0x65, 0x36, 0x34]]]) = .ok v ∧
    v.bytes = [1, 2] ∧ v.zeroCopy = false := by
  refine ⟨_, rfl, rfl, rfl⟩

/-! ### C66: element types are kept apart -/

/-- C66: a tensor of a supported type that arrives at a position is a tensor of this type only, among all types.
Missing: types without a code of their own. -/
theorem c66_other_type_partial {P : TProto} {r : P.ρ} {dt : DType} {dims : List Nat} {bytes : Bytes}
    (h : Arrives dt.code dims bytes P r) (hs : dt.Supported) (addr : P.ρ → Nat) (dt' : DType) (hne : dt' ≠ dt) :
    isTensor (P.treader addr) dt' r = .ok false ∧ (∀ D, asXTensorView (P.treader addr) dt' D r = .err .deser) ∧
      ∀ nr nc, asEigenMatrixView (P.treader addr) dt' nr nc r = .err .deser := by
  have hc : dt'.code ≠ dt.code := by
    intro e
    by_cases hs' : dt'.Supported
    · exact hne (c42_dtype_codes.1 dt' dt hs' hs (.inl e))
    · cases dt' <;> simp [DType.Supported] at hs'
      cases dt <;> simp [DType.Supported] at hs <;> simp [DType.code] at e
  have ht : isTensor (P.treader addr) dt' r = .ok false := by
    rw [isTensor_presents (R := P.treader addr) (h.narrow addr) (code_range dt) (h.presents (code_range dt)) dt',
      decide_eq_false (Ne.symm hc)]
  refine ⟨ht, fun D => ?_, fun nr nc => ?_⟩
  · unfold asXTensorView; rw [ht]; simp
  · unfold asEigenMatrixView; rw [ht]; simp

/-- C66 fails: types without a specialisation (`bool`, `char`, `long long`, ...) all have the code -1, so that a
tensor of one is read as a tensor of another, in every protocol, with other elements if the sizes differ: one
element of 8 bytes is not told apart from one element of another type of 8 bytes. -/
theorem c66_other_type_refuted :
    (∀ {P : TProto} {r : P.ρ} {i j n a a' : Nat} {bytes : Bytes}, n < 2 ^ 64 → bytes.length = n →
      Arrives (DType.other i n a).code [1] bytes P r → ∀ addr,
      ∃ v, asXTensorView (P.treader addr) (.other j n a') none r = .ok v ∧ v.bytes = bytes) ∧
    ∃ r, Arrives (DType.other 0 8 8).code [1] [0, 0, 0, 0, 0, 0, 0, 0] zera r := by
  constructor
  · intro P r i j n a a' bytes hn hl h addr
    obtain ⟨v, hv, _, _, h2⟩ := (c37_tensor_round_trip_partial (dt := .other j n a') h (by decide)
      (countable_of_ok (n := 1) rfl) (by simpa [DType.size] using hl) (by omega) addr none).1 (.inl rfl)
    exact ⟨v, hv, h2⟩
  · obtain ⟨b, hb⟩ : ∃ b, zera.serialize (tval (DType.other 0 8 8).code [1] [0, 0, 0, 0, 0, 0, 0, 0]) = .ok b :=
      isOk_iff.1 (by decide +kernel)
    obtain ⟨r, hr, _⟩ := zera_law.presents (code_range (.other 0 8 8)) trivial rfl ⟨_, rfl⟩ hb
    exact ⟨r, .written zera_law trivial hb hr⟩

/-! ### C67: the code of a tensor is exact -/

/-- C67: where the narrow accessors check the range, a position is a tensor of a type only if its first element is
exactly the code. ZERA, MessagePack and CBOR are such readers. -/
theorem c67_exact_code_partial {R : TReader ρ} (hN : ∀ w r, R.asIntN w r = (do
      let x ← R.asInt64 r
      if x.toInt < -(2 ^ (w - 1) : Int) ∨ x.toInt > (2 ^ (w - 1) : Int) - 1 then .err .deser
      else pure x.toInt)) {dt : DType} {r : ρ} (h : isTensor R dt r = .ok true) :
    ∃ e0 x, R.getIdx r 0 = .ok e0 ∧ R.isInt e0 = .ok true ∧ R.asInt64 e0 = .ok x ∧ x.toInt = dt.code := by
  obtain ⟨e0, e1, e2, ha, h0, h1, h2, hi, hc, ha1, hb⟩ := isTensor_true h
  rw [hN] at hc
  obtain ⟨x, hx, hc⟩ := Res.bind_eq_ok.1 hc
  obtain ⟨_, hc⟩ := if_err_ok hc
  simp only [Res.pure_eq, Res.ok.injEq] at hc
  exact ⟨e0, x, h0, hi, hx, hc⟩

theorem c67_readers (addr : zera.ρ → Nat) (addr' : msgpack.ρ → Nat) (utf8 : Bytes → Bool) (maxDepth fuel : Nat)
    (addr'' : (cbor utf8 maxDepth fuel).ρ → Nat) :
    (∀ {dt r}, isTensor (zera.treader addr) dt r = .ok true → ∃ e0 x, zera.reader.getIdx r 0 = .ok e0 ∧
      zera.reader.asInt64 e0 = .ok x ∧ x.toInt = dt.code) ∧
    (∀ {dt r}, isTensor (msgpack.treader addr') dt r = .ok true → ∃ e0 x, msgpack.reader.getIdx r 0 = .ok e0 ∧
      msgpack.reader.asInt64 e0 = .ok x ∧ x.toInt = dt.code) ∧
    (∀ {dt r}, isTensor ((cbor utf8 maxDepth fuel).treader addr'') dt r = .ok true →
      ∃ e0 x, (cbor utf8 maxDepth fuel).reader.getIdx r 0 = .ok e0 ∧
      (cbor utf8 maxDepth fuel).reader.asInt64 e0 = .ok x ∧ x.toInt = dt.code) := by
  refine ⟨fun h => ?_, fun h => ?_, fun h => ?_⟩
  · obtain ⟨e0, x, h1, _, h2, h3⟩ := c67_exact_code_partial (R := zera.treader addr) (fun _ _ => rfl) h
    exact ⟨e0, x, h1, h2, h3⟩
  · obtain ⟨e0, x, h1, _, h2, h3⟩ := c67_exact_code_partial (R := msgpack.treader addr') (fun _ _ => rfl) h
    exact ⟨e0, x, h1, h2, h3⟩
  · obtain ⟨e0, x, h1, _, h2, h3⟩ := c67_exact_code_partial (R := (cbor utf8 maxDepth fuel).treader addr'')
      (fun _ _ => rfl) h
    exact ⟨e0, x, h1, h2, h3⟩

theorem mod_accepts {R : TReader ρ} (hN : ∀ w r, R.asIntN w r = (do
      let x ← R.asInt64 r
      pure (x.toInt.bmod (2 ^ w)))) {p : Prop} {dt : DType} {i : Int64} (hi : i.toInt = 2 ^ 32 + dt.code) {r : ρ}
    (h : R.AgreesW p r (.arr [.int i, .arr [.uint 0], .blob []]))
    (hh : ∀ e, R.getIdx r 0 = .ok e → R.isInt e = .ok true) :
    isTensor R dt r = .ok true ∧ ∃ v, asXTensorView R dt none r = .ok v := by
  have hb := code_range dt
  cases h with
  | arr child hs hn hg _ hcs =>
    have g0 := hg 0 (by simp)
    have g1 := hg 1 (by simp)
    have g2 := hg 2 (by simp)
    have a0 := hcs 0 (by simp)
    have a1 := hcs 1 (by simp)
    have a2 := hcs 2 (by simp)
    simp only [List.getElem_cons_zero, List.getElem_cons_succ] at a0 a1 a2
    have h1 := hh _ g0
    obtain ⟨x, hx, e⟩ : ∃ x, R.asInt64 (child 0) = .ok x ∧ x.toInt = i.toInt := by
      cases a0 with
      | int h0 _ => exact h0.2.1 h1
    have h8 : R.asIntN 8 (child 0) = .ok dt.code := by
      rw [hN, hx]
      simp only [Res.ok_bind, Res.pure_eq]
      congr 1
      rw [e, hi, Int.bmod_def]
      split <;> omega
    have h32 : R.asIntN 32 (child 0) = .ok dt.code := by
      rw [hN, hx]
      simp only [Res.ok_bind, Res.pure_eq]
      congr 1
      rw [e, hi, Int.bmod_def]
      split <;> omega
    have hsh : tensorShape R.toReader (child 1) = .ok [0] := tensorShape_arr a1
    have ha1 : R.isArray (child 1) = .ok true := by
      cases a1 with
      | arr _ h1 => exact h1.2.2.2.2.2.2.2
    have hb2 : R.isBlob (child 2) = .ok true ∧ R.asBlob (child 2) = .ok [] := by
      cases a2 with
      | blob h1 h2 => exact ⟨h1.2.2.2.2.2.1, h2⟩
    have ht : isTensor R dt r = .ok true := by
      unfold isTensor
      have ha : R.isArray r = .ok true := hs.2.2.2.2.2.2.2
      simp only [ha, hn, g0, g1, g2, h1, h8, ha1, hb2.1, Res.ok_bind, Res.pure_eq, Bool.not_true,
        Bool.false_eq_true, if_false, List.length_cons, List.length_nil]
      simp
    refine ⟨ht, ?_⟩
    unfold asXTensorView
    simp only [ht, Res.ok_bind, Res.require_true, g0, g1, g2, h32, hsh, hb2.2, ne_eq, not_true, if_false,
      Bool.false_eq_true]
    have hc : checkedCount 1 [0] = .ok 0 := rfl
    simp only [hc, Res.ok_bind]
    rw [if_neg (by simp [u64])]
    exact ⟨_, makeView_exact (shape := [0]) (bytes := []) (by simp [prod]) (by simp)⟩

/-- C67 fails for JSON: its narrow accessors reduce modulo 2^8 and 2^32, so that 2^32 + code is accepted. -/
theorem c67_json_refuted {T : Json.Text} (L : T.Law) (dbg : Bool) (dt : DType) :
    ∃ b r, (json T dbg).serialize (.arr [.int (Int64.ofInt (2 ^ 32 + dt.code)), .arr [.uint 0], .blob []]) = .ok b ∧
      (json T dbg).opn b = .ok r ∧ ∀ addr, isTensor ((json T dbg).treader addr) dt r = .ok true ∧
        ∃ v, asXTensorView ((json T dbg).treader addr) dt none r = .ok v := by
  have hk : Json.KeysOk (.arr [.int (Int64.ofInt (2 ^ 32 + dt.code)), .arr [.uint 0], .blob []]) :=
    ⟨trivial, trivial, ⟨trivial, trivial, trivial⟩, trivial, trivial⟩
  have hp : Json.Plain (.arr [.int (Int64.ofInt (2 ^ 32 + dt.code)), .arr [.uint 0], .blob []]) :=
    ⟨(by rintro ⟨t, h⟩; cases h), trivial, ⟨(by rintro ⟨t, h⟩; cases h), (by show (0 : UInt64).toNat < 2 ^ 63; decide), trivial⟩, trivial, trivial⟩
  obtain ⟨b, r, h1, h2, h3⟩ := Json.c32_json_round_trip_partial L dbg
    (v := .arr [.int (Int64.ofInt (2 ^ 32 + dt.code)), .arr [.uint 0], .blob []])
    ⟨trivial, trivial, ⟨trivial, trivial, trivial⟩, trivial, trivial⟩ hp hk
  refine ⟨b, r, h1, h2, fun addr => ?_⟩
  refine mod_accepts (R := (json T dbg).treader addr) (fun _ _ => rfl) ?_ h3 (fun e he => ?_)
  · have := code_range dt
    rw [Int64.toInt_ofInt]
    exact Int.bmod_eq_of_le (by simp [Int64.size]; omega) (by simp [Int64.size]; omega)
  · refine head_of_uint (P := Json.proto T dbg) (Json.proto_roundTrips L dbg) ?_ ⟨hp, hk⟩ h1 h2 he
    intro r h
    have h' : Res.ok (Json.isUInt r) = .ok true := h
    show Res.ok (Json.isInt r) = .ok true
    cases r <;> first | rfl | (simp [Json.isUInt] at h')

/-- C67 fails for Flex in the same way. -/
theorem c67_flex_refuted {L : Flex.Lib} (H : L.Law) (dbg : Bool) (dt : DType) :
    ∃ b r, (flex L dbg).serialize (.arr [.int (Int64.ofInt (2 ^ 32 + dt.code)), .arr [.uint 0], .blob []]) = .ok b ∧
      (flex L dbg).opn b = .ok r ∧ ∀ addr, isTensor ((flex L dbg).treader addr) dt r = .ok true ∧
        ∃ v, asXTensorView ((flex L dbg).treader addr) dt none r = .ok v := by
  have hd : (Val.arr [.int (Int64.ofInt (2 ^ 32 + dt.code)), .arr [.uint 0], .blob []]).Distinct ∧
      (Val.arr [.int (Int64.ofInt (2 ^ 32 + dt.code)), .arr [.uint 0], .blob []]).NulFree ∧
      (Val.arr [.int (Int64.ofInt (2 ^ 32 + dt.code)), .arr [.uint 0], .blob []]).Sorted ∧
      Flex.Fits (Val.arr [.int (Int64.ofInt (2 ^ 32 + dt.code)), .arr [.uint 0], .blob []]) :=
    ⟨⟨trivial, ⟨trivial, trivial⟩, trivial, trivial⟩, ⟨trivial, trivial, ⟨trivial, trivial, trivial⟩, trivial, trivial⟩,
      ⟨trivial, trivial, ⟨trivial, trivial, trivial⟩, trivial, trivial⟩, by
        simp [Flex.Fits, Flex.weigh, Flex.weighList]⟩
  obtain ⟨b, _, h1, _⟩ := Flex.serialize_holds H dbg hd.2.2.2
  obtain ⟨r, h2, h3⟩ := Flex.proto_roundTrips H dbg _ _ hd h1
  refine ⟨_, r, h1, h2, fun addr => ?_⟩
  refine mod_accepts (R := (flex L dbg).treader addr) (fun _ _ => rfl) ?_ h3 (fun e he => ?_)
  · have := code_range dt
    rw [Int64.toInt_ofInt]
    exact Int.bmod_eq_of_le (by simp [Int64.size]; omega) (by simp [Int64.size]; omega)
  · exact head_of_strict (Flex.proto_roundTrips H dbg) hd h1 h2 he

/-! ### C68: asking does not raise -/

/-- C68: the question is answered, for every value at a position of every reader, if the first element of an
array is not an integer outside -128..127, and blobs are not arrays. Missing: these integers (they raise in the
readers that check the range). -/
theorem c68_asking_partial {R : TReader ρ} (N : Narrow R) {p : Prop} {r : ρ} {v : Val} (h : R.AgreesW p r v)
    (hb : ∀ s, v = .blob s → R.isArray r = .ok false)
    (hv : ∀ x xs, v = .arr (x :: xs) → (∀ i, x = .int i → -128 ≤ i.toInt ∧ i.toInt ≤ 127) ∧
      (∀ n, x = .uint n → n.toNat ≤ 127)) (dt : DType) :
    ∃ b, isTensor R dt r = .ok b := by
  have na : R.isArray r = .ok false → ∃ b, isTensor R dt r = .ok b := by
    intro ha
    exact ⟨false, by simp [isTensor, ha]⟩
  have kinds : ∀ {e w}, R.AgreesW p e w → (∃ b, R.isArray e = .ok b) ∧ (∃ b, R.isBlob e = .ok b) ∧
      ∃ b, R.isInt e = .ok b := by
    intro e w h
    cases h with
    | int h => obtain ⟨i, u, h1, _⟩ := h.1.2.2.1; exact ⟨⟨_, h.1.2.2.2.2.2.2.2⟩, ⟨_, h.1.2.2.2.2.2.1⟩, _, h1⟩
    | uint h => obtain ⟨i, u, h1, _⟩ := h.1.2.2.1; exact ⟨⟨_, h.1.2.2.2.2.2.2.2⟩, ⟨_, h.1.2.2.2.2.2.1⟩, _, h1⟩
    | null h => obtain ⟨i, u, h1, _⟩ := h.2.2.1; exact ⟨⟨_, h.2.2.2.2.2.2.2⟩, ⟨_, h.2.2.2.2.2.1⟩, _, h1⟩
    | bool h => obtain ⟨i, u, h1, _⟩ := h.2.2.1; exact ⟨⟨_, h.2.2.2.2.2.2.2⟩, ⟨_, h.2.2.2.2.2.1⟩, _, h1⟩
    | dbl h => obtain ⟨i, u, h1, _⟩ := h.2.2.1; exact ⟨⟨_, h.2.2.2.2.2.2.2⟩, ⟨_, h.2.2.2.2.2.1⟩, _, h1⟩
    | str h => obtain ⟨i, u, h1, _⟩ := h.2.2.1; exact ⟨⟨_, h.2.2.2.2.2.2.2⟩, ⟨_, h.2.2.2.2.2.1⟩, _, h1⟩
    | blob h => obtain ⟨i, u, h1, _⟩ := h.2.2.1; exact ⟨⟨_, h.2.2.2.2.2.2.2⟩, ⟨_, h.2.2.2.2.2.1⟩, _, h1⟩
    | arr _ h => obtain ⟨i, u, h1, _⟩ := h.2.2.1; exact ⟨⟨_, h.2.2.2.2.2.2.2⟩, ⟨_, h.2.2.2.2.2.1⟩, _, h1⟩
    | map _ h => obtain ⟨i, u, h1, _⟩ := h.2.2.1; exact ⟨⟨_, h.2.2.2.2.2.2.2⟩, ⟨_, h.2.2.2.2.2.1⟩, _, h1⟩
  have notInt : ∀ {e a b c d f g h'}, R.Shows e a b false c d f g h' → R.isInt e = .ok false := by
    intro e a b c d f g h' h
    obtain ⟨i, u, h1, h2, h3⟩ := h.2.2.1
    simp only [Bool.or_eq_false_iff] at h3
    rw [h1, h3.1]
  cases h with
  | null h => exact na h.2.2.2.2.2.2.2
  | bool h => exact na h.2.2.2.2.2.2.2
  | int h => exact na h.1.2.2.2.2.2.2.2
  | uint h => exact na h.1.2.2.2.2.2.2.2
  | dbl h => exact na h.2.2.2.2.2.2.2
  | str h => exact na h.2.2.2.2.2.2.2
  | blob h => exact na (hb _ rfl)
  | map _ h => exact na h.2.2.2.2.2.2.2
  | @arr _ xs child hs hn hg _ hc =>
    have ha : R.isArray r = .ok true := hs.2.2.2.2.2.2.2
    unfold isTensor
    simp only [ha, hn, Res.ok_bind, Bool.not_true, Bool.false_eq_true, if_false]
    by_cases hl : xs.length < 3
    · simp [hl]
    · simp only [hl, if_false]
      have g0 := hg 0 (by omega)
      have g1 := hg 1 (by omega)
      have g2 := hg 2 (by omega)
      have a0 := hc 0 (by omega)
      have a1 := hc 1 (by omega)
      have a2 := hc 2 (by omega)
      obtain ⟨b0, k0⟩ := (kinds a0).2.2
      simp only [g0, k0, Res.ok_bind]
      cases b0 with
      | false => simp
      | true =>
        simp only [Bool.not_true, Bool.false_eq_true, if_false]
        have h8 : ∃ z, R.asIntN 8 (child 0) = .ok z := by
          match xs, hl, hv, a0 with
          | x :: xs, _, hv, a0 =>
            have hx := hv x xs rfl
            simp only [List.getElem_cons_zero] at a0
            cases a0 with
            | @int _ i h0 _ =>
              obtain ⟨y, hy, e⟩ := h0.2.1 k0
              have := hx.1 i rfl
              exact ⟨_, N 8 _ y (.inl rfl) hy (by rw [e]; omega) (by rw [e]; omega)⟩
            | @uint _ n h0 _ =>
              obtain ⟨y, hy, e⟩ := h0.2.1 k0
              have := hx.2 n rfl
              exact ⟨_, N 8 _ y (.inl rfl) hy (by rw [e]; omega) (by rw [e]; omega)⟩
            | null h => rw [notInt h] at k0; cases k0
            | bool h => rw [notInt h] at k0; cases k0
            | dbl h => rw [notInt h] at k0; cases k0
            | str h => rw [notInt h] at k0; cases k0
            | blob h => rw [notInt h] at k0; cases k0
            | arr _ h => rw [notInt h] at k0; cases k0
            | map _ h => rw [notInt h] at k0; cases k0
        obtain ⟨z, hz⟩ := h8
        obtain ⟨b1, k1⟩ := (kinds a1).1
        obtain ⟨b2, k2⟩ := (kinds a2).2.1
        simp only [hz, g1, g2, k1, k2, Res.ok_bind]
        by_cases e : z ≠ dt.code
        · rw [if_pos e]; exact ⟨_, rfl⟩
        · rw [if_neg e]
          cases b1 <;> simp

/-- C68 for JSON: always answered, on any document. -/
theorem c68_json_asking (T : Json.Text) (dbg : Bool) (addr : Val → Nat) (dt : DType) (r : Val) :
    ∃ b, isTensor ((json T dbg).treader addr) dt r = .ok b := by
  have hb : ∀ v : Val, ∃ b, Json.isBlob v = .ok b := fun v =>
    (Json.isBlob_returns v).elim (fun h => ⟨_, h⟩) (fun h => ⟨_, h⟩)
  have key : ∀ (R : TReader Val) (r : Val), R.toReader = Json.reader → R.asIntN = Json.asIntN →
      ∃ b, isTensor R dt r = .ok b := by
    intro R r e1 e2
    have ha : R.isArray r = .ok (Json.isArray r) := by rw [e1]; rfl
    unfold isTensor
    rw [ha]
    match r with
    | .arr (x :: y :: z :: xs) =>
      have hn : R.arraySize (.arr (x :: y :: z :: xs)) = .ok (xs.length + 1 + 1 + 1) := by rw [e1]; rfl
      have g0 : R.getIdx (.arr (x :: y :: z :: xs)) 0 = .ok x := by rw [e1]; rfl
      have g1 : R.getIdx (.arr (x :: y :: z :: xs)) 1 = .ok y := by rw [e1]; rfl
      have g2 : R.getIdx (.arr (x :: y :: z :: xs)) 2 = .ok z := by rw [e1]; rfl
      have k0 : R.isInt x = .ok (Json.isInt x) := by rw [e1]; rfl
      have k1 : R.isArray y = .ok (Json.isArray y) := by rw [e1]; rfl
      obtain ⟨b2, k2⟩ := hb z
      have k2' : R.isBlob z = .ok b2 := by rw [e1]; exact k2
      rw [show Json.isArray (.arr (x :: y :: z :: xs)) = true from rfl]
      generalize Json.isArray y = ay at k1
      simp only [hn, g0, g1, g2, k0, k1, k2', Res.ok_bind, Bool.not_true, Bool.false_eq_true, if_false]
      rw [if_neg (by omega)]
      cases hx : Json.isInt x with
      | false => simp
      | true =>
        have h8 : ∃ c, R.asIntN 8 x = .ok c := by
          rw [e2]
          cases x <;> simp [Json.isInt] at hx <;> simp [Json.asIntN, Json.asInt64]
        obtain ⟨c, hc⟩ := h8
        simp only [hc, Res.ok_bind, Bool.not_true, Bool.false_eq_true, if_false]
        by_cases e : c ≠ dt.code
        · rw [if_pos e]; exact ⟨_, rfl⟩
        · rw [if_neg e]
          cases ay <;> simp
    | .arr [] => exact ⟨false, by rw [e1]; rfl⟩
    | .arr [_] => exact ⟨false, by rw [e1]; rfl⟩
    | .arr [_, _] => exact ⟨false, by rw [e1]; rfl⟩
    | .null => exact ⟨false, rfl⟩
    | .bool _ => exact ⟨false, rfl⟩
    | .int _ => exact ⟨false, rfl⟩
    | .uint _ => exact ⟨false, rfl⟩
    | .dbl _ => exact ⟨false, rfl⟩
    | .str _ => exact ⟨false, rfl⟩
    | .blob _ => exact ⟨false, rfl⟩
    | .map _ => exact ⟨false, rfl⟩
  exact key _ r rfl rfl

/-- C68 fails: ZERA raises DeserializationError on [300, [], blob] instead of answering. -/
theorem c68_asking_refuted :
    ∃ b r, zera.serialize (.arr [.int 300, .arr [], .blob []]) = .ok b ∧ zera.opn b = .ok r ∧
      ∀ addr dt, isTensor (zera.treader addr) dt r = .err .deser := by
  obtain ⟨b, hb⟩ : ∃ b, zera.serialize (.arr [.int 300, .arr [], .blob []]) = .ok b := isOk_iff.1 (by decide +kernel)
  obtain ⟨r, hr, ha⟩ := zera_law.roundTrips _ b trivial hb
  refine ⟨b, r, hb, hr, fun addr dt => ?_⟩
  cases ha with
  | arr child hs hn hg _ hcs =>
    have g0 := hg 0 (by simp)
    have a0 := hcs 0 (by simp)
    simp only [List.getElem_cons_zero] at a0
    cases a0 with
    | int h0 hst =>
      have hi := (hst trivial).1
      obtain ⟨x, hx, e⟩ := h0.2.1 hi
      have h8 : (zera.treader addr).asIntN 8 (child 0) = .err .deser := by
        show Zera.View.asIntN 8 (child 0) = _
        unfold Zera.View.asIntN
        have hx' : Zera.View.asInt64 (child 0) = .ok x := hx
        rw [hx']
        simp only [Res.ok_bind]
        rw [if_pos (by rw [e]; decide)]
      have ha : (zera.treader addr).isArray r = .ok true := hs.2.2.2.2.2.2.2
      have hn' : (zera.treader addr).arraySize r = .ok 3 := hn
      have g0' : (zera.treader addr).getIdx r 0 = .ok (child 0) := g0
      have hi' : (zera.treader addr).isInt (child 0) = .ok true := hi
      unfold isTensor
      simp [ha, hn', g0', hi', h8]

/-! ### C69: elements -/

/-- Row-major without gaps from `data()` on. -/
def RowMajor (k : Cont) : Prop :=
  ∀ idx, Inside idx k.shape → k.offset + dot idx k.strides = dot idx (rowStrides k.shape)

/-- Column-major without gaps. -/
def ColMajor (k : Cont) : Prop :=
  ∀ idx, Inside idx k.shape → k.offset + dot idx k.strides = dot idx (colStrides k.shape)

theorem elements {k : Cont} {dt : DType} {v : View} (hs : v.shape = k.shape)
    (hl : k.shape.foldr (· * ·) 1 * dt.size ≤ k.mem.length)
    (hb : v.bytes = k.mem.take (k.shape.foldr (· * ·) 1 * dt.size)) {idx : List Nat} (hi : Inside idx k.shape) :
    (RowMajor k → v.at dt idx = k.at dt idx ∧ v.atEigen dt true idx = k.at dt idx) ∧
    (ColMajor k → v.atEigen dt false idx = k.at dt idx) := by
  have e := fun {n} (hn : n < prod k.shape) => element_take (size := dt.size) (mem := k.mem) hn hl
  refine ⟨fun hr => ?_, fun hc => ?_⟩
  · unfold View.at View.atEigen Cont.at
    rw [hs, hb, hr idx hi]
    exact ⟨e (dot_row_lt hi), e (dot_row_lt hi)⟩
  · unfold View.atEigen Cont.at
    rw [hs, hb, hc idx hi]
    exact e (dot_col hi)

/-- C69 for xtensor: written to any protocol and read back, every index shows the element that the container had
there, if the container is row-major without gaps. Missing: other layouts (`c69_elements_refuted`). -/
theorem c69_xtensor_elements_partial {P : TProto} {q : Prop} {dom : Val → Prop} (L : P.Law q dom) {k : Cont}
    {dt : DType} {x : Dyn.Src} (hx : xtSrc k dt = .ok x) (hd : ∀ d ∈ k.shape, d < 2 ^ 32)
    (hc : ∀ p q, k.shape = p ++ q → 0 ∉ p → p.foldr (· * ·) 1 < 2 ^ 64)
    (hn : k.shape.foldr (· * ·) 1 * dt.size < 2 ^ 64)
    (hdom : dom (tval dt.code k.shape (k.mem.take (k.shape.foldr (· * ·) 1 * dt.size)))) {b : Bytes}
    (hb : Dyn.serialize P.toProto x = .ok b) (addr : P.ρ → Nat) (hm : RowMajor k) :
    ∃ r v, P.opn b = .ok r ∧ asXTensorView (P.treader addr) dt none r = .ok v ∧
      ∀ idx, Inside idx k.shape → ∃ e, k.at dt idx = .ok e ∧ v.at dt idx = .ok e := by
  have hl : k.shape.foldr (· * ·) 1 * dt.size ≤ k.mem.length := by
    unfold xtSrc spanFromDataOf sliceAt at hx
    by_cases hl : 0 + prod k.shape * dt.size ≤ k.mem.length
    · unfold prod at hl; omega
    · rw [if_neg hl] at hx; cases hx
  obtain ⟨r, v, h1, h2, h3, h4⟩ := c37_xtensor_end_to_end_partial L hx hd hc hn hdom hb addr
  refine ⟨r, v, h1, h2, fun idx hi => ?_⟩
  obtain ⟨e, he, _⟩ := element_ok (size := dt.size) (mem := k.mem) (dot_row_lt hi) hl
  have hk : k.at dt idx = .ok e := by unfold Cont.at; rw [hm idx hi]; exact he
  exact ⟨e, hk, ((elements h3 hl h4 hi).1 hm).1.trans hk⟩

/-- C69 for Eigen: the same, if the matrix is read with the storage order that it was written with. -/
theorem c69_eigen_elements_partial {P : TProto} {q : Prop} {dom : Val → Prop} (L : P.Law q dom) {k : Cont} {dt : DType}
    {x : Dyn.Src} (hx : eigenSrc k dt = .ok x) {rows cols : Nat} (hs : k.shape = [rows, cols])
    (hr : rows < 2 ^ 32) (hc : cols < 2 ^ 32) (hn : rows * cols * dt.size < 2 ^ 64)
    (hdom : dom (tval dt.code [rows, cols] (k.mem.take (rows * cols * dt.size)))) {b : Bytes}
    (hb : Dyn.serialize P.toProto x = .ok b) (addr : P.ρ → Nat) (rowMajor : Bool)
    (hm : if rowMajor then RowMajor k else ColMajor k) :
    ∃ r v, P.opn b = .ok r ∧ asEigenMatrixView (P.treader addr) dt none none r = .ok v ∧
      ∀ i j, i < rows → j < cols → ∃ e, k.at dt [i, j] = .ok e ∧ v.atEigen dt rowMajor [i, j] = .ok e := by
  have hp : prod k.shape = rows * cols := by rw [hs]; simp [prod]
  have hl : k.shape.foldr (· * ·) 1 * dt.size ≤ k.mem.length := by
    unfold eigenSrc spanFromDataOf sliceAt at hx
    by_cases hl : 0 + prod k.shape * dt.size ≤ k.mem.length
    · unfold prod at hl; omega
    · rw [if_neg hl] at hx; cases hx
  obtain ⟨r, v, h1, h2, h3, h4⟩ := c37_eigen_end_to_end L hx hs hr hc hn hdom hb addr
  refine ⟨r, v, h1, h2, fun i j hi hj => ?_⟩
  have hin : Inside [i, j] k.shape := by rw [hs]; exact ⟨hi, hj, trivial⟩
  have h4' : v.bytes = k.mem.take (k.shape.foldr (· * ·) 1 * dt.size) := by
    rw [h4, show k.shape.foldr (· * ·) 1 = rows * cols from hp]
  cases rowMajor with
  | true =>
    have hm' : RowMajor k := hm
    obtain ⟨e, he, _⟩ := element_ok (size := dt.size) (mem := k.mem) (dot_row_lt hin) hl
    have hk : k.at dt [i, j] = .ok e := by unfold Cont.at; rw [hm' _ hin]; exact he
    exact ⟨e, hk, ((elements h3 hl h4' hin).1 hm').2.trans hk⟩
  | false =>
    have hm' : ColMajor k := hm
    obtain ⟨e, he, _⟩ := element_ok (size := dt.size) (mem := k.mem) (dot_col hin) hl
    have hk : k.at dt [i, j] = .ok e := by unfold Cont.at; rw [hm' _ hin]; exact he
    exact ⟨e, hk, ((elements h3 hl h4' hin).2 hm').trans hk⟩

/-- C69 fails: a column-major matrix, the default of Eigen, is read transposed by xtensor, and a view that does
not start at `data()` is written from there on. -/
theorem c69_elements_refuted :
    (let k : Cont := ⟨[1, 2, 3, 4], [2, 2], [1, 2], 0⟩
     ColMajor k ∧ ∃ x b r v, eigenSrc k .i8 = .ok x ∧ Dyn.serialize zera.toProto x = .ok b ∧ zera.opn b = .ok r ∧
      asXTensorView (zera.treader fun _ => 0) .i8 none r = .ok v ∧ k.at .i8 [0, 1] = .ok [3] ∧
      v.at .i8 [0, 1] = .ok [2]) ∧
    (let k : Cont := ⟨[1, 2, 3, 4], [2], [1], 2⟩
     ∃ x b r v, xtSrc k .i8 = .ok x ∧ Dyn.serialize zera.toProto x = .ok b ∧ zera.opn b = .ok r ∧
      asXTensorView (zera.treader fun _ => 0) .i8 none r = .ok v ∧ k.at .i8 [0] = .ok [3] ∧
      v.at .i8 [0] = .ok [1]) := by
  constructor
  · refine ⟨?_, ?_⟩
    · intro idx hi
      match idx, hi with
      | [i, j], _ => simp [dot, colStrides, colStridesFrom]
    · obtain ⟨x, hx⟩ : ∃ x, eigenSrc ⟨[1, 2, 3, 4], [2, 2], [1, 2], 0⟩ .i8 = .ok x := isOk_iff.1 (by decide +kernel)
      obtain ⟨b, hb⟩ : ∃ b, zera.serialize (tval DType.i8.code [2, 2] [1, 2, 3, 4]) = .ok b := isOk_iff.1 (by decide +kernel)
      have e' : Dyn.serialize zera.toProto x = .ok b := by rw [c37_eigen_written hx, ← hb]; rfl
      obtain ⟨r, hr, _⟩ := zera_law.presents (code_range .i8) trivial rfl ⟨_, rfl⟩ hb
      obtain ⟨v, hv, h1, _, h2⟩ := (c37_tensor_round_trip_partial (P := zera) (.written zera_law trivial hb hr) (by decide)
        (countable_of_ok (n := 4) rfl) (by decide) (by decide) (fun _ => 0) none).1 (.inl rfl)
      refine ⟨x, b, r, v, hx, e', hr, hv, by decide, ?_⟩
      unfold View.at
      rw [h1, h2]; decide
  · obtain ⟨x, hx⟩ : ∃ x, xtSrc ⟨[1, 2, 3, 4], [2], [1], 2⟩ .i8 = .ok x := isOk_iff.1 (by decide +kernel)
    obtain ⟨b, hb⟩ : ∃ b, zera.serialize (tval DType.i8.code [2] [1, 2]) = .ok b := isOk_iff.1 (by decide +kernel)
    have e' : Dyn.serialize zera.toProto x = .ok b := by rw [c37_xtensor_written hx, ← hb]; rfl
    obtain ⟨r, hr, _⟩ := zera_law.presents (code_range .i8) trivial rfl ⟨_, rfl⟩ hb
    obtain ⟨v, hv, h1, _, h2⟩ := (c37_tensor_round_trip_partial (P := zera) (.written zera_law trivial hb hr) (by decide)
      (countable_of_ok (n := 2) rfl) (by decide) (by decide) (fun _ => 0) none).1 (.inl rfl)
    refine ⟨x, b, r, v, hx, e', hr, hv, by decide, ?_⟩
    unfold View.at
    rw [h1, h2]; decide

/-! ### Cases that meet the hypotheses -/

/-- A 2×3 tensor of 16-bit integers written to ZERA arrives, has a view that is zero-copy at an aligned address
and owns a copy at an odd one, and shows its elements. -/
theorem arrives_example : ∃ r, Arrives DType.i16.code [2, 3] [1, 0, 2, 0, 3, 0, 4, 0, 5, 0, 6, 0] zera r := by
  obtain ⟨b, hb⟩ : ∃ b, zera.serialize (tval DType.i16.code [2, 3] [1, 0, 2, 0, 3, 0, 4, 0, 5, 0, 6, 0]) = .ok b :=
    isOk_iff.1 (by decide +kernel)
  obtain ⟨r, hr, _⟩ := zera_law.presents (code_range .i16) trivial rfl ⟨_, rfl⟩ hb
  exact ⟨r, .written zera_law trivial hb hr⟩

example : ∃ (r : zera.ρ) (v w : View), asXTensorView (zera.treader fun _ => 16) .i16 (some 2) r = .ok v ∧
    asXTensorView (zera.treader fun _ => 17) .i16 (some 2) r = .ok w ∧ v.zeroCopy = true ∧ w.zeroCopy = false ∧
    v.at .i16 [1, 2] = .ok [6, 0] ∧ w.at .i16 [1, 2] = .ok [6, 0] := by
  obtain ⟨r, h⟩ := arrives_example
  obtain ⟨v, hv, v1, v2, v3⟩ := (c37_tensor_round_trip_partial h (by decide) (countable_of_ok (n := 6) rfl) (by decide)
    (by decide) (fun _ => 16) (some 2)).1 (.inr rfl)
  obtain ⟨w, hw, w1, w2, w3⟩ := (c37_tensor_round_trip_partial h (by decide) (countable_of_ok (n := 6) rfl) (by decide)
    (by decide) (fun _ => 17) (some 2)).1 (.inr rfl)
  obtain ⟨_, _, _, _, _, _, _, zv, _⟩ := c39_xtensor_zero_copy hv
  obtain ⟨_, _, _, _, _, _, _, zw, _⟩ := c39_xtensor_zero_copy hw
  refine ⟨r, v, w, hv, hw, zv.2 ⟨rfl, show 16 % 2 = 0 by decide⟩, ?_, ?_, ?_⟩
  · cases hz : w.zeroCopy with
    | false => rfl
    | true => exact absurd (zw.1 hz).2 (show ¬ 17 % 2 = 0 by decide)
  · unfold View.at; rw [v1, v3]; decide
  · unfold View.at; rw [w1, w3]; decide

/-- The same tensor, translated to CBOR, arrives there. -/
example : ∃ r r', Arrives DType.i16.code [2, 3] [1, 0, 2, 0, 3, 0, 4, 0, 5, 0, 6, 0] zera r ∧
    (cbor (fun _ => true) 100 1000).translate zera.reader 10 r = .ok r' ∧
    Arrives DType.i16.code [2, 3] [1, 0, 2, 0, 3, 0, 4, 0, 5, 0, 6, 0] (cbor (fun _ => true) 100 1000) r' := by
  obtain ⟨r, h⟩ := arrives_example
  have hD := (c37_domains DType.i16.code [2, 3] [1, 0, 2, 0, 3, 0, 4, 0, 5, 0, 6, 0] (by decide)).2.1 (fun _ => true)
    100 1000 (by decide) (by decide)
  have hp := h.presents (code_range .i16)
  obtain ⟨v', h1, _, h2, _⟩ := (cbor_law (fun _ => true) 100 1000).translate (code_range .i16) hD hp (f := 10) (by decide)
  obtain ⟨b, hb⟩ : ∃ b, (cbor (fun _ => true) 100 1000).serialize v' = .ok b := by
    have e : (cbor (fun _ => true) 100 1000).serialize v' = (cbor (fun _ => true) 100 1000).serialize
        (tval DType.i16.code [2, 3] [1, 0, 2, 0, 3, 0, 4, 0, 5, 0, 6, 0]) := Cbor.c12_cbor_same h1
    rw [e]
    exact isOk_iff.1 (by decide +kernel)
  refine ⟨r, ⟨b, 0⟩, h, by rw [h2, hb]; rfl, .translated (cbor_law _ _ _) hD h (f := 10) (by decide) (by rw [h2, hb]; rfl)⟩

end Zer.Tensor
