import Verif.Tensor.Model
import Verif.Dyn.Calls

/-!
# Lemmas about tensors
-/

namespace Zer.Tensor

/-! ## Products, counts, strides -/

@[simp] theorem prod_nil : prod [] = 1 := rfl
@[simp] theorem prod_cons (d : Nat) (ds : List Nat) : prod (d :: ds) = d * prod ds := rfl

theorem prod_append (a b : List Nat) : prod (a ++ b) = prod a * prod b := by
  induction a with
  | nil => simp
  | cons d a ih => simp [ih, Nat.mul_assoc]

theorem prod_eq_zero {ds : List Nat} : prod ds = 0 ↔ 0 ∈ ds := by
  induction ds with
  | nil => simp
  | cons d ds ih =>
    simp only [prod_cons, Nat.mul_eq_zero, ih, List.mem_cons]
    exact ⟨fun h => h.imp (fun h => h.symm) id, fun h => h.imp (fun h => h.symm) id⟩

theorem mul_le_max {c d : Nat} (hd : d ≠ 0) : ¬ c > (2 ^ 64 - 1) / d ↔ c * d < 2 ^ 64 := by
  have hd' : 0 < d := Nat.pos_of_ne_zero hd
  rw [Nat.not_lt, Nat.le_div_iff_mul_le hd']
  omega

theorem checkedCount_ok : ∀ {ds : List Nat} {c n : Nat}, checkedCount c ds = .ok n → n = c * prod ds
  | [], c, n, h => by simp only [checkedCount, Res.pure_eq] at h; injection h with h; simp [h]
  | d :: ds, c, n, h => by
    simp only [checkedCount] at h
    by_cases hd : d = 0
    · rw [if_pos hd] at h
      simp only [Res.pure_eq] at h
      injection h with h
      simp [hd, ← h]
    · rw [if_neg hd] at h
      split at h
      · cases h
      · rw [checkedCount_ok h, prod_cons, Nat.mul_assoc]

theorem checkedCount_lt : ∀ {ds : List Nat} {c n : Nat}, c < 2 ^ 64 → checkedCount c ds = .ok n → n < 2 ^ 64
  | [], c, n, hc, h => by simp only [checkedCount, Res.pure_eq] at h; injection h with h; omega
  | d :: ds, c, n, hc, h => by
    simp only [checkedCount] at h
    by_cases hd : d = 0
    · rw [if_pos hd] at h
      simp only [Res.pure_eq] at h
      injection h with h
      omega
    · rw [if_neg hd] at h
      split at h
      · cases h
      · exact checkedCount_lt ((mul_le_max hd).1 ‹_›) h

/-- The product of the dimensions before the first zero, and of every beginning of them, is a `size_t`. -/
def Countable (ds : List Nat) : Prop := ∀ p q, ds = p ++ q → 0 ∉ p → prod p < 2 ^ 64

theorem checkedCount_iff : ∀ {ds : List Nat} {c : Nat}, c < 2 ^ 64 →
    ((∃ n, checkedCount c ds = .ok n) ↔ ∀ p q, ds = p ++ q → 0 ∉ p → c * prod p < 2 ^ 64)
  | [], c, hc => by
    simp only [checkedCount, Res.pure_eq, Res.ok.injEq, exists_eq', true_iff]
    intro p q h _
    obtain ⟨rfl, rfl⟩ := List.append_eq_nil_iff.1 h.symm
    simpa using hc
  | d :: ds, c, hc => by
    simp only [checkedCount]
    by_cases hd : d = 0
    · rw [if_pos hd]
      simp only [Res.pure_eq, Res.ok.injEq, exists_eq', true_iff]
      intro p q h h0
      cases p with
      | nil => simpa using hc
      | cons e p => simp only [List.cons_append, List.cons.injEq] at h; exact absurd (by simp [← h.1, hd]) h0
    · rw [if_neg hd]
      by_cases hm : c > (2 ^ 64 - 1) / d
      · rw [if_pos hm]
        constructor
        · rintro ⟨n, h⟩; cases h
        · intro h
          have := h [d] ds rfl (by simpa using fun e => hd e.symm)
          simp only [prod_cons, prod_nil, Nat.mul_one] at this
          exact absurd hm ((mul_le_max hd).2 this)
      · rw [if_neg hm, checkedCount_iff ((mul_le_max hd).1 hm)]
        constructor
        · intro h p q e h0
          cases p with
          | nil => simpa using hc
          | cons e' p =>
            simp only [List.cons_append, List.cons.injEq] at e
            rw [prod_cons, ← e.1, ← Nat.mul_assoc]
            exact h p q e.2 (fun h => h0 (by simp [h]))
        · intro h p q e h0
          have := h (d :: p) q (by simp [e]) (by simp only [List.mem_cons, not_or]; exact ⟨fun e => hd e.symm, h0⟩)
          rwa [prod_cons, ← Nat.mul_assoc] at this

theorem checkedCount_err {ds : List Nat} : ∀ {c : Nat}, (∃ n, checkedCount c ds = .ok n) ∨ checkedCount c ds = .err .deser := by
  induction ds with
  | nil => intro c; exact .inl ⟨c, rfl⟩
  | cons d ds ih =>
    intro c
    simp only [checkedCount]
    split
    · exact .inl ⟨0, rfl⟩
    · split
      · exact .inr rfl
      · exact ih

theorem countable_of_pos {ds : List Nat} (h0 : 0 ∉ ds) : Countable ds ↔ prod ds < 2 ^ 64 := by
  constructor
  · intro h; exact h ds [] (by simp) h0
  · intro h p q e hp
    subst e
    rw [prod_append] at h
    have : prod q ≠ 0 := fun hq => h0 (by simp [prod_eq_zero.1 hq])
    exact Nat.lt_of_le_of_lt (Nat.le_mul_of_pos_right _ (Nat.pos_of_ne_zero this)) h

theorem dot_row_lt : ∀ {idx ds : List Nat}, Inside idx ds → dot idx (rowStrides ds) < prod ds
  | [], [], _ => by simp [dot]
  | i :: is, d :: ds, h => by
    obtain ⟨h1, h2⟩ := h
    have := dot_row_lt h2
    simp only [rowStrides, dot, prod_cons]
    calc i * prod ds + dot is (rowStrides ds) < i * prod ds + prod ds := by omega
      _ = (i + 1) * prod ds := by rw [Nat.add_mul, Nat.one_mul]
      _ ≤ d * prod ds := Nat.mul_le_mul_right _ h1
  | [], _ :: _, h => h.elim
  | _ :: _, [], h => h.elim

theorem dot_col_lt : ∀ {idx ds : List Nat} {k : Nat}, Inside idx ds → 0 < k →
    dot idx (colStridesFrom k ds) + k ≤ k * prod ds
  | [], [], k, _, hk => by simp [dot, colStridesFrom]
  | i :: is, d :: ds, k, h, hk => by
    obtain ⟨h1, h2⟩ := h
    have hd : 0 < d := by omega
    have := dot_col_lt (k := k * d) h2 (Nat.mul_pos hk hd)
    simp only [colStridesFrom, dot, prod_cons]
    have h3 : i * k + k ≤ k * d := by
      calc i * k + k = (i + 1) * k := by rw [Nat.add_mul, Nat.one_mul]
        _ ≤ d * k := Nat.mul_le_mul_right _ h1
        _ = k * d := Nat.mul_comm _ _
    rw [← Nat.mul_assoc]
    omega
  | [], _ :: _, _, h, _ => h.elim
  | _ :: _, [], _, h, _ => h.elim

theorem dot_col {idx ds : List Nat} (h : Inside idx ds) : dot idx (colStrides ds) < prod ds := by
  have := dot_col_lt (k := 1) h (by omega)
  simp only [Nat.one_mul] at this
  unfold colStrides
  omega

/-- Every offset of a row-major container is the offset of exactly one index. -/
theorem dot_row_inj : ∀ {idx idx' ds : List Nat}, Inside idx ds → Inside idx' ds →
    dot idx (rowStrides ds) = dot idx' (rowStrides ds) → idx = idx'
  | [], [], [], _, _, _ => rfl
  | i :: is, j :: js, d :: ds, h, h', e => by
    have a := dot_row_lt h.2
    have b := dot_row_lt h'.2
    simp only [rowStrides, dot] at e
    have hp : 0 < prod ds := by omega
    have e1 : i = j := by
      have h1 := congrArg (· / prod ds) e
      simp only [Nat.mul_comm _ (prod ds), Nat.mul_add_div hp, Nat.div_eq_of_lt a, Nat.div_eq_of_lt b] at h1
      omega
    subst e1
    rw [dot_row_inj h.2 h'.2 (by omega)]
  | [], _ :: _, [], _, h', _ => h'.elim
  | _ :: _, _, [], h, _, _ => h.elim
  | [], _, _ :: _, h, _, _ => h.elim
  | _, [], _ :: _, _, h', _ => h'.elim

/-! ## Elements -/

theorem element_ok {size : Nat} {mem : Bytes} {k n : Nat} (hk : k < n) (hm : n * size ≤ mem.length) :
    ∃ e, element size mem k = .ok e ∧ e.length = size := by
  have h : k * size + size ≤ mem.length := by
    calc k * size + size = (k + 1) * size := by rw [Nat.add_mul, Nat.one_mul]
      _ ≤ n * size := Nat.mul_le_mul_right _ hk
      _ ≤ _ := hm
  refine ⟨(mem.drop (k * size)).take size, by simp [element, sliceAt, h], ?_⟩
  simp; omega

theorem element_take {size : Nat} {mem : Bytes} {k n : Nat} (hk : k < n) (hm : n * size ≤ mem.length) :
    element size (mem.take (n * size)) k = element size mem k := by
  have h : k * size + size ≤ n * size := by
    calc k * size + size = (k + 1) * size := by rw [Nat.add_mul, Nat.one_mul]
      _ ≤ n * size := Nat.mul_le_mul_right _ hk
  have h1 : k * size + size ≤ (mem.take (n * size)).length := by
    rw [List.length_take]; omega
  simp only [element, sliceAt]
  rw [if_pos h1, if_pos (by omega)]
  congr 1
  rw [List.drop_take, List.take_take]
  congr 1
  omega

/-! ## Shapes -/

theorem shapeElem_uint {ρ : Type} {R : Reader ρ} {e : ρ} {z : Int} (h : R.ShowsInt e z) :
    shapeElem R e = if 0 ≤ z ∧ z < 2 ^ 32 then .ok z.toNat else .err .deser := by
  obtain ⟨⟨_, _, ⟨i, u, hi, hu, hiu⟩, _⟩, h1, h2⟩ := h
  unfold shapeElem
  rw [hu]
  cases u with
  | true =>
    obtain ⟨y, hy, e⟩ := h2 hu
    simp only [Res.ok_bind, if_true, hy]
    by_cases hz : 0 ≤ z ∧ z < 2 ^ 32
    · rw [if_neg (by have := hz.2; simp only [u32max]; omega), if_pos hz, ← e]; rfl
    · rw [if_pos (by simp only [u32max]; omega), if_neg hz]
  | false =>
    have : i = true := by simpa using hiu
    subst this
    obtain ⟨x, hx, e⟩ := h1 hi
    simp only [Res.ok_bind, Bool.false_eq_true, if_false, hi, if_true, hx]
    by_cases hz : 0 ≤ z ∧ z < 2 ^ 32
    · rw [if_neg (by omega), if_neg (by have := hz.2; simp only [u32max]; omega), if_pos hz, e]; rfl
    · rw [if_neg hz]
      by_cases h0 : x.toInt < 0
      · rw [if_pos h0]
      · rw [if_neg h0, if_pos (by simp only [u32max]; omega)]

/-- A position that shows no integer is no dimension. -/
theorem shapeElem_other {ρ : Type} {R : Reader ρ} {e : ρ} {a b c d f g h} (hs : R.Shows e a b false c d f g h) :
    shapeElem R e = .err .deser := by
  obtain ⟨_, _, ⟨i, u, hi, hu, hiu⟩, _⟩ := hs
  simp only [Bool.or_eq_false_iff] at hiu
  obtain ⟨rfl, rfl⟩ := hiu
  simp [shapeElem, hi, hu]

/-- The dimension that a value is, if it is one. -/
def dimOf (v : Val) : Option Nat :=
  match v with
  | .int i => if 0 ≤ i.toInt ∧ i.toInt < 2 ^ 32 then some i.toInt.toNat else none
  | .uint n => if n.toNat < 2 ^ 32 then some n.toNat else none
  | _ => none

/-- The dimensions that a list of values is. -/
def dimsOf : List Val → Option (List Nat)
  | [] => some []
  | v :: vs => (dimOf v).bind fun d => (dimsOf vs).map (d :: ·)

theorem shapeElem_agrees {ρ : Type} {R : Reader ρ} {p : Prop} {e : ρ} {v : Val} (h : R.AgreesW p e v) :
    shapeElem R e = (match dimOf v with | some d => .ok d | none => .err .deser) := by
  cases h with
  | int h _ =>
    rw [shapeElem_uint h]
    simp only [dimOf]
    split <;> rfl
  | uint h _ =>
    rw [shapeElem_uint h]
    simp only [dimOf]
    rename_i n _
    by_cases hn : n.toNat < 2 ^ 32
    · rw [if_pos ⟨by omega, by omega⟩, if_pos hn]; simp
    · rw [if_neg (by omega), if_neg hn]
  | null h => exact shapeElem_other h
  | bool h _ => exact shapeElem_other h
  | dbl h _ => exact shapeElem_other h
  | str h _ _ => exact shapeElem_other h
  | blob h _ _ => exact shapeElem_other h
  | arr _ h => exact shapeElem_other h
  | map _ h => exact shapeElem_other h

theorem shapeLoop_agrees {ρ : Type} {R : Reader ρ} {p : Prop} {r : ρ} {child : Nat → ρ} :
    ∀ (vs : List Val) (i : Nat), (∀ j, j < vs.length → R.getIdx r (i + j) = .ok (child (i + j))) →
    (∀ j (h : j < vs.length), R.AgreesW p (child (i + j)) vs[j]) →
    shapeLoop R r vs.length i = (match dimsOf vs with | some ds => .ok ds | none => .err .deser)
  | [], _, _, _ => rfl
  | v :: vs, i, h1, h2 => by
    have a := h1 0 (by simp)
    have b := h2 0 (by simp)
    simp only [Nat.add_zero, List.getElem_cons_zero] at a b
    have ih := shapeLoop_agrees vs (i + 1)
      (fun j hj => by have := h1 (j + 1) (by simp; omega); rwa [show i + (j + 1) = i + 1 + j by omega] at this)
      (fun j hj => by
        have := h2 (j + 1) (by simp; omega)
        simpa [show i + (j + 1) = i + 1 + j by omega] using this)
    simp only [List.length_cons, shapeLoop, a, Res.ok_bind, shapeElem_agrees b, ih, dimsOf]
    cases dimOf v with
    | none => rfl
    | some d =>
      simp only [Res.ok_bind, Option.bind_some]
      cases dimsOf vs <;> rfl

theorem tensorShape_arr {ρ : Type} {R : Reader ρ} {p : Prop} {r : ρ} {vs : List Val}
    (h : R.AgreesW p r (.arr vs)) :
    tensorShape R r = (match dimsOf vs with | some ds => .ok ds | none => .err .deser) := by
  cases h with
  | arr child hs hn hg _ hc =>
    obtain ⟨_, _, _, _, _, _, _, h9⟩ := hs
    simp only [tensorShape, h9, Res.ok_bind, Res.require_true, hn]
    exact shapeLoop_agrees (child := child) vs 0 (fun j hj => by simpa using hg j hj)
      (fun j hj => by simpa using hc j hj)

theorem tensorShape_not_arr {ρ : Type} {R : Reader ρ} {r : ρ} (h : R.isArray r = .ok false) :
    tensorShape R r = .err .deser := by
  simp [tensorShape, h]

theorem dimsOf_map {ds : List Nat} (h : ∀ d ∈ ds, d < 2 ^ 32) :
    dimsOf (ds.map fun d => .uint (UInt64.ofNat d)) = some ds := by
  induction ds with
  | nil => rfl
  | cons d ds ih =>
    have hd := h d (by simp)
    have e : (UInt64.ofNat d).toNat = d := by simp only [UInt64.toNat_ofNat']; omega
    simp [dimsOf, dimOf, e, hd, ih (fun d h' => h d (by simp [h']))]

theorem dimsOf_length : ∀ {vs : List Val} {ds : List Nat}, dimsOf vs = some ds → ds.length = vs.length
  | [], ds, h => by simp only [dimsOf] at h; injection h with h; subst h; rfl
  | v :: vs, ds, h => by
    simp only [dimsOf] at h
    obtain ⟨d, _, h⟩ := Option.bind_eq_some_iff.1 h
    obtain ⟨ds', h', rfl⟩ := Option.map_eq_some_iff.1 h
    simp [dimsOf_length h']

/-! ## Views -/

theorem ownedCopy_exact {n size : Nat} {bytes : Bytes} (h : bytes.length = n * size) (hn : n * size < 2 ^ 64) :
    ownedCopy n size bytes = .ok bytes := by
  simp [ownedCopy, hn, h]

/-- Why a view owns its memory or not. -/
def reasonOf (span : Bool) (addr align : Nat) : Reason :=
  if span = false then .notSpanBacked else if addr % align ≠ 0 then .misaligned else .ok

/-- The view of a blob of exactly the right size. -/
def viewOf (span : Bool) (addr : Nat) (dt : DType) (shape : List Nat) (bytes : Bytes) : View :=
  ⟨shape, prod shape, bytes, decide (reasonOf span addr dt.align = .ok), reasonOf span addr dt.align, dt.align,
    addr, bytes.length⟩

theorem makeView_exact {span : Bool} {addr : Nat} {dt : DType} {shape : List Nat} {bytes : Bytes}
    (h : bytes.length = prod shape * dt.size) (hn : bytes.length < 2 ^ 64) :
    makeView span addr dt shape (prod shape) bytes = .ok (viewOf span addr dt shape bytes) := by
  have ho : ownedCopy (prod shape) dt.size bytes = .ok bytes := ownedCopy_exact h (by omega)
  unfold makeView viewOf reasonOf
  split
  · simp [ho]
  · split
    · simp [ho]
    · simp

/-! ## Positions that present a tensor -/

/-- The value that a tensor is written as. -/
def tval (code : Int) (dims : List Nat) (bytes : Bytes) : Val :=
  .arr [.int (Int64.ofInt code), .arr (dims.map fun d => .uint (UInt64.ofNat d)), .blob bytes]

/-- The position presents a tensor: it presents the value, and the element type is presented as a signed
integer. -/
structure Presents {ρ : Type} (R : Reader ρ) (r : ρ) (code : Int) (dims : List Nat) (bytes : Bytes) : Prop where
  agrees : R.Agrees r (tval code dims bytes)
  head : ∀ e, R.getIdx r 0 = .ok e → R.isInt e = .ok true

/-- `asInt8` and `asInt32` return what `asInt64` returns, if it fits. -/
def Narrow {ρ : Type} (R : TReader ρ) : Prop :=
  ∀ w r x, w = 8 ∨ w = 32 → R.asInt64 r = .ok x → -(2 ^ (w - 1) : Int) ≤ x.toInt → x.toInt < (2 ^ (w - 1) : Int) →
    R.asIntN w r = .ok x.toInt

theorem code_range (dt : DType) : -1 ≤ dt.code ∧ dt.code ≤ 14 := by
  cases dt <;> simp [DType.code]

theorem ofInt_code {c : Int} (h : -1 ≤ c ∧ c ≤ 14) : (Int64.ofInt c).toInt = c := by
  rw [Int64.toInt_ofInt]
  exact Int.bmod_eq_of_le (by simp [Int64.size]; omega) (by simp [Int64.size]; omega)

variable {ρ : Type}

/-- What the three parts of a tensor present. -/
theorem Presents.parts {R : TReader ρ} (N : Narrow R) {r : ρ} {c : Int} (hc : -1 ≤ c ∧ c ≤ 14) {dims : List Nat}
    {bytes : Bytes} (h : Presents R.toReader r c dims bytes) :
    ∃ e0 e1 e2, R.isArray r = .ok true ∧ R.arraySize r = .ok 3 ∧ R.getIdx r 0 = .ok e0 ∧ R.getIdx r 1 = .ok e1 ∧
      R.getIdx r 2 = .ok e2 ∧ R.isInt e0 = .ok true ∧ R.asIntN 8 e0 = .ok c ∧ R.asIntN 32 e0 = .ok c ∧
      R.isArray e1 = .ok true ∧
      tensorShape R.toReader e1 = (match dimsOf (dims.map fun d => .uint (UInt64.ofNat d)) with
        | some ds => .ok ds | none => .err .deser) ∧
      R.isBlob e2 = .ok true ∧ R.asBlob e2 = .ok bytes := by
  obtain ⟨ha, hh⟩ := h
  cases ha with
  | arr child hs hn hg _ hcs =>
    have g0 := hg 0 (by simp)
    have g1 := hg 1 (by simp)
    have g2 := hg 2 (by simp)
    have a0 := hcs 0 (by simp)
    have a1 := hcs 1 (by simp)
    have a2 := hcs 2 (by simp)
    simp only [List.getElem_cons_zero, List.getElem_cons_succ] at a0 a1 a2
    have hi := hh _ g0
    refine ⟨child 0, child 1, child 2, hs.2.2.2.2.2.2.2, hn, g0, g1, g2, hi, ?_, ?_, ?_, tensorShape_arr a1, ?_, ?_⟩
    · cases a0 with
      | int h0 _ =>
        obtain ⟨x, hx, e⟩ := h0.2.1 hi
        rw [ofInt_code hc] at e
        rw [N 8 _ x (.inl rfl) hx (by rw [e]; omega) (by rw [e]; omega), e]
    · cases a0 with
      | int h0 _ =>
        obtain ⟨x, hx, e⟩ := h0.2.1 hi
        rw [ofInt_code hc] at e
        rw [N 32 _ x (.inr rfl) hx (by rw [e]; omega) (by rw [e]; omega), e]
    · cases a1 with
      | arr _ h1 => exact h1.2.2.2.2.2.2.2
    · cases a2 with
      | blob h1 => exact h1.2.2.2.2.2.1
    · cases a2 with
      | blob _ h1 => exact h1

theorem isTensor_presents {R : TReader ρ} (N : Narrow R) {r : ρ} {c : Int} (hc : -1 ≤ c ∧ c ≤ 14) {dims : List Nat}
    {bytes : Bytes} (h : Presents R.toReader r c dims bytes) (dt : DType) :
    isTensor R dt r = .ok (decide (c = dt.code)) := by
  obtain ⟨e0, e1, e2, h1, h2, h3, h4, h5, h6, h7, _, h9, _, h11, _⟩ := h.parts N hc
  unfold isTensor
  simp only [h1, h2, h3, h4, h5, h6, h7, h9, h11, Res.ok_bind, Res.pure_eq, Bool.not_true, Bool.false_eq_true,
    if_false, Nat.lt_irrefl]
  by_cases e : c = dt.code
  · simp [e]
  · simp [e]

end Zer.Tensor
