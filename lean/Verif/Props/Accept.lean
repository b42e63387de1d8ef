import Verif.Props.Nested

/-!
# C102: what is accepted as a tensor

README.md:166-168: "Tensors (both xtensor and eigen) are stored as arrays of size 3 … [type code, [dimension 1 size, dimension 2 size, etc],
blob]". Here: for any document at all, which outcome reading it as a tensor has.
-/

namespace Zer.Tensor

variable {ρ : Type}

/-- How the narrow accessors see a number: `M z c` if both `asInt8` and `asInt32` give `c` for `z`. -/
structure Codes (R : TReader ρ) (M : Int → Int → Prop) : Prop where
  clean : ∀ {w e x}, R.asInt64 e = .ok x → (R.asIntN w e).Clean
  both : ∀ {e x c}, -1 ≤ c → c ≤ 14 → R.asInt64 e = .ok x → ((R.asIntN 8 e = .ok c ∧ R.asIntN 32 e = .ok c) ↔ M x.toInt c)

/-- What is both a blob and an array is no tensor and no shape: JSON has such positions, json.hpp:139-146. -/
def BlobsApart (R : TReader ρ) : Prop := ∀ e, R.isBlob e = .ok true → R.isArray e = .ok true →
  tensorShape R.toReader e = .err .deser ∧ ∀ dt, isTensor R dt e = .ok false

/-- The number that is stored in a value. -/
def numOf : Val → Option Int
  | .int i => some i.toInt
  | .uint n => some (n.toNat : Int)
  | _ => none

/-- The value is an array of a number that `M` takes for `c`, of dimensions, of a blob, and of anything else. -/
def Shaped (M : Int → Int → Prop) (signed : Val → Bool) (c : Int) (v : Val) (dims : List Nat) (bytes : Bytes) : Prop :=
  ∃ x z ss rest, v = .arr (x :: .arr ss :: .blob bytes :: rest) ∧ numOf x = some z ∧ M z c ∧ signed x = true ∧
    dims.length = ss.length ∧ ∀ i (h1 : i < ss.length) (h2 : i < dims.length), IsDim ss[i] dims[i]

theorem notInt {R : Reader ρ} {e : ρ} {a b c d f g h} (h : R.Shows e a b false c d f g h) : R.isInt e = .ok false := by
  obtain ⟨i, u, h1, h2, h3⟩ := h.2.2.1
  simp only [Bool.or_eq_false_iff] at h3
  rw [h1, h3.1]

/-- The nine kinds at a position that presents a value, as far as tensors need them. -/
theorem kindsOf {R : Reader ρ} {e : ρ} {x : Val} (h : R.Agrees e x) :
    (∃ b, R.isInt e = .ok b ∧ (b = true → ∃ z y, numOf x = some z ∧ R.asInt64 e = .ok y ∧ y.toInt = z)) ∧
    (∃ b, R.isBlob e = .ok b ∧ (b = true → ∃ s, x = .blob s ∧ R.asBlob e = .ok s)) ∧
    (∃ b, R.isArray e = .ok b ∧ (b = true → (∃ xs, x = .arr xs) ∨ R.isBlob e = .ok true)) := by
  cases h with
  | null h => exact ⟨⟨_, notInt h, fun k => (by cases k)⟩, ⟨_, h.2.2.2.2.2.1, fun k => (by cases k)⟩, ⟨_, h.2.2.2.2.2.2.2, fun k => (by cases k)⟩⟩
  | bool h => exact ⟨⟨_, notInt h, fun k => (by cases k)⟩, ⟨_, h.2.2.2.2.2.1, fun k => (by cases k)⟩, ⟨_, h.2.2.2.2.2.2.2, fun k => (by cases k)⟩⟩
  | dbl h => exact ⟨⟨_, notInt h, fun k => (by cases k)⟩, ⟨_, h.2.2.2.2.2.1, fun k => (by cases k)⟩, ⟨_, h.2.2.2.2.2.2.2, fun k => (by cases k)⟩⟩
  | str h => exact ⟨⟨_, notInt h, fun k => (by cases k)⟩, ⟨_, h.2.2.2.2.2.1, fun k => (by cases k)⟩, ⟨_, h.2.2.2.2.2.2.2, fun k => (by cases k)⟩⟩
  | map _ h => exact ⟨⟨_, notInt h, fun k => (by cases k)⟩, ⟨_, h.2.2.2.2.2.1, fun k => (by cases k)⟩, ⟨_, h.2.2.2.2.2.2.2, fun k => (by cases k)⟩⟩
  | arr _ h => exact ⟨⟨_, notInt h, fun k => (by cases k)⟩, ⟨_, h.2.2.2.2.2.1, fun k => (by cases k)⟩, ⟨_, h.2.2.2.2.2.2.2, fun _ => .inl ⟨_, rfl⟩⟩⟩
  | blob h h' => exact ⟨⟨_, notInt h, fun k => (by cases k)⟩, ⟨_, h.2.2.2.2.2.1, fun _ => ⟨_, rfl, h'⟩⟩, ⟨_, h.2.2.2.2.2.2.2, fun _ => .inr h.2.2.2.2.2.1⟩⟩
  | int h =>
    obtain ⟨i, u, h1, _⟩ := h.1.2.2.1
    refine ⟨⟨i, h1, fun k => ?_⟩, ⟨_, h.1.2.2.2.2.2.1, fun k => (by cases k)⟩, ⟨_, h.1.2.2.2.2.2.2.2, fun k => (by cases k)⟩⟩
    subst k
    obtain ⟨y, h2, h3⟩ := h.2.1 h1
    exact ⟨_, y, rfl, h2, h3⟩
  | uint h =>
    obtain ⟨i, u, h1, _⟩ := h.1.2.2.1
    refine ⟨⟨i, h1, fun k => ?_⟩, ⟨_, h.1.2.2.2.2.2.1, fun k => (by cases k)⟩, ⟨_, h.1.2.2.2.2.2.2.2, fun k => (by cases k)⟩⟩
    subst k
    obtain ⟨y, h2, h3⟩ := h.2.1 h1
    exact ⟨_, y, rfl, h2, h3⟩

/-- The part that both tensor libraries share: either the document is of the form, and its parts are found, or `DeserializationError`. -/
theorem parts_or_deser {R : TReader ρ} {M : Int → Int → Prop} (C : Codes R M) (B : BlobsApart R) {signed : Val → Bool} {r : ρ} {v : Val}
    (h : R.Agrees r v) (hs : ∀ e x xs, v = .arr (x :: xs) → R.getIdx r 0 = .ok e → (∃ z, numOf x = some z) → R.isInt e = .ok (signed x)) (dt : DType) :
    (∃ e0 e1 e2 dims bytes, Shaped M signed dt.code v dims bytes ∧ isTensor R dt r = .ok true ∧ R.getIdx r 0 = .ok e0 ∧
      R.asIntN 32 e0 = .ok dt.code ∧ R.getIdx r 1 = .ok e1 ∧
      tensorShape R.toReader e1 = .ok dims ∧ R.getIdx r 2 = .ok e2 ∧ R.asBlob e2 = .ok bytes) ∨
    ((¬ ∃ dims bytes, Shaped M signed dt.code v dims bytes) ∧ (∀ D, asXTensorView R dt D r = .err .deser) ∧
      ∀ nr nc, asEigenMatrixView R dt nr nc r = .err .deser) := by
  have fail : ∀ {x}, isTensor R dt r = x → x = .ok false ∨ x = .err .deser → (∀ D, asXTensorView R dt D r = .err .deser) ∧
      ∀ nr nc, asEigenMatrixView R dt nr nc r = .err .deser := by
    intro x h1 h2
    rcases h2 with rfl | rfl
    · exact ⟨fun D => (by unfold asXTensorView; rw [h1]; rfl), fun nr nc => (by unfold asEigenMatrixView; rw [h1]; rfl)⟩
    · exact ⟨fun D => (by unfold asXTensorView; rw [h1]; rfl), fun nr nc => (by unfold asEigenMatrixView; rw [h1]; rfl)⟩
  have short : (∀ x y z rest, v ≠ .arr (x :: y :: z :: rest)) → isTensor R dt r = .ok false → (¬ ∃ dims bytes, Shaped M signed dt.code v dims bytes) ∧
      (∀ D, asXTensorView R dt D r = .err .deser) ∧ ∀ nr nc, asEigenMatrixView R dt nr nc r = .err .deser := by
    intro h1 h2
    refine ⟨?_, fail h2 (.inl rfl)⟩
    rintro ⟨_, _, x, z, ss, rest, e, -⟩
    exact h1 _ _ _ _ e
  have flat : (∀ xs, v ≠ .arr xs) → R.isArray r = .ok false → (¬ ∃ dims bytes, Shaped M signed dt.code v dims bytes) ∧
      (∀ D, asXTensorView R dt D r = .err .deser) ∧ ∀ nr nc, asEigenMatrixView R dt nr nc r = .err .deser := by
    intro h1 h2
    exact short (fun _ _ _ _ => h1 _) (by simp [isTensor, h2])
  cases h with
  | null h => exact .inr (flat (by simp) h.2.2.2.2.2.2.2)
  | bool h => exact .inr (flat (by simp) h.2.2.2.2.2.2.2)
  | int h => exact .inr (flat (by simp) h.1.2.2.2.2.2.2.2)
  | uint h => exact .inr (flat (by simp) h.1.2.2.2.2.2.2.2)
  | dbl h => exact .inr (flat (by simp) h.2.2.2.2.2.2.2)
  | str h => exact .inr (flat (by simp) h.2.2.2.2.2.2.2)
  | map _ h => exact .inr (flat (by simp) h.2.2.2.2.2.2.2)
  | @blob _ _ ar h =>
    cases ar with
    | false => exact .inr (flat (by simp) h.2.2.2.2.2.2.2)
    | true => exact .inr (short (by simp) ((B r h.2.2.2.2.2.1 h.2.2.2.2.2.2.2).2 dt))
  | @arr _ xs child hsh hn hg hge hc =>
    have ha : R.isArray r = .ok true := hsh.2.2.2.2.2.2.2
    match xs, hn, hg, hc, hs with
    | [], hn, _, _, _ => exact .inr (short (by simp) (by simp [isTensor, ha, hn]))
    | [x], hn, _, _, _ => exact .inr (short (by simp) (by simp [isTensor, ha, hn]))
    | [x, y], hn, _, _, _ => exact .inr (short (by simp) (by simp [isTensor, ha, hn]))
    | x :: y :: w :: rest, hn, hg, hc, hs =>
      have g0 := hg 0 (by simp)
      have g1 := hg 1 (by simp)
      have g2 := hg 2 (by simp)
      have a0 := hc 0 (by simp)
      have a1 := hc 1 (by simp)
      have a2 := hc 2 (by simp)
      simp only [List.getElem_cons_zero, List.getElem_cons_succ] at a0 a1 a2
      obtain ⟨⟨b0, i0, n0⟩, -⟩ := kindsOf a0
      obtain ⟨-, -, ⟨b1, i1, n1⟩⟩ := kindsOf a1
      obtain ⟨-, ⟨b2, i2, n2⟩, -⟩ := kindsOf a2
      have ht : isTensor R dt r = (if b0 = true then (R.asIntN 8 (child 0) >>= fun c => if c ≠ dt.code then pure false else if b1 = true then pure b2 else pure false)
          else pure false) := by
        have hl : ¬ (x :: y :: w :: rest).length < 3 := by simp
        simp only [isTensor, ha, hn, hl, g0, g1, g2, i0, i1, i2, Res.ok_bind, Bool.not_true, Bool.false_eq_true, if_false]
        cases b0 <;> cases b1 <;> simp
      -- the form
      have form : ∀ dims bytes, Shaped M signed dt.code (.arr (x :: y :: w :: rest)) dims bytes ↔
          (∃ z ss, numOf x = some z ∧ M z dt.code ∧ signed x = true ∧ y = .arr ss ∧ w = .blob bytes ∧ dimsOf ss = some dims) := by
        intro dims bytes
        constructor
        · rintro ⟨x', z, ss, rest', e, k1, k2, k3, k4, k5⟩
          simp only [Val.arr.injEq, List.cons.injEq] at e
          obtain ⟨rfl, rfl, rfl, rfl⟩ := e
          exact ⟨z, ss, k1, k2, k3, rfl, rfl, dimsOf_some.2 ⟨k4, k5⟩⟩
        · rintro ⟨z, ss, k1, k2, k3, rfl, rfl, k4⟩
          obtain ⟨k5, k6⟩ := dimsOf_some.1 k4
          exact ⟨x, z, ss, rest, rfl, k1, k2, k3, k5, k6⟩
      cases b0 with
      | false =>
        refine .inr ⟨?_, fail ht (.inl rfl)⟩
        rintro ⟨dims, bytes, hS⟩
        obtain ⟨z, ss, k1, -, k3, -⟩ := (form dims bytes).1 hS
        rw [hs _ x _ rfl g0 ⟨z, k1⟩, k3] at i0
        cases i0
      | true =>
        obtain ⟨z, q, hz, hq, rfl⟩ := n0 rfl
        have hsx : signed x = true := by
          rw [hs _ x _ rfl g0 ⟨_, hz⟩] at i0
          exact Res.ok.inj i0
        simp only [if_true] at ht
        have hb := C.both (code_range dt).1 (code_range dt).2 hq
        by_cases hM : M q.toInt dt.code
        · obtain ⟨m8, m32⟩ := hb.2 hM
          simp only [m8, Res.ok_bind, ne_eq, not_true, if_false] at ht
          cases b1 with
          | false =>
            refine .inr ⟨?_, fail ht (.inl rfl)⟩
            rintro ⟨dims, bytes, hS⟩
            obtain ⟨_, ss, -, -, -, rfl, -⟩ := (form dims bytes).1 hS
            cases a1 with
            | arr _ h1 => rw [h1.2.2.2.2.2.2.2] at i1; cases i1
          | true =>
            simp only [if_true] at ht
            cases b2 with
            | false =>
              refine .inr ⟨?_, fail ht (.inl rfl)⟩
              rintro ⟨dims, bytes, hS⟩
              obtain ⟨_, ss, -, -, -, -, rfl, -⟩ := (form dims bytes).1 hS
              cases a2 with
              | blob h1 => rw [h1.2.2.2.2.2.1] at i2; cases i2
            | true =>
              obtain ⟨bytes, rfl, hbl⟩ := n2 rfl
              have ht : isTensor R dt r = .ok true := ht
              have bad : tensorShape R.toReader (child 1) = .err .deser → (∀ D, asXTensorView R dt D r = .err .deser) ∧
                  ∀ nr nc, asEigenMatrixView R dt nr nc r = .err .deser := by
                intro e
                constructor
                · intro D
                  unfold asXTensorView
                  simp only [ht, Res.ok_bind, Res.require_true, g0, g1, m32, ne_eq, not_true, if_false, e]
                  rfl
                · intro nr nc
                  unfold asEigenMatrixView
                  simp only [ht, Res.ok_bind, Res.require_true, g0, g1, m32, ne_eq, not_true, if_false, e]
                  rfl
              rcases n1 rfl with ⟨ss, rfl⟩ | hbb
              · have hts := tensorShape_arr a1
                cases hd : dimsOf ss with
                | some dims =>
                  rw [hd] at hts
                  exact .inl ⟨_, _, _, dims, bytes, (form dims bytes).2 ⟨_, ss, hz, hM, hsx, rfl, rfl, hd⟩, ht, g0, m32, g1, hts, g2, hbl⟩
                | none =>
                  rw [hd] at hts
                  refine .inr ⟨?_, bad hts⟩
                  rintro ⟨dims, bytes', hS⟩
                  obtain ⟨_, ss', -, -, -, e, -, hd'⟩ := (form dims bytes').1 hS
                  simp only [Val.arr.injEq] at e
                  subst e
                  rw [hd] at hd'; cases hd'
              · refine .inr ⟨?_, bad (B _ hbb i1).1⟩
                rintro ⟨dims, bytes', hS⟩
                obtain ⟨_, ss, -, -, -, rfl, -⟩ := (form dims bytes').1 hS
                cases a1 with
                | arr _ h1 => rw [h1.2.2.2.2.2.1] at hbb; cases hbb
        · have hno : ¬ ∃ dims bytes, Shaped M signed dt.code (.arr (x :: y :: w :: rest)) dims bytes := by
            rintro ⟨dims, bytes, hS⟩
            obtain ⟨z, ss, k1, k2, -⟩ := (form dims bytes).1 hS
            rw [hz] at k1; cases k1
            exact hM k2
          refine .inr ⟨hno, ?_⟩
          rcases C.clean (w := 8) hq with ⟨c, hc8⟩ | hc8
          · rw [hc8] at ht
            simp only [Res.ok_bind] at ht
            by_cases hcc : c ≠ dt.code
            · rw [if_pos hcc] at ht
              exact fail ht (.inl rfl)
            · rw [if_neg hcc] at ht
              have : c = dt.code := Classical.not_not.1 hcc
              subst this
              have ht' : ∃ b, isTensor R dt r = .ok b := by rw [ht]; cases b1 <;> exact ⟨_, rfl⟩
              obtain ⟨b, ht'⟩ := ht'
              cases b with
              | false => exact fail ht' (.inl rfl)
              | true =>
                have h32 : R.asIntN 32 (child 0) = .err .deser ∨ ∃ c, R.asIntN 32 (child 0) = .ok c ∧ c ≠ dt.code := by
                  rcases C.clean (w := 32) hq with ⟨c, h32⟩ | h32
                  · exact .inr ⟨c, h32, fun e => hM (hb.1 ⟨hc8, by rw [h32, e]⟩)⟩
                  · exact .inl h32
                rcases h32 with e | ⟨c, e, hne⟩
                · constructor
                  · intro D
                    unfold asXTensorView
                    simp only [ht', Res.ok_bind, Res.require_true, g0, e]
                    rfl
                  · intro nr nc
                    unfold asEigenMatrixView
                    simp only [ht', Res.ok_bind, Res.require_true, g0, e]
                    rfl
                · constructor
                  · intro D
                    unfold asXTensorView
                    simp only [ht', Res.ok_bind, Res.require_true, g0, e, if_pos hne]
                  · intro nr nc
                    unfold asEigenMatrixView
                    simp only [ht', Res.ok_bind, Res.require_true, g0, e, if_pos hne]
          · exact fail (by rw [ht, hc8]; rfl) (.inr rfl)

theorem Shaped.unique {M : Int → Int → Prop} {signed : Val → Bool} {c : Int} {v : Val} {dims dims' : List Nat} {bytes bytes' : Bytes}
    (h : Shaped M signed c v dims bytes) (h' : Shaped M signed c v dims' bytes') : dims = dims' ∧ bytes = bytes' := by
  obtain ⟨x, z, ss, rest, e, -, -, -, k1, k2⟩ := h
  obtain ⟨x', z', ss', rest', e', -, -, -, k1', k2'⟩ := h'
  rw [e] at e'
  simp only [Val.arr.injEq, List.cons.injEq, Val.blob.injEq] at e'
  obtain ⟨-, rfl, rfl, -⟩ := e'
  have h1 := dimsOf_some.2 ⟨k1, k2⟩
  rw [dimsOf_some.2 ⟨k1', k2'⟩] at h1
  exact ⟨(Option.some.inj h1).symm, rfl⟩

/-- The dimensions are of the wanted rank, can be multiplied, and fit the bytes as far as `size_t` can tell, xtensor.hpp:132-149. -/
def FitsX (dt : DType) (D : Option Nat) (dims : List Nat) (bytes : Bytes) : Prop :=
  (D = none ∨ D = some dims.length) ∧ (∀ p q, dims = p ++ q → 0 ∉ p → p.foldr (· * ·) 1 < 2 ^ 64) ∧
    bytes.length = dims.foldr (· * ·) 1 * dt.size % 2 ^ 64

/-- The dimensions are those of a matrix of the wanted form and fit the bytes as far as `size_t` can tell, eigen.hpp:122-156. -/
def FitsE (dt : DType) (nr nc : Option Nat) (dims : List Nat) (bytes : Bytes) : Prop :=
  ∃ rows cols, dims = [rows, cols] ∧ (nr = none ∨ nr = some rows) ∧ (nc = none ∨ nc = some cols) ∧
    bytes.length = rows * cols * dt.size % 2 ^ 64

/-- What `makeView` does with bytes of the right size modulo 2^64. -/
theorem makeView_outcome {span : Bool} {addr : Nat} {dt : DType} {dims : List Nat} {count : Nat} {bytes : Bytes}
    (hl : bytes.length = count * dt.size % 2 ^ 64) :
    (count * dt.size < 2 ^ 64 ∨ span = true ∧ addr % dt.align = 0 →
      ∃ t, makeView span addr dt dims count bytes = .ok t ∧ t.shape = dims ∧ t.count = count ∧ t.bytes = bytes) ∧
    (¬ (count * dt.size < 2 ^ 64 ∨ span = true ∧ addr % dt.align = 0) → makeView span addr dt dims count bytes = .err .badAlloc) := by
  have big : ¬ count * dt.size < 2 ^ 64 → ownedCopy count dt.size bytes = .err .badAlloc := fun h => by rw [ownedCopy, if_neg h]
  have small : count * dt.size < 2 ^ 64 → ownedCopy count dt.size bytes = .ok bytes := fun h =>
    ownedCopy_exact (by rw [hl, Nat.mod_eq_of_lt h]) h
  unfold makeView
  constructor
  · intro h
    by_cases hc : count * dt.size < 2 ^ 64
    · cases span with
      | false => simp only [if_true, small hc, Res.ok_bind]; exact ⟨_, rfl, rfl, rfl, rfl⟩
      | true =>
        by_cases ha : addr % dt.align ≠ 0
        · simp only [Bool.true_eq_false, if_false, if_pos ha, small hc, Res.ok_bind]; exact ⟨_, rfl, rfl, rfl, rfl⟩
        · simp only [Bool.true_eq_false, if_false, if_neg ha]; exact ⟨_, rfl, rfl, rfl, rfl⟩
    · obtain ⟨h1, h2⟩ := h.resolve_left hc
      subst h1
      simp only [Bool.true_eq_false, if_false, h2, ne_eq, not_true]
      exact ⟨_, rfl, rfl, rfl, rfl⟩
  · intro h
    have hc : ¬ count * dt.size < 2 ^ 64 := fun k => h (.inl k)
    cases span with
    | false => simp only [if_true, big hc]; rfl
    | true =>
      have ha : addr % dt.align ≠ 0 := fun k => h (.inr ⟨rfl, k⟩)
      simp only [Bool.true_eq_false, if_false, if_pos ha, big hc]; rfl

/-- C102 for xtensor, at any position that presents a document: if it is an array of the code, of dimensions and of a blob of the right
size, and of anything else, the tensor is read; if it is of this form, but the size is right only modulo 2^64 and the data would have to
be copied, `std::bad_alloc`; in all other cases `DeserializationError`. -/
theorem c102_xtensor {R : TReader ρ} {M : Int → Int → Prop} (C : Codes R M) (B : BlobsApart R) {signed : Val → Bool} {r : ρ} {v : Val}
    (h : R.Agrees r v) (hs : ∀ e x xs, v = .arr (x :: xs) → R.getIdx r 0 = .ok e → (∃ z, numOf x = some z) → R.isInt e = .ok (signed x))
    (dt : DType) (D : Option Nat) :
    (∀ dims bytes, Shaped M signed dt.code v dims bytes → FitsX dt D dims bytes → ∃ e2, R.getIdx r 2 = .ok e2 ∧
      (dims.foldr (· * ·) 1 * dt.size < 2 ^ 64 ∨ R.span = true ∧ R.addr e2 % dt.align = 0 →
        ∃ t, asXTensorView R dt D r = .ok t ∧ t.shape = dims ∧ t.count = dims.foldr (· * ·) 1 ∧ t.bytes = bytes) ∧
      (¬ (dims.foldr (· * ·) 1 * dt.size < 2 ^ 64 ∨ R.span = true ∧ R.addr e2 % dt.align = 0) →
        asXTensorView R dt D r = .err .badAlloc)) ∧
    ((¬ ∃ dims bytes, Shaped M signed dt.code v dims bytes ∧ FitsX dt D dims bytes) → asXTensorView R dt D r = .err .deser) := by
  rcases parts_or_deser C B h hs dt with ⟨e0, e1, e2, dims, bytes, hS, ht, g0, m32, g1, hts, g2, hbl⟩ | ⟨hno, hx, -⟩
  · have e : asXTensorView R dt D r = (if ¬ (D = none ∨ D = some dims.length) then .err .deser else do
        let count ← checkedCount 1 dims
        if bytes.length ≠ u64 (count * dt.size) then .err .deser
        else makeView R.span (R.addr e2) dt dims count bytes) := by
      unfold asXTensorView
      simp only [ht, Res.ok_bind, Res.require_true, g0, g1, g2, m32, hts, hbl, ne_eq, not_true, if_false]
      cases D with
      | none => simp
      | some n =>
        by_cases e : n = dims.length
        · simp [e]
        · simp [e, Ne.symm e]
    constructor
    · intro dims' bytes' hS' ⟨f1, f2, f3⟩
      obtain ⟨rfl, rfl⟩ := hS.unique hS'
      refine ⟨e2, g2, ?_⟩
      obtain ⟨n, hct⟩ := (checkedCount_iff (ds := dims) (c := 1) (by omega)).2 (fun p q e hp => by rw [Nat.one_mul]; exact f2 p q e hp)
      have hnp : n = prod dims := by simpa using checkedCount_ok hct
      subst hnp
      have f3 : bytes.length = prod dims * dt.size % 2 ^ 64 := f3
      rw [if_neg (fun k => k f1), hct] at e
      simp only [Res.ok_bind] at e
      rw [if_neg (fun hne => hne f3)] at e
      rw [e]
      exact makeView_outcome f3
    · intro hn
      by_cases h1 : D = none ∨ D = some dims.length
      · rw [if_neg (fun k => k h1)] at e
        rcases checkedCount_err (ds := dims) (c := 1) with ⟨n, hct⟩ | hct
        · have hnp : n = prod dims := by simpa using checkedCount_ok hct
          subst hnp
          rw [hct] at e
          simp only [Res.ok_bind] at e
          by_cases h3 : bytes.length = u64 (prod dims * dt.size)
          · exact absurd ⟨dims, bytes, hS, h1, countable_of_ok hct, h3⟩ hn
          · rw [if_pos h3] at e
            exact e
        · rw [hct] at e
          exact e
      · rw [if_pos h1] at e
        exact e
  · exact ⟨fun dims bytes hS _ => absurd ⟨dims, bytes, hS⟩ hno, fun _ => hx D⟩

/-- What is left of `asEigenMatrixView` once its parts are found, eigen.hpp:124-207. -/
def matrixRest (span : Bool) (addr : Nat) (dt : DType) (nr nc : Option Nat) (bytes : Bytes) : List Nat → Res View
  | [rows, cols] =>
    if ¬ (nr = none ∨ nr = some rows) then .err .deser
    else if ¬ (nc = none ∨ nc = some cols) then .err .deser
    else if bytes.length ≠ u64 (u64 (rows * cols) * dt.size) then .err .deser
    else makeView span addr dt [rows, cols] (rows * cols) bytes
  | _ => .err .deser

/-- C102 for Eigen. -/
theorem c102_matrix {R : TReader ρ} {M : Int → Int → Prop} (C : Codes R M) (B : BlobsApart R) {signed : Val → Bool} {r : ρ} {v : Val}
    (h : R.Agrees r v) (hs : ∀ e x xs, v = .arr (x :: xs) → R.getIdx r 0 = .ok e → (∃ z, numOf x = some z) → R.isInt e = .ok (signed x))
    (dt : DType) (nr nc : Option Nat) :
    (∀ dims bytes, Shaped M signed dt.code v dims bytes → FitsE dt nr nc dims bytes → ∃ e2, R.getIdx r 2 = .ok e2 ∧
      (dims.foldr (· * ·) 1 * dt.size < 2 ^ 64 ∨ R.span = true ∧ R.addr e2 % dt.align = 0 →
        ∃ t, asEigenMatrixView R dt nr nc r = .ok t ∧ t.shape = dims ∧ t.count = dims.foldr (· * ·) 1 ∧ t.bytes = bytes) ∧
      (¬ (dims.foldr (· * ·) 1 * dt.size < 2 ^ 64 ∨ R.span = true ∧ R.addr e2 % dt.align = 0) →
        asEigenMatrixView R dt nr nc r = .err .badAlloc)) ∧
    ((¬ ∃ dims bytes, Shaped M signed dt.code v dims bytes ∧ FitsE dt nr nc dims bytes) → asEigenMatrixView R dt nr nc r = .err .deser) := by
  rcases parts_or_deser C B h hs dt with ⟨e0, e1, e2, dims, bytes, hS, ht, g0, m32, g1, hts, g2, hbl⟩ | ⟨hno, -, hx⟩
  · have e : asEigenMatrixView R dt nr nc r = matrixRest R.span (R.addr e2) dt nr nc bytes dims := by
      unfold asEigenMatrixView
      simp only [ht, Res.ok_bind, Res.require_true, g0, g1, g2, m32, hts, hbl, ne_eq, not_true, if_false]
      clear hts hS
      match dims with
      | [] => rfl
      | [_] => rfl
      | _ :: _ :: _ :: _ => rfl
      | [rows, cols] =>
        have o0 : ∀ n : Nat, ((false : Bool) = true) = ¬ ((none : Option Nat) = none ∨ none = some n) := by
          intro n; simp
        have o1 : ∀ d n : Nat, (decide (¬ n = d) = true) = ¬ (some d = none ∨ some d = some n) := by
          intro d n
          rw [decide_eq_true_eq]
          exact propext ⟨fun h k => k.elim (fun k => by cases k) (fun k => h (Option.some.inj k).symm), fun h k => h (.inr (by rw [k]))⟩
        simp only [matrixRest, ne_eq]
        cases nr with
        | none => cases nc with
          | none => simp only [Bool.false_eq_true, true_or, not_true, if_false]
          | some m => dsimp only; simp only [o0 rows, o1 m cols]
        | some n => cases nc with
          | none => dsimp only; simp only [o1 n rows, o0 cols]
          | some m => dsimp only; simp only [o1 n rows, o1 m cols]
    have hu : ∀ a b : Nat, u64 (u64 a * b) = a * b % 2 ^ 64 := fun a b => by simp only [u64]; exact Nat.mod_mul_mod a b _
    constructor
    · intro dims' bytes' hS' ⟨rows, cols, hd, f1, f2, f3⟩
      obtain ⟨rfl, rfl⟩ := hS.unique hS'
      subst hd
      refine ⟨e2, g2, ?_⟩
      have hp : [rows, cols].foldr (· * ·) 1 = rows * cols := by simp
      simp only [matrixRest] at e
      rw [if_neg (fun k => k f1), if_neg (fun k => k f2), if_neg (fun hne => hne (by rw [hu]; exact f3))] at e
      rw [e, hp]
      exact makeView_outcome f3
    · intro hn
      match dims, hS, e with
      | [], _, e => exact e
      | [_], _, e => exact e
      | _ :: _ :: _ :: _, _, e => exact e
      | [rows, cols], hS, e =>
        by_cases h1 : nr = none ∨ nr = some rows
        · by_cases h2 : nc = none ∨ nc = some cols
          · simp only [matrixRest] at e
            rw [if_neg (fun k => k h1), if_neg (fun k => k h2)] at e
            by_cases h3 : bytes.length = u64 (u64 (rows * cols) * dt.size)
            · exact absurd ⟨_, bytes, hS, rows, cols, rfl, h1, h2, by rw [h3, hu]⟩ hn
            · rw [if_pos h3] at e
              exact e
          · simp only [matrixRest] at e
            rw [if_neg (fun k => k h1), if_pos h2] at e
            exact e
        · simp only [matrixRest] at e
          rw [if_pos h1] at e
          exact e
  · exact ⟨fun dims bytes hS _ => absurd ⟨dims, bytes, hS⟩ hno, fun _ => hx nr nc⟩

/-! ## Documents that were written or translated -/

/-- At a position of a document that arrived, `isInt` of the first element is decided by the last rule for signs. -/
theorem ArrivesDoc.first {T : Terminal} {r : T.P.ρ} {a : Signs} {v : Val} (h : ArrivesDoc T r a v) :
    ∀ e x xs, v = .arr (x :: xs) → T.P.reader.getIdx r 0 = .ok e → (∃ z, numOf x = some z) → T.P.reader.isInt e = .ok (x.asked a) := by
  rintro e x xs rfl he ⟨z, hz⟩
  obtain ⟨-, h2, -⟩ := h.presented
  obtain ⟨c, k1, k2, -⟩ := c100_asked h2 (p := [.idx 0]) (w := x) rfl (by cases x <;> first | rfl | cases hz)
  have k1 : (T.P.reader.getIdx r 0 >>= fun c => Res.ok c) = .ok c := k1
  rw [he] at k1
  cases Res.ok.inj k1
  exact k2

/-- C102 for documents, with xtensor: at any path of a document that was written to any of the protocols and translated between them as a
whole or in parts. `M` is how the narrow accessors of the protocol see numbers, `a` the rule for the signs that applies. If no tensor of
the form has 2^64 bytes or more: a tensor is read exactly if the value is an array of the code, of dimensions of the wanted rank, of a
blob of the right size, and of anything else; then it is the tensor; otherwise `DeserializationError` is raised. -/
theorem c102_document_partial {T : Terminal} {addr : T.P.ρ → Nat} {M : Int → Int → Prop} (C : Codes (T.P.treader addr) M) (B : BlobsApart (T.P.treader addr))
    {r : T.P.ρ} {a : Signs} {v : Val} (h : ArrivesDoc T r a v) {p : List Hop} {w : Val} (hw : v.at p = some w) (dt : DType) (D : Option Nat)
    (hn : ∀ dims bytes, Shaped M (Val.asked a) dt.code w dims bytes → dims.foldr (· * ·) 1 * dt.size < 2 ^ 64 ∧
      ∀ p q, dims = p ++ q → 0 ∉ p → p.foldr (· * ·) 1 < 2 ^ 64) :
    ∃ s, T.P.reader.goto p r = .ok s ∧
      (∀ dims bytes, Shaped M (Val.asked a) dt.code w dims bytes ∧ (D = none ∨ D = some dims.length) ∧
          bytes.length = dims.foldr (· * ·) 1 * dt.size ↔
        ∃ t, asXTensorView (T.P.treader addr) dt D s = .ok t ∧ t.shape = dims ∧ t.bytes = bytes) ∧
      ((¬ ∃ dims bytes, Shaped M (Val.asked a) dt.code w dims bytes ∧ (D = none ∨ D = some dims.length) ∧
          bytes.length = dims.foldr (· * ·) 1 * dt.size) → asXTensorView (T.P.treader addr) dt D s = .err .deser) := by
  obtain ⟨s, h1, -⟩ := Reader.AgreesW.at p h.presented.1 hw
  have h' : ArrivesDoc T s a w := .inside h hw h1
  obtain ⟨k1, k2⟩ := c102_xtensor C B (signed := Val.asked a) (r := s) h'.presented.1 h'.first dt D
  have fits : ∀ dims bytes, Shaped M (Val.asked a) dt.code w dims bytes →
      (FitsX dt D dims bytes ↔ (D = none ∨ D = some dims.length) ∧ bytes.length = dims.foldr (· * ·) 1 * dt.size) := by
    intro dims bytes hS
    obtain ⟨n1, n2⟩ := hn dims bytes hS
    unfold FitsX
    rw [Nat.mod_eq_of_lt n1]
    exact ⟨fun h => ⟨h.1, h.2.2⟩, fun h => ⟨h.1, n2, h.2⟩⟩
  have hneg : (¬ ∃ dims bytes, Shaped M (Val.asked a) dt.code w dims bytes ∧ (D = none ∨ D = some dims.length) ∧
          bytes.length = dims.foldr (· * ·) 1 * dt.size) → asXTensorView (T.P.treader addr) dt D s = .err .deser := by
    intro hno
    refine k2 ?_
    rintro ⟨dims, bytes, hS, hF⟩
    exact hno ⟨dims, bytes, hS, (fits dims bytes hS).1 hF⟩
  have hpos : ∀ dims bytes, Shaped M (Val.asked a) dt.code w dims bytes ∧ (D = none ∨ D = some dims.length) ∧
          bytes.length = dims.foldr (· * ·) 1 * dt.size → ∃ t, asXTensorView (T.P.treader addr) dt D s = .ok t ∧ t.shape = dims ∧ t.bytes = bytes := by
    intro dims bytes ⟨hS, hF⟩
    obtain ⟨e2, -, j1, -⟩ := k1 dims bytes hS ((fits dims bytes hS).2 hF)
    obtain ⟨t, t1, t2, -, t4⟩ := j1 (.inl (hn dims bytes hS).1)
    exact ⟨t, t1, t2, t4⟩
  refine ⟨s, h1, fun dims bytes => ⟨hpos dims bytes, ?_⟩, hneg⟩
  rintro ⟨t, t1, rfl, rfl⟩
  by_cases hex : ∃ dims bytes, Shaped M (Val.asked a) dt.code w dims bytes ∧ (D = none ∨ D = some dims.length) ∧
          bytes.length = dims.foldr (· * ·) 1 * dt.size
  · obtain ⟨dims, bytes, hS⟩ := hex
    obtain ⟨t', t1', rfl, rfl⟩ := hpos dims bytes hS
    rw [t1] at t1'; cases t1'
    exact hS
  · rw [hneg hex] at t1; cases t1

/-- C102 for documents, with Eigen. -/
theorem c102_document_matrix {T : Terminal} {addr : T.P.ρ → Nat} {M : Int → Int → Prop} (C : Codes (T.P.treader addr) M) (B : BlobsApart (T.P.treader addr))
    {r : T.P.ρ} {a : Signs} {v : Val} (h : ArrivesDoc T r a v) {p : List Hop} {w : Val} (hw : v.at p = some w) (dt : DType) (nr nc : Option Nat)
    (hn : ∀ dims bytes, Shaped M (Val.asked a) dt.code w dims bytes → dims.foldr (· * ·) 1 * dt.size < 2 ^ 64) :
    ∃ s, T.P.reader.goto p r = .ok s ∧
      (∀ rows cols bytes, Shaped M (Val.asked a) dt.code w [rows, cols] bytes ∧ (nr = none ∨ nr = some rows) ∧ (nc = none ∨ nc = some cols) ∧
          bytes.length = rows * cols * dt.size ↔
        ∃ t, asEigenMatrixView (T.P.treader addr) dt nr nc s = .ok t ∧ t.shape = [rows, cols] ∧ t.bytes = bytes) ∧
      ((¬ ∃ rows cols bytes, Shaped M (Val.asked a) dt.code w [rows, cols] bytes ∧ (nr = none ∨ nr = some rows) ∧ (nc = none ∨ nc = some cols) ∧
          bytes.length = rows * cols * dt.size) → asEigenMatrixView (T.P.treader addr) dt nr nc s = .err .deser) := by
  obtain ⟨s, h1, -⟩ := Reader.AgreesW.at p h.presented.1 hw
  have h' : ArrivesDoc T s a w := .inside h hw h1
  obtain ⟨k1, k2⟩ := c102_matrix C B (signed := Val.asked a) (r := s) h'.presented.1 h'.first dt nr nc
  have size : ∀ rows cols bytes, Shaped M (Val.asked a) dt.code w [rows, cols] bytes → rows * cols * dt.size % 2 ^ 64 = rows * cols * dt.size := by
    intro rows cols bytes hS
    have := hn _ _ hS
    simp only [List.foldr_cons, List.foldr_nil, Nat.mul_one] at this
    exact Nat.mod_eq_of_lt this
  have hneg : (¬ ∃ rows cols bytes, Shaped M (Val.asked a) dt.code w [rows, cols] bytes ∧ (nr = none ∨ nr = some rows) ∧ (nc = none ∨ nc = some cols) ∧
          bytes.length = rows * cols * dt.size) → asEigenMatrixView (T.P.treader addr) dt nr nc s = .err .deser := by
    intro hno
    refine k2 ?_
    rintro ⟨dims, bytes, hS, rows, cols, rfl, f1, f2, f3⟩
    exact hno ⟨rows, cols, bytes, hS, f1, f2, by rw [f3, size _ _ _ hS]⟩
  have hpos : ∀ rows cols bytes, Shaped M (Val.asked a) dt.code w [rows, cols] bytes ∧ (nr = none ∨ nr = some rows) ∧ (nc = none ∨ nc = some cols) ∧
          bytes.length = rows * cols * dt.size → ∃ t, asEigenMatrixView (T.P.treader addr) dt nr nc s = .ok t ∧ t.shape = [rows, cols] ∧ t.bytes = bytes := by
    intro rows cols bytes ⟨hS, f1, f2, f3⟩
    obtain ⟨e2, -, j1, -⟩ := k1 _ bytes hS ⟨rows, cols, rfl, f1, f2, by rw [f3, size _ _ _ hS]⟩
    obtain ⟨t, t1, t2, -, t4⟩ := j1 (.inl (hn _ _ hS))
    exact ⟨t, t1, t2, t4⟩
  refine ⟨s, h1, fun rows cols bytes => ⟨hpos rows cols bytes, ?_⟩, hneg⟩
  rintro ⟨t, t1, t2, rfl⟩
  by_cases hex : ∃ rows cols bytes, Shaped M (Val.asked a) dt.code w [rows, cols] bytes ∧ (nr = none ∨ nr = some rows) ∧ (nc = none ∨ nc = some cols) ∧
          bytes.length = rows * cols * dt.size
  · obtain ⟨rows', cols', bytes, hS⟩ := hex
    obtain ⟨t', t1', t2', rfl⟩ := hpos rows' cols' bytes hS
    rw [t1] at t1'; cases t1'
    rw [t2] at t2'
    simp only [List.cons.injEq, and_true] at t2'
    obtain ⟨rfl, rfl⟩ := t2'
    exact hS
  · rw [hneg hex] at t1; cases t1

/-! ## The five protocols -/

/-- Accessors that check the range: the number is the code. -/
theorem codes_checked {R : TReader ρ} (h : ∀ w r, R.asIntN w r = (do
      let x ← R.asInt64 r
      if x.toInt < -(2 ^ (w - 1) : Int) ∨ x.toInt > (2 ^ (w - 1) : Int) - 1 then .err .deser
      else pure x.toInt)) : Codes R (fun z c => z = c) where
  clean := by
    intro w e x hx
    rw [h, hx]
    simp only [Res.ok_bind]
    split
    · exact .inr rfl
    · exact .inl ⟨_, rfl⟩
  both := by
    intro e x c h1 h2 hx
    rw [h, h, hx]
    simp only [Res.ok_bind, Res.pure_eq]
    constructor
    · rintro ⟨k, -⟩
      split at k
      · cases k
      · exact Res.ok.inj k
    · rintro rfl
      rw [if_neg (by omega), if_neg (by omega)]
      exact ⟨rfl, rfl⟩

/-- Accessors that cut: the number is the code modulo 2^32. -/
theorem codes_cut {R : TReader ρ} (h : ∀ w r, R.asIntN w r = (do
      let x ← R.asInt64 r
      pure (x.toInt.bmod (2 ^ w)))) : Codes R (fun z c => (z - c) % 2 ^ 32 = 0) where
  clean := by
    intro w e x hx
    rw [h, hx]
    exact .inl ⟨_, rfl⟩
  both := by
    intro e x c h1 h2 hx
    rw [h, h, hx]
    simp only [Res.ok_bind, Res.pure_eq, Res.ok.injEq]
    constructor
    · rintro ⟨-, k⟩
      rw [Int.bmod_def] at k
      split at k <;> omega
    · intro k
      rw [Int.bmod_def, Int.bmod_def]
      constructor <;> split <;> omega

theorem apart_of_exclusive {R : TReader ρ} (h : ∀ e, R.isBlob e = .ok true → R.isArray e = .ok true → False) : BlobsApart R :=
  fun e h1 h2 => (h e h1 h2).elim

/-- ZERA checks the range. -/
theorem zera_codes (addr : zera.ρ → Nat) : Codes (zera.treader addr) (fun z c => z = c) ∧ BlobsApart (zera.treader addr) := by
  refine ⟨codes_checked fun _ _ => rfl, apart_of_exclusive fun e h1 h2 => ?_⟩
  have h1 : Zera.View.isBlob e = .ok true := h1
  have h2 : Zera.View.isArray e = .ok true := h2
  obtain ⟨t, ht, h2⟩ := Res.bind_eq_ok.1 h2
  have h2 : decide (t = Zera.tArray) = true := Res.ok.inj h2
  have h2 := of_decide_eq_true h2
  subst h2
  simp only [Zera.View.isBlob, ht, Res.ok_bind] at h1
  rw [if_neg (by decide)] at h1
  cases h1

/-- MessagePack checks the range. -/
theorem msgpack_codes (addr : msgpack.ρ → Nat) : Codes (msgpack.treader addr) (fun z c => z = c) ∧ BlobsApart (msgpack.treader addr) := by
  refine ⟨codes_checked fun _ _ => rfl, apart_of_exclusive fun e h1 h2 => ?_⟩
  have h1 : MsgPack.isBlob e = true := Res.ok.inj h1
  have h2 : MsgPack.isArray e = true := Res.ok.inj h2
  have := MsgPack.c54_msgpack_kinds_exclusive e
  rw [h1, h2] at this
  simp only [List.filter_cons, id, if_true] at this
  revert this
  cases MsgPack.isNull e <;> cases MsgPack.isBool e <;> cases (MsgPack.isInt e || MsgPack.isUInt e) <;> cases MsgPack.isFloat e <;>
    cases MsgPack.isString e <;> cases MsgPack.isMap e <;> simp

/-- CBOR checks the range. -/
theorem cbor_codes (utf8 : Bytes → Bool) (maxDepth fuel : Nat) (addr : (cbor utf8 maxDepth fuel).ρ → Nat) :
    Codes ((cbor utf8 maxDepth fuel).treader addr) (fun z c => z = c) ∧ BlobsApart ((cbor utf8 maxDepth fuel).treader addr) := by
  refine ⟨codes_checked fun _ _ => rfl, apart_of_exclusive fun e h1 h2 => ?_⟩
  have h1 : Cbor.View.isBlob e = .ok true := h1
  have h2 : Cbor.View.isArray e = .ok true := h2
  obtain ⟨t, ht, h2⟩ := Res.bind_eq_ok.1 h2
  have h2 := of_decide_eq_true (Res.ok.inj h2 : decide (t.major = 4) = true)
  simp only [Cbor.View.isBlob, ht, Res.ok_bind] at h1
  have h1 := of_decide_eq_true (Res.ok.inj h1 : decide (t.major = 2) = true)
  rw [h2] at h1
  cases h1

/-- Flex cuts. -/
theorem flex_codes (L : Flex.Lib) (dbg : Bool) (addr : (flex L dbg).ρ → Nat) :
    Codes ((flex L dbg).treader addr) (fun z c => (z - c) % 2 ^ 32 = 0) ∧ BlobsApart ((flex L dbg).treader addr) := by
  refine ⟨codes_cut fun _ _ => rfl, apart_of_exclusive fun e h1 h2 => ?_⟩
  have h1 : Flex.isBlob e = true := Res.ok.inj h1
  have h2 : Flex.isArray e = true := Res.ok.inj h2
  have h1 : e.ty = 25 := of_decide_eq_true h1
  simp only [Flex.isArray, Flex.isMap, h1] at h2
  revert h2
  decide

/-- JSON cuts; its blobs are arrays of three strings. -/
theorem json_codes (X : Json.Text) (dbg : Bool) (addr : (json X dbg).ρ → Nat) :
    Codes ((json X dbg).treader addr) (fun z c => (z - c) % 2 ^ 32 = 0) ∧ BlobsApart ((json X dbg).treader addr) := by
  refine ⟨codes_cut fun _ _ => rfl, fun e h1 h2 => ?_⟩
  have h1 : Json.isBlob e = .ok true := h1
  match e, h1 with
  | .arr (x :: y :: z :: []), h1 =>
    have hx : Json.isString x = true := by
      cases hx : Json.isString x with
      | true => rfl
      | false => 
        have : Json.isBlob (.arr [x, y, z]) = .ok false := by
          simp only [Json.isBlob, Json.isArray, if_true, Json.arraySize, Res.pure_eq, Res.ok_bind, List.length_cons, List.length_nil, Json.getIdx,
            List.getElem?_cons_zero, hx, Bool.false_eq_true, if_false]
        rw [this] at h1; cases h1
    obtain ⟨t, rfl⟩ : ∃ t, x = .str t := by cases x <;> first | exact ⟨_, rfl⟩ | cases hx
    exact ⟨rfl, fun dt => rfl⟩
  | .arr [], h1 => cases h1
  | .arr [_], h1 => cases h1
  | .arr [_, _], h1 => cases h1
  | .arr (a :: b :: c :: d :: rest), h1 =>
    have : Json.isBlob (.arr (a :: b :: c :: d :: rest)) = .ok false := by
      simp [Json.isBlob, Json.isArray, Json.arraySize]
    rw [this] at h1; cases h1
  | .null, h1 => cases h1
  | .bool _, h1 => cases h1
  | .int _, h1 => cases h1
  | .uint _, h1 => cases h1
  | .dbl _, h1 => cases h1
  | .str _, h1 => cases h1
  | .blob _, h1 => cases h1
  | .map _, h1 => cases h1

/-! ## Where the description in the README is not what is done -/

/-- An array of four elements of which the first three are a tensor of two 16-bit integers. -/
def fourVal : Val := .arr [.int 1, .arr [.uint 2], .blob [1, 0, 2, 0], .str [0x78]]

/-- A tensor of two 16-bit integers whose code was written as an unsigned number. -/
def uintCodeVal : Val := .arr [.uint 1, .arr [.uint 2], .blob [1, 0, 2, 0]]

theorem i16_code : DType.i16.code = 1 ∧ DType.i16.size = 2 := by decide

theorem dims2 : ∀ i (h1 : i < [Val.uint 2].length) (h2 : i < [2].length), IsDim [Val.uint 2][i] ([2] : List Nat)[i] := by
  intro i h1 h2
  match i with
  | 0 => exact dimOf_iff.1 (show dimOf (.uint 2) = some 2 by decide +kernel)
  | i + 1 => exact absurd h1 (by simp)

theorem shaped_only {M : Int → Int → Prop} {signed : Val → Bool} {x : Val} {rest : List Val} {c : Int} {dims : List Nat} {bytes : Bytes}
    (h : Shaped M signed c (.arr (x :: .arr [.uint 2] :: .blob [1, 0, 2, 0] :: rest)) dims bytes) : dims = [2] ∧ bytes = [1, 0, 2, 0] := by
  obtain ⟨x, z, ss, rest, e, -, -, -, k1, k2⟩ := h
  simp only [Val.arr.injEq, List.cons.injEq, Val.blob.injEq] at e
  obtain ⟨-, rfl, rfl, -⟩ := e
  have h1 := dimsOf_some.2 ⟨k1, k2⟩
  rw [dimsOf_some.2 ⟨by rfl, dims2⟩] at h1
  exact ⟨(Option.some.inj h1).symm, rfl⟩

theorem small2 {dims : List Nat} {bytes : Bytes} (h : dims = [2] ∧ bytes = [1, 0, 2, 0]) : dims.foldr (· * ·) 1 * DType.i16.size < 2 ^ 64 ∧
      ∀ p q, dims = p ++ q → 0 ∉ p → p.foldr (· * ·) 1 < 2 ^ 64 := by
  obtain ⟨rfl, -⟩ := h
  refine ⟨by decide, ?_⟩
  intro p q e _
  match p, e with
  | [], _ => decide
  | [a], e => 
    simp only [List.cons_append, List.cons.injEq] at e
    obtain ⟨rfl, -⟩ := e
    decide
  | a :: b :: p, e => simp at e

/-- README.md:168 "arrays of size 3" is refuted: an array of four elements is read as a tensor, and the fourth is ignored. -/
theorem c102_longer_refuted (addr : zera.ρ → Nat) : ∃ r a t, ArrivesDoc zeraT r a fourVal ∧
    asXTensorView (zera.treader addr) .i16 (some 1) r = .ok t ∧ t.shape = [2] ∧ t.bytes = [1, 0, 2, 0] ∧ zera.reader.arraySize r = .ok 4 := by
  obtain ⟨z, hz⟩ : ∃ z, Zera.proto.serialize fourVal = .ok z := isOk_iff.1 (by decide +kernel)
  have hT : zeraT.station.Takes fourVal := Zera.c100_zera hz
  obtain ⟨-, b, r, k1, k2, -⟩ := hT fourVal rfl
  have A : ArrivesDoc zeraT r zeraT.g fourVal := .written hT k1 k2
  obtain ⟨s, h1, h2, -⟩ := c102_document_partial (T := zeraT) (zera_codes addr).1 (zera_codes addr).2 A (p := []) rfl .i16 (some 1)
    (fun dims bytes h => small2 (shaped_only h))
  cases Res.ok.inj h1
  obtain ⟨t, t1, t2, t3⟩ := (h2 [2] [1, 0, 2, 0]).1 ⟨⟨.int 1, 1, [.uint 2], [.str [0x78]], rfl, by decide, i16_code.1.symm, rfl, rfl, dims2⟩, .inr rfl, by decide⟩
  refine ⟨r, _, t, A, t1, t2, t3, ?_⟩
  cases A.presented.1 with
  | arr _ _ hn => exact hn

/-- The signs of the codes matter in some protocols only: the same document is read as a tensor from MessagePack and refused from ZERA. -/
theorem c102_sign_refuted (addr : zera.ρ → Nat) (addr' : msgpack.ρ → Nat) : ∃ r a s b t, ArrivesDoc zeraT r a uintCodeVal ∧ ArrivesDoc msgpackT s b uintCodeVal ∧
    asXTensorView (zera.treader addr) .i16 none r = .err .deser ∧
    asXTensorView (msgpack.treader addr') .i16 none s = .ok t ∧ t.shape = [2] ∧ t.bytes = [1, 0, 2, 0] := by
  obtain ⟨z, hz⟩ : ∃ z, Zera.proto.serialize uintCodeVal = .ok z := isOk_iff.1 (by decide +kernel)
  have hT : zeraT.station.Takes uintCodeVal := Zera.c100_zera hz
  obtain ⟨-, b, r, k1, k2, -⟩ := hT uintCodeVal rfl
  have A : ArrivesDoc zeraT r zeraT.g uintCodeVal := .written hT k1 k2
  have hM : msgpackT.station.Takes uintCodeVal := MsgPack.c100_msgpack
    (by simp [uintCodeVal, Val.Sized, Val.sizedList]) (by simp [uintCodeVal, Val.Below, Val.Below.belowList])
  obtain ⟨-, b', r', k1', k2', -⟩ := hM uintCodeVal rfl
  have A' : ArrivesDoc msgpackT r' msgpackT.g uintCodeVal := .written hM k1' k2'
  obtain ⟨s, h1, -, h2⟩ := c102_document_partial (T := zeraT) (zera_codes addr).1 (zera_codes addr).2 A (p := []) rfl .i16 none
    (fun dims bytes h => small2 (shaped_only h))
  cases Res.ok.inj h1
  obtain ⟨s, h1, h3, -⟩ := c102_document_partial (T := msgpackT) (msgpack_codes addr').1 (msgpack_codes addr').2 A' (p := []) rfl .i16 none
    (fun dims bytes h => small2 (shaped_only h))
  cases Res.ok.inj h1
  have hg : Val.asked msgpackT.g (.uint 1) = true := by decide +kernel
  obtain ⟨t, t1, t2, t3⟩ := (h3 [2] [1, 0, 2, 0]).1 ⟨⟨.uint 1, 1, [.uint 2], [], rfl, by decide, i16_code.1.symm, hg, rfl, dims2⟩, .inl rfl, by decide⟩
  refine ⟨_, _, _, _, t, A, A', h2 ?_, t1, t2, t3⟩
  rintro ⟨dims, bytes, ⟨x, z, ss, rest, e, -, -, k, -⟩, -⟩
  simp only [uintCodeVal, Val.arr.injEq, List.cons.injEq] at e
  obtain ⟨rfl, -⟩ := e
  exact absurd k (by decide)

end Zer.Tensor
