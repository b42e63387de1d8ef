import Verif.Props.Route
import Verif.TypedProto

/-!
# Property C109: a program that reads gives the same result in every format

Programs written against the `Reader` concept (concepts.hpp:68-118). A program holds positions, asks questions about them, goes from them to
members and elements, and decides by the answers what to do next; it may catch `DeserializationError` after every step. Three questions are
asked in the way that the library itself asks them in `write_value` (translate.hpp:32-72): whether something is an array after whether it is a
blob, and for a number first `isInt()`, then `isUInt()`, then the accessor that belongs to the answer.
-/

namespace Zer

/-- Questions. -/
inductive Ask where
  | isNull | isBool | isNum | isFloat | isString | isBlob | isMap | isArray
  | asBool | asNum | asDouble | asString | asStringView | asBlob
  | keys | has (k : Bytes) | size

/-- Answers. -/
inductive Ans where
  | flag (b : Bool) | num (z : Int) | bits (d : UInt64) | bytes (b : Bytes) | list (ks : List Bytes) | len (n : Nat)

namespace Reader
variable {ρ : Type} (R : Reader ρ)

/-- `isBlob()` first, then an operation of arrays, which a blob does not have. -/
def notBlob {α : Type} (r : ρ) (x : Res α) (y : Res α) : Res α := do
  let b ← R.isBlob r
  if b then y else x

/-- The question, put to a reader. `lst` is what the program makes of a list of keys. -/
def put (lst : List Bytes → List Bytes) (r : ρ) : Ask → Res Ans
  | .isNull => Ans.flag <$> R.isNull r
  | .isBool => Ans.flag <$> R.isBool r
  | .isNum => do
    let i ← R.isInt r
    let u ← R.isUInt r
    pure (.flag (i || u))
  | .isFloat => Ans.flag <$> R.isFloat r
  | .isString => Ans.flag <$> R.isString r
  | .isBlob => Ans.flag <$> R.isBlob r
  | .isMap => Ans.flag <$> R.isMap r
  | .isArray => R.notBlob r (Ans.flag <$> R.isArray r) (pure (.flag false))
  | .asBool => Ans.flag <$> R.asBool r
  | .asNum => do
    let i ← R.isInt r
    if i then (fun x => Ans.num x.toInt) <$> R.asInt64 r
    else do
      let u ← R.isUInt r
      if u then (fun x => Ans.num x.toNat) <$> R.asUInt64 r
      else .err .deser
  | .asDouble => Ans.bits <$> R.asDouble r
  | .asString => Ans.bytes <$> R.asString r
  | .asStringView => Ans.bytes <$> R.asStringView r
  | .asBlob => Ans.bytes <$> R.asBlob r
  | .keys => (fun ks => Ans.list (lst ks)) <$> R.mapKeys r
  | .has k => Ans.flag <$> R.contains r k
  | .size => R.notBlob r (Ans.len <$> R.arraySize r) (.err .deser)

/-- The step to a member or an element. -/
def hop (r : ρ) : Hop → Res ρ
  | .key k => R.getKey r k
  | .idx i => R.notBlob r (R.getIdx r i) (.err .deser)

end Reader

/-- A program. It starts with one position; `go i h` steps from a position to a member or element and holds the new position as well, `ask i q`
asks about a position. Number `i` is the `i`-th of the positions gone to, and the start if there are not so many. After a
`DeserializationError` it goes on with `none` or `false`. -/
inductive Prog (α : Type) where
  | done (a : α)
  | ask (i : Nat) (q : Ask) (next : Option Ans → Prog α)
  | go (i : Nat) (h : Hop) (next : Bool → Prog α)

/-- The `i`-th of the positions gone to, or the start. -/
def held {ρ : Type} (root : ρ) (more : List ρ) (i : Nat) : ρ := more.getD i root

/-- Running a program on a reader. An outcome other than a value or a `DeserializationError` ends it. -/
def Prog.run {ρ α : Type} (R : Reader ρ) (lst : List Bytes → List Bytes) (root : ρ) : List ρ → Prog α → Res α
  | _, .done a => .ok a
  | more, .ask i q next =>
    match R.put lst (held root more i) q with
    | .ok a => run R lst root more (next (some a))
    | .err .deser => run R lst root more (next none)
    | .err e => .err e
    | .ub => .ub
    | .diverge => .diverge
  | more, .go i h next =>
    match R.hop (held root more i) h with
    | .ok r => run R lst root (more ++ [r]) (next true)
    | .err .deser => run R lst root more (next false)
    | .err e => .err e
    | .ub => .ub
    | .diverge => .diverge

/-! ## What a value answers -/

/-- The answer of a value; `none` is a `DeserializationError`. -/
def Val.tell (lst : List Bytes → List Bytes) : Ask → Val → Option Ans
  | .isNull, v => some (.flag (match v with | .null => true | _ => false))
  | .isBool, v => some (.flag (match v with | .bool _ => true | _ => false))
  | .isNum, v => some (.flag (match v with | .int _ => true | .uint _ => true | _ => false))
  | .isFloat, v => some (.flag (match v with | .dbl _ => true | _ => false))
  | .isString, v => some (.flag (match v with | .str _ => true | _ => false))
  | .isBlob, v => some (.flag (match v with | .blob _ => true | _ => false))
  | .isMap, v => some (.flag (match v with | .map _ => true | _ => false))
  | .isArray, v => some (.flag (match v with | .arr _ => true | _ => false))
  | .asBool, .bool b => some (.flag b)
  | .asNum, .int i => some (.num i.toInt)
  | .asNum, .uint n => some (.num n.toNat)
  | .asDouble, .dbl d => some (.bits d)
  | .asString, .str s => some (.bytes s)
  | .asStringView, .str s => some (.bytes s)
  | .asBlob, .blob s => some (.bytes s)
  | .keys, .map ms => some (.list (lst (ms.map Prod.fst)))
  | .has k, .map ms => some (.flag (decide (k ∈ ms.map Prod.fst)))
  | .has _, _ => some (.flag false)
  | .size, .arr xs => some (.len xs.length)
  | _, _ => none

/-- The member or element of a value. -/
def Val.sub : Hop → Val → Option Val
  | .key k, .map ms => firstVal ms k
  | .idx i, .arr xs => xs[i]?
  | _, _ => none

/-- Running a program on a value. -/
def Prog.tell {α : Type} (lst : List Bytes → List Bytes) (root : Val) : List Val → Prog α → α
  | _, .done a => a
  | more, .ask i q next => tell lst root more (next (Val.tell lst q (held root more i)))
  | more, .go i h next =>
    match Val.sub h (held root more i) with
    | some v => tell lst root (more ++ [v]) (next true)
    | none => tell lst root more (next false)

/-! ## Readers that raise -/

/-- At positions that present a value, accessors of another kind raise `DeserializationError`, and `contains` is false. -/
structure Reader.Raises {ρ : Type} (R : Reader ρ) : Prop where
  bool : ∀ {r v}, R.Agrees r v → R.isBool r = .ok false → R.asBool r = .err .deser
  dbl : ∀ {r v}, R.Agrees r v → R.isFloat r = .ok false → R.asDouble r = .err .deser
  str : ∀ {r v}, R.Agrees r v → R.isString r = .ok false → R.asString r = .err .deser ∧ R.asStringView r = .err .deser
  blob : ∀ {r v}, R.Agrees r v → R.isBlob r = .ok false → R.asBlob r = .err .deser
  arr : ∀ {r v}, R.Agrees r v → R.isArray r = .ok false → R.arraySize r = .err .deser ∧ ∀ i, R.getIdx r i = .err .deser
  map : ∀ {r v}, R.Agrees r v → R.isMap r = .ok false → R.mapKeys r = .err .deser ∧ ∀ k, R.getKey r k = .err .deser ∧ R.contains r k = .ok false

theorem Zera.raises : Zera.reader.Raises where
  bool {r _} _ h := (c55_zera_wrong_kind r).1 h
  dbl {r _} _ h := (c55_zera_wrong_kind r).2.2.1 h
  str {r _} _ h := (c55_zera_wrong_kind r).2.2.2.1 h
  blob {r _} _ h := (c55_zera_wrong_kind r).2.2.2.2.1 h
  arr {r _} _ h := (c55_zera_wrong_kind r).2.2.2.2.2.1 h
  map {r _} _ h := (c55_zera_wrong_kind r).2.2.2.2.2.2 h

theorem Cbor.raises (hard : Bool) (f : Nat) : (Cbor.reader hard f).Raises where
  bool {r _} _ h := (c55_cbor_wrong_kind r hard f).1 h
  dbl {r _} _ h := (c55_cbor_wrong_kind r hard f).2.2.2.1 h
  str {r _} _ h := (c55_cbor_wrong_kind r hard f).2.2.2.2.1 h
  blob {r _} _ h := ((c55_cbor_wrong_kind r hard f).2.2.2.2.2.1 h).1
  arr {r _} _ h := (c55_cbor_wrong_kind r hard f).2.2.2.2.2.2.1 h
  map {r _} _ h := (c55_cbor_wrong_kind r hard f).2.2.2.2.2.2.2 h

theorem Json.raises : Json.reader.Raises where
  bool {r _} _ h := (c55_json_wrong_kind r).1 (Res.ok.inj h)
  dbl {r _} _ h := (c55_json_wrong_kind r).2.2.2.1 (Res.ok.inj h)
  str {r _} _ h := ⟨(c55_json_wrong_kind r).2.2.2.2.1 (Res.ok.inj h), (c55_json_wrong_kind r).2.2.2.2.1 (Res.ok.inj h)⟩
  blob {r _} _ h := (c55_json_wrong_kind r).2.2.2.2.2.1 h
  arr {r _} _ h := (c55_json_wrong_kind r).2.2.2.2.2.2.1 (Res.ok.inj h)
  map {r _} _ h := (c55_json_wrong_kind r).2.2.2.2.2.2.2 (Res.ok.inj h)

theorem Flex.raises : Flex.reader.Raises where
  bool {r _} _ h := (c55_flex_wrong_kind r).1 (Res.ok.inj h)
  dbl {r _} _ h := (c55_flex_wrong_kind r).2.2.2.1 (Res.ok.inj h)
  str {r _} _ h := ⟨(c55_flex_wrong_kind r).2.2.2.2.1 (Res.ok.inj h), (c55_flex_wrong_kind r).2.2.2.2.1 (Res.ok.inj h)⟩
  blob {r _} _ h := (c55_flex_wrong_kind r).2.2.2.2.2.1 (Res.ok.inj h)
  arr {r _} _ h := (c55_flex_wrong_kind r).2.2.2.2.2.2.1 (Res.ok.inj h)
  map {r _} _ h := (c55_flex_wrong_kind r).2.2.2.2.2.2.2 (Res.ok.inj h)

theorem MsgPack.agrees_ne {r : Bytes} {v : Val} (h : MsgPack.reader.Agrees r v) : r ≠ [] := by
  rintro rfl
  have no : ∀ {a b c d e f g i : Bool}, MsgPack.reader.Shows [] a b c d e f g i →
      (a || b || c || d || e || f || g || i) = false := by
    rintro a b c d e f g i ⟨h1, h2, ⟨x, y, h3, h4, h5⟩, h6, h7, h8, h9, h10⟩
    have e1 := Res.ok.inj h1; have e2 := Res.ok.inj h2; have e3 := Res.ok.inj h3; have e4 := Res.ok.inj h4
    have e6 := Res.ok.inj h6; have e7 := Res.ok.inj h7; have e8 := Res.ok.inj h8; have e9 := Res.ok.inj h9
    have e10 := Res.ok.inj h10
    subst e1 e2 e3 e4 e6 e7 e8 e9 e10
    subst h5
    decide
  cases h with
  | null h => have := no h; simp at this
  | bool h _ => have := no h; simp at this
  | int h _ => have := no h.1; simp at this
  | uint h _ => have := no h.1; simp at this
  | dbl h _ => have := no h; simp at this
  | str h _ _ => have := no h; simp at this
  | blob h _ _ => have := no h; simp at this
  | arr _ h _ _ _ _ => have := no h; simp at this
  | map _ h _ _ _ _ _ => have := no h; simp at this

theorem MsgPack.raises : MsgPack.reader.Raises where
  bool a h := (c55_msgpack_wrong_kind_partial (agrees_ne a)).1 (Res.ok.inj h)
  dbl a h := (c55_msgpack_wrong_kind_partial (agrees_ne a)).2.2.1 (Res.ok.inj h)
  str a h := (c55_msgpack_wrong_kind_partial (agrees_ne a)).2.2.2.1 (Res.ok.inj h)
  blob a h := (c55_msgpack_wrong_kind_partial (agrees_ne a)).2.2.2.2.1 (Res.ok.inj h)
  arr a h := (c55_msgpack_wrong_kind_partial (agrees_ne a)).2.2.2.2.2.1 (Res.ok.inj h)
  map a h := (c55_msgpack_wrong_kind_partial (agrees_ne a)).2.2.2.2.2.2 (Res.ok.inj h)

/-! ## One question, one step -/

/-- A `DeserializationError` or a value. -/
def answered {α : Type} : Option α → Res α
  | some a => .ok a
  | none => .err .deser

section
variable {ρ : Type} {R : Reader ρ}

theorem Res.map_ok {α β : Type} (f : α → β) {x : Res α} {a : α} (h : x = .ok a) : f <$> x = .ok (f a) := by rw [h]; rfl
theorem Res.map_err {α β : Type} (f : α → β) {x : Res α} {e : Err} (h : x = .err e) : f <$> x = .err e := by rw [h]; rfl

/-- What the kind predicates of a position say decides every question about the kind. -/
theorem put_kind (lst : List Bytes → List Bytes) {r : ρ} {a b c d e f g h : Bool} (H : R.Shows r a b c d e f g h) :
    R.put lst r .isNull = .ok (.flag a) ∧ R.put lst r .isBool = .ok (.flag b) ∧ R.put lst r .isNum = .ok (.flag c) ∧
    R.put lst r .isFloat = .ok (.flag d) ∧ R.put lst r .isString = .ok (.flag e) ∧ R.put lst r .isBlob = .ok (.flag f) ∧
    R.put lst r .isMap = .ok (.flag g) ∧ R.put lst r .isArray = .ok (.flag (!f && h)) := by
  obtain ⟨h1, h2, ⟨x, y, h3, h4, h5⟩, h6, h7, h8, h9, h10⟩ := H
  refine ⟨Res.map_ok _ h1, Res.map_ok _ h2, ?_, Res.map_ok _ h6, Res.map_ok _ h7, Res.map_ok _ h8, Res.map_ok _ h9, ?_⟩
  · simp only [Reader.put, h3, h4, Res.ok_bind, h5]; rfl
  · simp only [Reader.put, Reader.notBlob, h8, h10, Res.ok_bind]
    cases f <;> rfl

/-- What is not of a kind has no answers of this kind. -/
theorem put_not (hR : R.Raises) (lst : List Bytes → List Bytes) {r : ρ} {v : Val} {a b c d e f g h : Bool} (ha : R.Agrees r v)
    (H : R.Shows r a b c d e f g h) :
    (b = false → R.put lst r .asBool = .err .deser) ∧ (c = false → R.put lst r .asNum = .err .deser) ∧
    (d = false → R.put lst r .asDouble = .err .deser) ∧
    (e = false → R.put lst r .asString = .err .deser ∧ R.put lst r .asStringView = .err .deser) ∧
    (f = false → R.put lst r .asBlob = .err .deser) ∧
    (f = true ∨ h = false → R.put lst r .size = .err .deser ∧ ∀ i, R.hop r (.idx i) = .err .deser) ∧
    (g = false → R.put lst r .keys = .err .deser ∧ ∀ k, R.put lst r (.has k) = .ok (.flag false) ∧ R.hop r (.key k) = .err .deser) := by
  obtain ⟨h1, h2, ⟨x, y, h3, h4, h5⟩, h6, h7, h8, h9, h10⟩ := H
  refine ⟨?_, ?_, ?_, ?_, ?_, ?_, ?_⟩
  · rintro rfl; exact Res.map_err _ (hR.bool ha h2)
  · rintro rfl
    obtain ⟨rfl, rfl⟩ : x = false ∧ y = false := by cases x <;> cases y <;> simp at h5 ⊢
    simp only [Reader.put, h3, h4, Res.ok_bind]; rfl
  · rintro rfl; exact Res.map_err _ (hR.dbl ha h6)
  · rintro rfl; exact ⟨Res.map_err _ (hR.str ha h7).1, Res.map_err _ (hR.str ha h7).2⟩
  · rintro rfl; exact Res.map_err _ (hR.blob ha h8)
  · intro hh
    cases f with
    | true => exact ⟨by simp only [Reader.put, Reader.notBlob, h8, Res.ok_bind]; rfl,
        fun i => by simp only [Reader.hop, Reader.notBlob, h8, Res.ok_bind]; rfl⟩
    | false =>
      obtain rfl : h = false := hh.resolve_left (by simp)
      have := hR.arr ha h10
      exact ⟨by simp only [Reader.put, Reader.notBlob, h8, Res.ok_bind, this.1]; rfl,
        fun i => by simp only [Reader.hop, Reader.notBlob, h8, Res.ok_bind, this.2]; rfl⟩
  · rintro rfl
    have := hR.map ha h9
    exact ⟨Res.map_err _ this.1, fun k => ⟨Res.map_ok _ (this.2 k).2, (this.2 k).1⟩⟩

theorem put_num {r : ρ} (lst : List Bytes → List Bytes) {z : Int} (H : R.ShowsInt r z) : R.put lst r .asNum = .ok (.num z) := by
  obtain ⟨⟨-, -, ⟨x, y, h3, h4, h5⟩, -⟩, h6, h7⟩ := H
  cases x with
  | true =>
    obtain ⟨w, e1, e2⟩ := h6 h3
    simp only [Reader.put, h3, Res.ok_bind, if_true, e1]
    exact congrArg (fun n => Res.ok (Ans.num n)) e2
  | false =>
    cases y with
    | false => simp at h5
    | true =>
      obtain ⟨w, e1, e2⟩ := h7 h4
      simp only [Reader.put, h3, h4, Res.ok_bind, if_true, e1]
      exact congrArg (fun n => Res.ok (Ans.num n)) e2

/-- Every question about a position that presents a value is answered as the value answers it. -/
theorem put_tell (hR : R.Raises) (lst : List Bytes → List Bytes) {r : ρ} {v : Val} (ha : R.Agrees r v) (q : Ask) :
    R.put lst r q = answered (Val.tell lst q v) := by
  have kind : ∀ {a b c d e f g h : Bool}, R.Shows r a b c d e f g h →
      (∀ q : Ask, (match q with
        | .isNull => R.put lst r q = .ok (.flag a) | .isBool => R.put lst r q = .ok (.flag b)
        | .isNum => R.put lst r q = .ok (.flag c) | .isFloat => R.put lst r q = .ok (.flag d)
        | .isString => R.put lst r q = .ok (.flag e) | .isBlob => R.put lst r q = .ok (.flag f)
        | .isMap => R.put lst r q = .ok (.flag g) | .isArray => R.put lst r q = .ok (.flag (!f && h))
        | .asBool => b = false → R.put lst r q = .err .deser | .asNum => c = false → R.put lst r q = .err .deser
        | .asDouble => d = false → R.put lst r q = .err .deser
        | .asString => e = false → R.put lst r q = .err .deser | .asStringView => e = false → R.put lst r q = .err .deser
        | .asBlob => f = false → R.put lst r q = .err .deser
        | .size => f = true ∨ h = false → R.put lst r q = .err .deser
        | .keys => g = false → R.put lst r q = .err .deser
        | .has _ => g = false → R.put lst r q = .ok (.flag false) : Prop)) := by
    intro a b c d e f g h H q
    obtain ⟨k1, k2, k3, k4, k5, k6, k7, k8⟩ := put_kind lst H
    obtain ⟨n1, n2, n3, n4, n5, n6, n7⟩ := put_not hR lst ha H
    cases q <;> dsimp only <;> first
      | assumption
      | exact fun h => (n4 h).1
      | exact fun h => (n4 h).2
      | exact fun h => (n6 h).1
      | exact fun h => (n7 h).1
      | exact fun h => ((n7 h).2 _).1
  cases ha with
  | null h => have := kind h q; cases q <;> first | exact this | exact this rfl | exact this (.inr rfl)
  | bool h h' => have := kind h q; cases q <;> first | exact this | exact this rfl | exact this (.inr rfl) | exact Res.map_ok _ h'
  | int h _ => have := kind h.1 q; cases q <;> first | exact this | exact this rfl | exact this (.inr rfl) | exact put_num lst h
  | uint h _ => have := kind h.1 q; cases q <;> first | exact this | exact this rfl | exact this (.inr rfl) | exact put_num lst h
  | dbl h h' => have := kind h q; cases q <;> first | exact this | exact this rfl | exact this (.inr rfl) | exact Res.map_ok _ h'
  | str h h' h'' =>
    have := kind h q
    cases q <;> first | exact this | exact this rfl | exact this (.inr rfl) | exact Res.map_ok _ h' | exact Res.map_ok _ h''
  | blob h h' _ => have := kind h q; cases q <;> first | exact this | exact this rfl | exact this (.inl rfl) | exact Res.map_ok _ h'
  | arr c h h' _ _ _ =>
    have := kind h q
    have hb : R.isBlob r = .ok false := h.2.2.2.2.2.1
    cases q <;> first
      | exact this
      | exact this rfl
      | (simp only [Reader.put, Reader.notBlob, hb, Res.ok_bind, h']; rfl)
  | map c h h' h'' _ _ _ =>
    have := kind h q
    cases q <;> first | exact this | exact this rfl | exact this (.inr rfl) | exact Res.map_ok _ h' | exact Res.map_ok _ (h'' _)

/-- A step leads to a position that presents the member or element, if there is one; else it raises. -/
theorem hop_sub (hR : R.Raises) {r : ρ} {v : Val} (ha : R.Agrees r v) (h : Hop) :
    match Val.sub h v with
    | some w => ∃ s, R.hop r h = .ok s ∧ R.Agrees s w
    | none => R.hop r h = .err .deser := by
  have no : ∀ {a b c d e f g i : Bool}, R.Shows r a b c d e f g i →
      (match h with
        | .key _ => g = false → R.hop r h = .err .deser
        | .idx _ => f = true ∨ i = false → R.hop r h = .err .deser : Prop) := by
    intro a b c d e f g i H
    obtain ⟨-, -, -, -, -, n6, n7⟩ := put_not hR id ha H
    cases h with
    | key k => exact fun hh => ((n7 hh).2 k).2
    | idx n => exact fun hh => (n6 hh).2 n
  cases ha with
  | null H => have := no H; cases h <;> first | exact this rfl | exact this (.inr rfl)
  | bool H _ => have := no H; cases h <;> first | exact this rfl | exact this (.inr rfl)
  | int H _ => have := no H.1; cases h <;> first | exact this rfl | exact this (.inr rfl)
  | uint H _ => have := no H.1; cases h <;> first | exact this rfl | exact this (.inr rfl)
  | dbl H _ => have := no H; cases h <;> first | exact this rfl | exact this (.inr rfl)
  | str H _ _ => have := no H; cases h <;> first | exact this rfl | exact this (.inr rfl)
  | blob H _ _ => have := no H; cases h <;> first | exact this rfl | exact this (.inl rfl)
  | @arr _ xs c H _ h2 h3 h4 =>
    have hn := no H
    have hb : R.isBlob r = .ok false := H.2.2.2.2.2.1
    cases h with
    | key k => exact hn rfl
    | idx i =>
      by_cases hi : i < xs.length
      · simp only [Val.sub, List.getElem?_eq_getElem hi]
        exact ⟨c i, by simp only [Reader.hop, Reader.notBlob, hb, Res.ok_bind]; exact h2 i hi, h4 i hi⟩
      · simp only [Val.sub, List.getElem?_eq_none (Nat.le_of_not_lt hi)]
        simp only [Reader.hop, Reader.notBlob, hb, Res.ok_bind]
        exact h3 i (Nat.le_of_not_lt hi)
  | @map _ ms c H _ _ h3 h4 h5 =>
    have hn := no H
    cases h with
    | idx i => exact hn (.inr rfl)
    | key k =>
      cases hf : firstVal ms k with
      | some w =>
        simp only [Val.sub, hf]
        exact ⟨c k, h3 k (firstVal_isSome.2 ⟨w, hf⟩), h5 k w hf⟩
      | none =>
        simp only [Val.sub, hf]
        refine h4 k fun hk => ?_
        obtain ⟨w, hw⟩ := firstVal_isSome.1 hk
        rw [hf] at hw; cases hw

/-! ## Programs -/

/-- The positions held present the values held. -/
def Holding (R : Reader ρ) (rs : List ρ) (vs : List Val) : Prop :=
  rs.length = vs.length ∧ ∀ i (h : i < rs.length) (h' : i < vs.length), R.Agrees rs[i] vs[i]

theorem Holding.held {rs : List ρ} {vs : List Val} (h : Holding R rs vs) {r : ρ} {v : Val} (ha : R.Agrees r v) (i : Nat) :
    R.Agrees (Zer.held r rs i) (Zer.held v vs i) := by
  by_cases hi : i < rs.length
  · have hj : i < vs.length := h.1 ▸ hi
    simp only [Zer.held, List.getD, List.getElem?_eq_getElem hi, List.getElem?_eq_getElem hj, Option.getD_some]
    exact h.2 i hi hj
  · have hj : ¬ i < vs.length := h.1 ▸ hi
    simp only [Zer.held, List.getD, List.getElem?_eq_none (Nat.le_of_not_lt hi), List.getElem?_eq_none (Nat.le_of_not_lt hj),
      Option.getD_none]
    exact ha

theorem Holding.snoc {rs : List ρ} {vs : List Val} (h : Holding R rs vs) {r : ρ} {v : Val} (ha : R.Agrees r v) :
    Holding R (rs ++ [r]) (vs ++ [v]) := by
  refine ⟨by simp [h.1], fun i hi hj => ?_⟩
  by_cases hk : i < rs.length
  · rw [List.getElem_append_left hk, List.getElem_append_left (h.1 ▸ hk)]
    exact h.2 i hk (h.1 ▸ hk)
  · have e : i = rs.length := by simp at hi; omega
    have e' : i = vs.length := by rw [← h.1]; exact e
    rw [List.getElem_append_right (Nat.le_of_not_lt hk), List.getElem_append_right (by omega)]
    simpa using ha

theorem run_tell {α : Type} (hR : R.Raises) (lst : List Bytes → List Bytes) {r : ρ} {v : Val} (ha : R.Agrees r v) (p : Prog α) :
    ∀ (rs : List ρ) (vs : List Val), Holding R rs vs → p.run R lst r rs = .ok (p.tell lst v vs) := by
  induction p with
  | done a => intro _ _ _; rfl
  | ask i q next ih =>
    intro rs vs hs
    have e := put_tell hR lst (hs.held ha i) q
    simp only [Prog.run, Prog.tell, e]
    cases hq : Val.tell lst q (held v vs i) with
    | some a => exact ih (some a) rs vs hs
    | none => exact ih none rs vs hs
  | go i h next ih =>
    intro rs vs hs
    have e := hop_sub hR (hs.held ha i) h
    cases hq : Val.sub h (held v vs i) with
    | some w =>
      rw [hq] at e
      obtain ⟨s, e1, e2⟩ := e
      simp only [Prog.run, Prog.tell, e1, hq]
      exact ih true _ _ (hs.snoc e2)
    | none =>
      rw [hq] at e
      simp only [Prog.run, Prog.tell, e, hq]
      exact ih false rs vs hs

end

/-! ## Values that answer alike -/

theorem Val.tell_canon (lst : List Bytes → List Bytes) (q : Ask) (v : Val) : Val.tell lst q v.canon = Val.tell lst q v := by
  cases v with
  | int i =>
    simp only [Val.canon]
    split
    · rename_i h
      have e : (i.toUInt64.toNat : Int) = i.toInt := Typed.toUInt64_nonneg h
      cases q <;> first | rfl | simp only [Val.tell, e]
    · rfl
  | arr xs => cases q <;> simp only [Val.canon, Val.canonList_eq, Val.tell, List.length_map]
  | map ms =>
    have e : (Val.canonEntries ms).map Prod.fst = ms.map Prod.fst := by
      rw [Val.canonEntries_eq, List.map_map]; rfl
    cases q <;> simp only [Val.canon, Val.tell, e]
  | _ => rfl

theorem Val.sub_canon (h : Hop) (v : Val) : Val.sub h v.canon = (Val.sub h v).map Val.canon := by
  cases v with
  | int i => simp only [Val.canon]; split <;> cases h <;> rfl
  | arr xs => cases h <;> simp [Val.canon, Val.canonList_eq, Val.sub]
  | map ms => cases h <;> simp [Val.canon, Val.sub, firstVal_canonEntries]
  | _ => cases h <;> rfl

theorem held_map {α β : Type} (f : α → β) (r : α) (rs : List α) (i : Nat) : held (f r) (rs.map f) i = f (held r rs i) := by
  simp only [held, List.getD, List.getElem?_map]
  cases rs[i]? <;> rfl

theorem tell_canon {α : Type} (lst : List Bytes → List Bytes) (v : Val) (p : Prog α) :
    ∀ vs : List Val, p.tell lst v.canon (vs.map Val.canon) = p.tell lst v vs := by
  induction p with
  | done a => intro _; rfl
  | ask i q next ih =>
    intro vs
    simp only [Prog.tell, held_map, Val.tell_canon]
    exact ih _ vs
  | go i h next ih =>
    intro vs
    simp only [Prog.tell, held_map, Val.sub_canon]
    cases hq : Val.sub h (held v vs i) with
    | none => exact ih false vs
    | some w => simpa using ih true (vs ++ [w])

/-- Values that differ only in which integers are unsigned give every program the same result. -/
theorem tell_same {α : Type} (lst : List Bytes → List Bytes) {v w : Val} (h : v.Same w) (p : Prog α) :
    p.tell lst v [] = p.tell lst w [] := by
  have h1 := tell_canon lst v p []
  have h2 := tell_canon lst w p []
  rw [← h1, ← h2, show v.canon = w.canon from h]

theorem Val.tell_sortKeys {lst : List Bytes → List Bytes} (hl : ∀ a b : List Bytes, a.Perm b → lst a = lst b) (q : Ask) (v : Val) :
    Val.tell lst q v.sortKeys = Val.tell lst q v := by
  cases v with
  | arr xs => cases q <;> simp only [Val.sortKeys, Val.sortKeysList_eq, Val.tell, List.length_map]
  | map ms =>
    have hp : (((Val.sortKeysEntries ms).mergeSort keyLe).map Prod.fst).Perm (ms.map Prod.fst) := by
      have := (List.mergeSort_perm (Val.sortKeysEntries ms) keyLe).map Prod.fst
      rwa [Val.sortKeysEntries_keys] at this
    cases q <;> first
      | rfl
      | (simp only [Val.sortKeys, Val.tell, hl _ _ hp]; done)
      | (rename_i k; simp only [Val.sortKeys, Val.tell]; exact congrArg (fun b => some (Ans.flag b)) (decide_eq_decide.2 hp.mem_iff))
  | _ => rfl

theorem Val.sub_sortKeys {v : Val} (hd : v.Distinct) (h : Hop) : Val.sub h v.sortKeys = (Val.sub h v).map Val.sortKeys := by
  cases v with
  | arr xs => cases h <;> simp [Val.sortKeys, Val.sortKeysList_eq, Val.sub]
  | map ms =>
    cases h with
    | idx i => rfl
    | key k => simp only [Val.sortKeys, Val.sub, firstVal_sortKeys (show (ms.map Prod.fst).Nodup from hd.1)]
  | _ => cases h <;> rfl

theorem Val.distinct_sub {v w : Val} (hd : v.Distinct) {h : Hop} (hw : Val.sub h v = some w) : w.Distinct := by
  cases v with
  | arr xs =>
    cases h with
    | key k => cases hw
    | idx i => exact (Val.distinctList_iff xs).1 hd w (List.mem_of_getElem? hw)
  | map ms =>
    cases h with
    | idx i => cases hw
    | key k => exact (Val.distinctEntries_iff ms).1 hd.2 _ (firstVal_mem hw)
  | _ => cases h <;> cases hw

theorem held_mem {ρ : Type} (r : ρ) (rs : List ρ) (i : Nat) : held r rs i = r ∨ held r rs i ∈ rs := by
  simp only [held, List.getD]
  cases h : rs[i]? with
  | none => exact .inl rfl
  | some x => exact .inr (List.mem_of_getElem? h)

/-- Programs to which the order of listed keys makes no difference get the same result from the value with its keys in order. -/
theorem tell_sortKeys {α : Type} {lst : List Bytes → List Bytes} (hl : ∀ a b : List Bytes, a.Perm b → lst a = lst b) {v : Val}
    (hd : v.Distinct) (p : Prog α) : ∀ vs : List Val, (∀ w ∈ vs, w.Distinct) →
    p.tell lst v.sortKeys (vs.map Val.sortKeys) = p.tell lst v vs := by
  induction p with
  | done a => intro _ _; rfl
  | ask i q next ih =>
    intro vs hs
    simp only [Prog.tell, held_map, Val.tell_sortKeys hl]
    exact ih _ vs hs
  | go i h next ih =>
    intro vs hs
    have hh : (held v vs i).Distinct := by
      rcases held_mem v vs i with e | e
      · rw [e]; exact hd
      · exact hs _ e
    simp only [Prog.tell, held_map, Val.sub_sortKeys hh]
    cases hq : Val.sub h (held v vs i) with
    | none => exact ih false vs hs
    | some w =>
      have := ih true (vs ++ [w]) (by
        intro x hx
        rcases List.mem_append.1 hx with hx | hx
        · exact hs x hx
        · rw [List.mem_singleton.1 hx]; exact Val.distinct_sub hh hq)
      simpa using this

/-! ## C109 -/

/-- C109, any two readers, at any positions: if they present values that are equal up to which integers are unsigned, every program gets the
same result from both, whatever it asks, wherever it goes, and whatever it catches. It is the result that the value gives; no other
exception and no undefined behaviour ends it. -/
theorem c109_program {ρ σ α : Type} {R : Reader ρ} {S : Reader σ} (hR : R.Raises) (hS : S.Raises) (lst : List Bytes → List Bytes)
    {r : ρ} {s : σ} {v w : Val} (hr : R.Agrees r v) (hs : S.Agrees s w) (h : v.Same w) (p : Prog α) :
    p.run R lst r [] = .ok (p.tell lst v []) ∧ p.run S lst s [] = .ok (p.tell lst v []) := by
  refine ⟨run_tell hR lst hr p [] [] ⟨rfl, fun i h => by simp at h⟩, ?_⟩
  rw [tell_same lst h p]
  exact run_tell hS lst hs p [] [] ⟨rfl, fun i h => by simp at h⟩

/-- C109, written in two formats: the same result from both messages. -/
theorem c109_written {P Q : Proto} {p q : Prop} {D E : Val → Prop} (hP : P.RoundTrips p D) (hQ : Q.RoundTrips q E)
    (rP : P.reader.Raises) (rQ : Q.reader.Raises) (lst : List Bytes → List Bytes) {v : Val} (hD : D v) (hE : E v) {b c : Bytes}
    (hb : P.serialize v = .ok b) (hc : Q.serialize v = .ok c) :
    ∃ r s, P.opn b = .ok r ∧ Q.opn c = .ok s ∧
      ∀ {α : Type} (g : Prog α), g.run P.reader lst r [] = .ok (g.tell lst v []) ∧ g.run Q.reader lst s [] = .ok (g.tell lst v []) := by
  obtain ⟨r, h1, h2⟩ := hP v b hD hb
  obtain ⟨s, h3, h4⟩ := hQ v c hE hc
  exact ⟨r, s, h1, h3, fun g => c109_program rP rQ lst (h2.weaken (fun h => h.elim)) (h4.weaken (fun h => h.elim)) rfl g⟩

/-- C109, translated: what a program gets from a message it also gets from its translation. -/
theorem c109_translated {P Q : Proto} {p q : Prop} {D E : Val → Prop} (hP : P.RoundTrips p D) (hQ : Q.RoundTrips q E)
    (rP : P.reader.Raises) (rQ : Q.reader.Raises) (lst : List Bytes → List Bytes) {v : Val} (hd : v.Distinct) (hD : D v)
    (hE : ∀ v' : Val, v'.Same v → E v') {b : Bytes} (hb : P.serialize v = .ok b) {f : Nat} (hf : v.depth ≤ f) :
    ∃ r, P.opn b = .ok r ∧ ∀ s, Q.translate P.reader f r = .ok s →
      ∀ {α : Type} (g : Prog α), g.run Q.reader lst s [] = g.run P.reader lst r [] := by
  obtain ⟨r, h1, h2⟩ := c27_translate_pair P Q hP hQ hd hD hE hb
  refine ⟨r, h1, fun s hs α g => ?_⟩
  obtain ⟨v', -, -, -, h4⟩ := h2 f hf
  obtain ⟨r', k1, k2⟩ := hP v b hD hb
  rw [h1] at k1; cases k1
  obtain ⟨e1, e2⟩ := c109_program rP rQ lst (k2.weaken (fun h => h.elim)) (h4 s hs).1 rfl g
  rw [e1, e2]

/-- C109, Flex, keys in any order: programs that do not depend on the order in which keys are listed. -/
theorem c109_flex {L : Flex.Lib} (H : L.Law) (dbg : Bool) {lst : List Bytes → List Bytes}
    (hl : ∀ a b : List Bytes, a.Perm b → lst a = lst b) {v : Val} (hd : v.Distinct) (hn : v.NulFree) (hf : Flex.Fits v) :
    ∃ b r, (Flex.proto L dbg).serialize v = .ok b ∧ Flex.opn b = .ok r ∧
      ∀ {α : Type} (g : Prog α), g.run Flex.reader lst r [] = .ok (g.tell lst v []) := by
  obtain ⟨b, r, h1, h2, h3⟩ := Flex.c35_flex_round_trip H dbg hd hn hf
  refine ⟨b, r, h1, h2, fun g => ?_⟩
  rw [run_tell Flex.raises lst (h3.weaken (fun h => h.elim)) g [] [] ⟨rfl, fun i h => by simp at h⟩]
  exact congrArg _ (tell_sortKeys hl hd g [] (by simp))

/-- C109, all five formats at once. -/
theorem c109_formats {T : Json.Text} (hT : T.Law) {L : Flex.Lib} (hL : L.Law) {utf8 : Bytes → Bool} {maxDepth fuel : Nat} {dbg dbg' : Bool}
    {lst : List Bytes → List Bytes} (hl : ∀ a b : List Bytes, a.Perm b → lst a = lst b) {v : Val} (hd : v.Distinct)
    (hn : v.NulFree) (hf : Flex.Fits v) (hs : v.Sized) (hu : v.Below (2 ^ 32 - 5)) (hp : Json.Plain v) (hk : Json.KeysOk v)
    (hc : Cbor.Dom utf8 maxDepth fuel v) {z m c j x : Bytes} (hz : Zera.proto.serialize v = .ok z) (hm : MsgPack.proto.serialize v = .ok m)
    (hcb : (Cbor.proto utf8 maxDepth false fuel).serialize v = .ok c) (hj : (Json.proto T dbg).serialize v = .ok j)
    (hx : (Flex.proto L dbg').serialize v = .ok x) :
    ∃ rz rm rc rj rx, Zera.proto.opn z = .ok rz ∧ MsgPack.proto.opn m = .ok rm ∧ (Cbor.proto utf8 maxDepth false fuel).opn c = .ok rc ∧
      (Json.proto T dbg).opn j = .ok rj ∧ (Flex.proto L dbg').opn x = .ok rx ∧
      ∀ {α : Type} (g : Prog α), g.run Zera.reader lst rz [] = .ok (g.tell lst v []) ∧ g.run MsgPack.reader lst rm [] = .ok (g.tell lst v []) ∧
        g.run (Cbor.reader false fuel) lst rc [] = .ok (g.tell lst v []) ∧ g.run Json.reader lst rj [] = .ok (g.tell lst v []) ∧
        g.run Flex.reader lst rx [] = .ok (g.tell lst v []) := by
  obtain ⟨rz, rm, z1, m1, e1⟩ := c109_written Zera.proto_roundTrips MsgPack.proto_roundTrips Zera.raises MsgPack.raises lst trivial ⟨hs, hu⟩ hz hm
  obtain ⟨rc, rj, c1, j1, e2⟩ := c109_written Cbor.proto_roundTrips (Json.proto_roundTrips hT dbg) (Cbor.raises false fuel) Json.raises lst hc
    ⟨hp, hk⟩ hcb hj
  obtain ⟨x', rx, h1, h2, e3⟩ := c109_flex hL dbg' hl hd hn hf
  rw [hx] at h1; cases h1
  exact ⟨rz, rm, rc, rj, rx, z1, m1, c1, j1, h2, fun g => ⟨(e1 g).1, (e1 g).2, (e2 g).1, (e2 g).2, e3 g⟩⟩

/-! ## Questions that do not carry over, and an example -/

/-- C109 is false for four questions asked as they stand in the concept. (1) `isInt`: of the signed number 200, yes in ZERA, no in MessagePack.
(2) `asInt64`: of the unsigned number 5, it raises in Flex and not in MessagePack. (3) `isArray`: of a blob, yes in JSON, no in MessagePack.
(4) The order of `mapKeys`: Flex sorts. -/
theorem c109_refuted {T : Json.Text} (hT : T.Law) (dbg dbg' : Bool) :
    (∃ z m rz rm, Zera.proto.serialize (.int 200) = .ok z ∧ MsgPack.proto.serialize (.int 200) = .ok m ∧ Zera.proto.opn z = .ok rz ∧
      MsgPack.proto.opn m = .ok rm ∧ Zera.reader.isInt rz = .ok true ∧ MsgPack.reader.isInt rm = .ok false) ∧
    (∃ x m rx rm, (Flex.proto Flex.std dbg').serialize (.uint 5) = .ok x ∧ MsgPack.proto.serialize (.uint 5) = .ok m ∧
      (Flex.proto Flex.std dbg').opn x = .ok rx ∧ MsgPack.proto.opn m = .ok rm ∧ Flex.reader.asInt64 rx = .err .deser ∧
      MsgPack.reader.asInt64 rm = .ok 5) ∧
    (∃ j m rj rm, (Json.proto T dbg).serialize (.blob []) = .ok j ∧ MsgPack.proto.serialize (.blob []) = .ok m ∧
      (Json.proto T dbg).opn j = .ok rj ∧ MsgPack.proto.opn m = .ok rm ∧ Json.reader.isArray rj = .ok true ∧
      MsgPack.reader.isArray rm = .ok false) ∧
    ∃ x m rx rm, (Flex.proto Flex.std dbg').serialize routeVal = .ok x ∧ MsgPack.proto.serialize routeVal = .ok m ∧
      (Flex.proto Flex.std dbg').opn x = .ok rx ∧ MsgPack.proto.opn m = .ok rm ∧ Flex.reader.mapKeys rx = .ok [[97], [98]] ∧
      MsgPack.reader.mapKeys rm = .ok [[98], [97]] := by
  refine ⟨?_, ?_, ?_, ?_⟩
  · obtain ⟨z, hz⟩ : ∃ z, Zera.proto.serialize (.int 200) = .ok z := ⟨_, rfl⟩
    obtain ⟨r, h1, h2⟩ := Zera.proto_roundTrips (.int 200) z trivial hz
    refine ⟨z, _, r, _, hz, rfl, h1, rfl, ?_, by decide⟩
    cases h2 with
    | int _ h => exact (h trivial).1
  · obtain ⟨x, r, h1, h2, h3⟩ := Flex.c35_flex_round_trip Flex.std_law dbg' (v := .uint 5) trivial trivial (by unfold Flex.Fits; decide)
    refine ⟨x, _, r, _, h1, rfl, h2, rfl, ?_, by decide⟩
    cases h3 with
    | uint _ h => exact ((Flex.c55_flex_wrong_kind r).2.1 (Res.ok.inj (h trivial).1)).1
  · obtain ⟨b, h1, h2⟩ := (Json.serialize_ok_iff (dbg := dbg) hT (v := .blob []) trivial).1 trivial
    exact ⟨b, _, _, _, h1, rfl, by simp only [Json.proto, Json.opn, h2]; rfl, rfl, rfl, by decide⟩
  · obtain ⟨x, r, h1, h2, h3⟩ := Flex.c35_flex_round_trip Flex.std_law dbg' (v := routeVal)
      (by simp [routeVal, Val.Distinct, Val.distinctEntries]) (by simp [routeVal, Val.NulFree, Val.Each, Val.eachEntries])
      (by unfold Flex.Fits; decide)
    refine ⟨x, _, r, _, h1, rfl, h2, rfl, ?_, by decide⟩
    have e : routeVal.sortKeys = .map [([97], .uint 5), ([98], .int 200)] := by
      simp only [routeVal, Val.sortKeys, Val.sortKeysEntries]
      simp [List.mergeSort, keyLe, List.MergeSort.Internal.splitInTwo,
        show ¬ ([98] : Bytes) ≤ [97] by decide]
    rw [e] at h3
    cases h3 with
    | map _ _ h _ _ _ _ => exact h

/-- A program: the sum of the numbers under "b" and "a"; -1 if something is missing. -/
def sumProg : Prog Int :=
  .go 0 (.key [98]) fun ok => if ok then .ask 0 .asNum fun x => .go 9 (.key [97]) fun ok => if ok then .ask 1 .asNum fun y =>
    match x, y with
    | some (.num x), some (.num y) => .done (x + y)
    | _, _ => .done (-1)
  else .done (-1) else .done (-1)

/-- C109, an instance: `{"b": 200, "a": 5u}` meets what `c109_formats` asks, and the program gets 205 from each of the five messages. -/
theorem c109_example {T : Json.Text} (hT : T.Law) :
    ∃ rz rm rc rj rx, (Zera.proto.serialize routeVal >>= Zera.proto.opn) = .ok rz ∧ (MsgPack.proto.serialize routeVal >>= MsgPack.proto.opn) = .ok rm ∧
      ((Cbor.proto (fun _ => true) 4 false 64).serialize routeVal >>= (Cbor.proto (fun _ => true) 4 false 64).opn) = .ok rc ∧
      ((Json.proto T true).serialize routeVal >>= (Json.proto T true).opn) = .ok rj ∧
      ((Flex.proto Flex.std true).serialize routeVal >>= (Flex.proto Flex.std true).opn) = .ok rx ∧
      sumProg.run Zera.reader (fun _ => []) rz [] = .ok 205 ∧ sumProg.run MsgPack.reader (fun _ => []) rm [] = .ok 205 ∧
      sumProg.run (Cbor.reader false 64) (fun _ => []) rc [] = .ok 205 ∧ sumProg.run Json.reader (fun _ => []) rj [] = .ok 205 ∧
      sumProg.run Flex.reader (fun _ => []) rx [] = .ok 205 := by
  have hd : routeVal.Distinct := by simp [routeVal, Val.Distinct, Val.distinctEntries]
  have hn : routeVal.NulFree := by simp [routeVal, Val.NulFree, Val.Each, Val.eachEntries]
  have hf : Flex.Fits routeVal := by unfold Flex.Fits; decide
  have hs : routeVal.Sized := by simp [routeVal, Val.Sized, Val.sizedEntries]
  have hu : routeVal.Below (2 ^ 32 - 5) := by simp [routeVal, Val.Below, Val.Below.belowEntries]
  have hk : Json.KeysOk routeVal := by simp [routeVal, Json.KeysOk, Val.Each, Val.eachEntries, Json.KeyOk]
  have hp : Json.Plain routeVal := by simp [routeVal, Json.Plain, Val.Each, Val.eachEntries]
  have ht : Json.Textual T routeVal := by
    simp [routeVal, Json.Textual, Val.Each, Val.eachEntries]
    exact ⟨hT.ascii _ (by decide), hT.ascii _ (by decide)⟩
  obtain ⟨c, hc⟩ : ∃ c, c = Cbor.encB routeVal := ⟨_, rfl⟩
  have hl : c.length = 8 := by rw [hc]; decide +kernel
  have hcs : (Cbor.proto (fun _ => true) 4 false 64).serialize routeVal = .ok c := by
    rw [hc]; exact Cbor.serialize_eq (by simp [routeVal, Val.TextOk, Val.Each, Val.eachEntries]) (by decide)
  have hc' : Cbor.Dom (fun _ => true) 4 64 routeVal := by
    refine ⟨by simp [routeVal, Val.Small, Val.Each, Val.eachEntries], fun b hb => ?_⟩
    rw [hcs] at hb; cases hb
    omega
  obtain ⟨z, hz⟩ : ∃ z, Zera.proto.serialize routeVal = .ok z := ⟨_, rfl⟩
  obtain ⟨j, hj, -⟩ := (Json.serialize_ok_iff (dbg := true) hT (v := routeVal) hk).1 ht
  obtain ⟨x, -, hx, -⟩ := Flex.c35_flex_round_trip Flex.std_law true hd hn hf
  obtain ⟨rz, rm, rc, rj, rx, h1, h2, h3, h4, h5, h6⟩ := c109_formats hT Flex.std_law (lst := fun _ => []) (fun _ _ _ => rfl) hd hn hf hs hu hp hk hc'
    hz rfl hcs hj hx
  obtain ⟨k1, k2, k3, k4, k5⟩ := h6 sumProg
  exact ⟨rz, rm, rc, rj, rx, by rw [hz]; exact h1, h2, by rw [hcs]; exact h3, by rw [hj]; exact h4, by rw [hx]; exact h5, k1, k2, k3, k4, k5⟩

end Zer
