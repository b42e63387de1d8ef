import Verif.Props.Tensor
import Verif.Props.Errors

/-!
# C103: tensors in messages that nobody vouches for

C38 says that tensor code adds nothing undefined to the accessors; C102 which documents are tensors. Here: what reading a tensor can do on
bytes of any origin, protocol by protocol.
-/

namespace Zer.Tensor

variable {ρ : Type}

/-- Positions at which the accessors that tensors use return or raise `DeserializationError`, and from which elements lead to such
positions; `Q` is what is known of the bytes of blobs. -/
structure Tame (R : TReader ρ) (good : ρ → Prop) (Q : Bytes → Prop) : Prop where
  isArray : ∀ r, good r → (R.isArray r).Clean
  arraySize : ∀ r, good r → (R.arraySize r).Clean
  getIdx : ∀ r i, good r → (R.getIdx r i).Clean
  next : ∀ r i e, good r → R.getIdx r i = .ok e → good e
  isInt : ∀ r, good r → (R.isInt r).Clean
  isUInt : ∀ r, good r → (R.isUInt r).Clean
  asInt64 : ∀ r, good r → (R.asInt64 r).Clean
  asUInt64 : ∀ r, good r → (R.asUInt64 r).Clean
  asIntN : ∀ w r, good r → (R.asIntN w r).Clean
  isBlob : ∀ r, good r → (R.isBlob r).Clean
  asBlob : ∀ r, good r → (R.asBlob r).Clean
  bytes : ∀ r s, good r → R.asBlob r = .ok s → Q s

open Res in
theorem Clean.ite {α : Type} {c : Prop} [Decidable c] {x y : Res α} (hx : x.Clean) (hy : y.Clean) : (if c then x else y).Clean := by
  split <;> assumption

theorem isTensor_clean {R : TReader ρ} {good : ρ → Prop} {Q : Bytes → Prop} (C : Tame R good Q) {r : ρ} (hr : good r) (dt : DType) :
    (isTensor R dt r).Clean := by
  unfold isTensor
  refine .bind (C.isArray r hr) fun _ _ => Clean.ite (.pure _) (.bind (C.arraySize r hr) fun _ _ => Clean.ite (.pure _) ?_)
  refine .bind (C.getIdx r 0 hr) fun e0 h0 => .bind (C.isInt e0 (C.next r 0 e0 hr h0)) fun _ _ => Clean.ite (.pure _) ?_
  refine .bind (C.getIdx r 0 hr) fun e0 h0 => .bind (C.asIntN 8 e0 (C.next r 0 e0 hr h0)) fun _ _ => Clean.ite (.pure _) ?_
  refine .bind (C.getIdx r 1 hr) fun e1 h1 => .bind (C.isArray e1 (C.next r 1 e1 hr h1)) fun _ _ => Clean.ite (.pure _) ?_
  exact .bind (C.getIdx r 2 hr) fun e2 h2 => C.isBlob e2 (C.next r 2 e2 hr h2)

theorem tensorShape_clean {R : TReader ρ} {good : ρ → Prop} {Q : Bytes → Prop} (C : Tame R good Q) {r : ρ} (hr : good r) :
    (tensorShape R.toReader r).Clean := by
  have elem : ∀ e, good e → (shapeElem R.toReader e).Clean := by
    intro e he
    unfold shapeElem
    refine .bind (C.isUInt e he) fun _ _ => Clean.ite ?_ ?_
    · exact .bind (C.asUInt64 e he) fun _ _ => Clean.ite .deser (.pure _)
    · exact .bind (C.isInt e he) fun _ _ => Clean.ite (.bind (C.asInt64 e he) fun _ _ => Clean.ite .deser (Clean.ite .deser (.pure _))) .deser
  have loop : ∀ n i, (shapeLoop R.toReader r n i).Clean := by
    intro n
    induction n with
    | zero => exact fun i => .pure _
    | succ n ih =>
      intro i
      exact .bind (C.getIdx r i hr) fun e he => .bind (elem e (C.next r i e hr he)) fun _ _ => .bind (ih _) fun _ _ => .pure _
  exact .bind (C.isArray r hr) fun b _ => .bind (.require _) fun _ _ => .bind (C.arraySize r hr) fun n _ => loop n 0

/-- What may happen when a view is made: `std::bad_alloc` only for a reason `B`, and a view without a copy only of bytes of `Q`. -/
def Fair (B : Prop) (Q : Bytes → Prop) (x : Res View) : Prop :=
  (∃ t, x = .ok t ∧ (t.zeroCopy = true → Q t.bytes)) ∨ x = .err .deser ∨ x = .err .badAlloc ∧ B

theorem Fair.deser {B : Prop} {Q : Bytes → Prop} : Fair B Q (.err .deser) := .inr (.inl rfl)
theorem Fair.ite {B : Prop} {Q : Bytes → Prop} {c : Prop} [Decidable c] {x y : Res View} (hx : c → Fair B Q x) (hy : ¬ c → Fair B Q y) :
    Fair B Q (if c then x else y) := by
  by_cases h : c
  · rw [if_pos h]; exact hx h
  · rw [if_neg h]; exact hy h
theorem Fair.bind {B : Prop} {Q : Bytes → Prop} {α : Type} {x : Res α} {f : α → Res View} (hx : x.Clean) (hf : ∀ a, x = .ok a → Fair B Q (f a)) :
    Fair B Q (x >>= f) := by
  rcases hx with ⟨a, rfl⟩ | rfl
  · exact hf a rfl
  · exact .deser

theorem makeView_fair {Q : Bytes → Prop} {span : Bool} {addr : Nat} {dt : DType} {shape : List Nat} {count : Nat} {bytes : Bytes}
    (hl : bytes.length = count * dt.size % 2 ^ 64) (hQ : Q bytes) : Fair (2 ^ 64 ≤ count * dt.size) Q (makeView span addr dt shape count bytes) := by
  have ho : (∃ b, ownedCopy count dt.size bytes = .ok b) ∨ ownedCopy count dt.size bytes = .err .badAlloc ∧ 2 ^ 64 ≤ count * dt.size := by
    unfold ownedCopy
    by_cases h : count * dt.size < 2 ^ 64
    · rw [if_pos h, if_pos (hl ▸ Nat.mod_le _ _)]; exact .inl ⟨_, rfl⟩
    · rw [if_neg h]; exact .inr ⟨rfl, by omega⟩
  have hc : ∀ reason, Fair (2 ^ 64 ≤ count * dt.size) Q (ownedCopy count dt.size bytes >>= fun own =>
      pure ⟨shape, count, own, false, reason, dt.align, addr, bytes.length⟩) := by
    intro reason
    rcases ho with ⟨b, hb⟩ | ⟨hb, h⟩
    · rw [hb]; exact .inl ⟨_, rfl, fun k => (by cases k)⟩
    · rw [hb]; exact .inr (.inr ⟨rfl, h⟩)
  unfold makeView
  exact Fair.ite (fun _ => hc _) fun _ => Fair.ite (fun _ => hc _) fun _ => .inl ⟨_, rfl, fun _ => hQ⟩

/-- The dimensions found at a position need 2^64 bytes or more. -/
def Vast (R : TReader ρ) (dt : DType) (r : ρ) : Prop :=
  ∃ e dims, R.getIdx r 1 = .ok e ∧ tensorShape R.toReader e = .ok dims ∧ 2 ^ 64 ≤ dims.foldr (· * ·) 1 * dt.size

/-- C103, for any reader at any position from which the accessors are safe: asking returns or raises `DeserializationError`; reading returns
a view, raises `DeserializationError`, or raises `std::bad_alloc` because the dimensions need 2^64 bytes; a view that is no copy is one of
bytes of the message. -/
theorem c103_outcomes {R : TReader ρ} {good : ρ → Prop} {Q : Bytes → Prop} (C : Tame R good Q) {r : ρ} (hr : good r) (dt : DType) :
    (isTensor R dt r).Clean ∧ (tensorShape R.toReader r).Clean ∧ (∀ D, Fair (Vast R dt r) Q (asXTensorView R dt D r)) ∧
      ∀ nr nc, Fair (Vast R dt r) Q (asEigenMatrixView R dt nr nc r) := by
  have mono : ∀ {B B' : Prop} {x}, Fair B Q x → (B → B') → Fair B' Q x := by
    intro B B' x h k
    rcases h with h | h | ⟨h, h'⟩
    · exact .inl h
    · exact .inr (.inl h)
    · exact .inr (.inr ⟨h, k h'⟩)
  refine ⟨isTensor_clean C hr dt, tensorShape_clean C hr, fun D => ?_, fun nr nc => ?_⟩
  · unfold asXTensorView
    refine .bind (isTensor_clean C hr dt) fun t _ => .bind (.require _) fun _ _ => ?_
    refine .bind (C.getIdx r 0 hr) fun e0 h0 => .bind (C.asIntN 32 e0 (C.next r 0 e0 hr h0)) fun _ _ => ?_
    refine .ite (fun _ => .deser) fun _ => ?_
    refine .bind (C.getIdx r 1 hr) fun e1 h1 => .bind (tensorShape_clean C (C.next r 1 e1 hr h1)) fun sh hsh => ?_
    refine .ite (fun _ => .deser) fun _ => ?_
    refine .bind (C.getIdx r 2 hr) fun e2 h2 => .bind (C.asBlob e2 (C.next r 2 e2 hr h2)) fun bytes hb => ?_
    rcases c41_count_product sh with ⟨n, k1, k2, -⟩ | k
    · rw [k1]
      refine .ite (fun _ => .deser) fun hl => mono (makeView_fair (Classical.not_not.1 hl) (C.bytes e2 _ (C.next r 2 e2 hr h2) hb)) fun hv => ?_
      exact ⟨e1, sh, h1, hsh, k2 ▸ hv⟩
    · rw [k]; exact .deser
  · unfold asEigenMatrixView
    refine .bind (isTensor_clean C hr dt) fun t _ => .bind (.require _) fun _ _ => ?_
    refine .bind (C.getIdx r 0 hr) fun e0 h0 => .bind (C.asIntN 32 e0 (C.next r 0 e0 hr h0)) fun _ _ => ?_
    refine .ite (fun _ => .deser) fun _ => ?_
    refine .bind (C.getIdx r 1 hr) fun e1 h1 => .bind (tensorShape_clean C (C.next r 1 e1 hr h1)) fun sh hsh => ?_
    match sh, hsh with
    | [rows, cols], hsh =>
      refine .ite (fun _ => .deser) fun _ => .ite (fun _ => .deser) fun _ => ?_
      refine .bind (C.getIdx r 2 hr) fun e2 h2 => .bind (C.asBlob e2 (C.next r 2 e2 hr h2)) fun bytes hb => ?_
      refine .ite (fun _ => .deser) fun hl => mono (makeView_fair ?_ (C.bytes e2 _ (C.next r 2 e2 hr h2) hb)) fun hv => ?_
      · rw [Classical.not_not.1 hl]; exact Nat.mod_mul_mod ..
      · exact ⟨e1, _, h1, hsh, by simpa using hv⟩
    | [], _ => exact .deser
    | [_], _ => exact .deser
    | _ :: _ :: _ :: _, _ => exact .deser

/-! ## The protocols -/

/-- ZERA: any message below 4 GiB - 20, at any position. -/
theorem zera_tame (addr : zera.ρ → Nat) {b : Bytes} (hb : b.length < 2 ^ 32 - 20) {v : Zera.View} (h : Zera.initFrom b = .ok v) :
    Tame (zera.treader addr) (fun w => Zera.reader.Reach v w) (fun s => ∃ p, At b p s) := by
  have K : ∀ w, Zera.reader.Reach v w → Zera.AllClean w := fun w hw => Zera.c04_zera_reader_safe_partial hb h hw
  exact ⟨fun r hr => (K r hr).isArray, fun r hr => (K r hr).arraySize, fun r i hr => (K r hr).getIdx i, fun r i e hr he => .idx i hr he,
    fun r hr => (K r hr).isInt, fun r hr => (K r hr).isUInt, fun r hr => (K r hr).asInt64, fun r hr => (K r hr).asUInt64,
    fun w r hr => (K r hr).asIntN w, fun r hr => (K r hr).isBlob, fun r hr => (K r hr).asBlob, fun r s hr hs =>
      let ⟨p, hp, _⟩ := Zera.c06_zera_blob_view h hr hs; ⟨p, hp⟩⟩

/-- MessagePack: any complete message, with or without bytes after it. -/
theorem msgpack_tame (addr : msgpack.ρ → Nat) {b : Bytes} (h : MsgPack.Elem (2 ^ 32 - 5) b) (t : Bytes) :
    Tame (msgpack.treader addr) (fun w => MsgPack.reader.Reach (b ++ t) w) (fun s => ∃ p, At (b ++ t) p s) := by
  have K : ∀ w, MsgPack.reader.Reach (b ++ t) w → MsgPack.AllClean w := fun w hw => MsgPack.c18_msgpack_reader_safe_partial h t hw
  exact ⟨fun r hr => .ok _, fun r hr => (K r hr).arraySize, fun r i hr => (K r hr).getIdx i, fun r i e hr he => .idx i hr he,
    fun r hr => .ok _, fun r hr => .ok _, fun r hr => (K r hr).asInt64, fun r hr => (K r hr).asUInt64,
    fun w r hr => (K r hr).asIntN w, fun r hr => .ok _, fun r hr => (K r hr).asBlob, fun r s hr hs =>
      (MsgPack.c56_msgpack_views_inside hr).2.2 s hs⟩

/-- CBOR: any bytes in which no string announces nearly 2^64 bytes. -/
theorem cbor_tame (utf8 : Bytes → Bool) (maxDepth : Nat) {f : Nat} (addr : (cbor utf8 maxDepth f).ρ → Nat) {b : Bytes} (hn : Cbor.NoHuge b)
    (hv : b.length < 2 ^ 63) (hf : b.length < f) :
    Tame ((cbor utf8 maxDepth f).treader addr) (fun w => (Cbor.reader false f).Reach ⟨b, 0⟩ w) (fun s => ∃ p, At b p s) := by
  have K := fun w (hw : (Cbor.reader false f).Reach ⟨b, 0⟩ w) => Cbor.c24_cbor_checked_partial hn hv hf hw
  have S := Cbor.c24_cbor_scalars
  exact ⟨fun r _ => (S r).1.2.2.2.2.2.2.2.2, fun r hr => (K r hr).2.2.2.2.2.2.1, fun r i hr => (K r hr).2.2.2.2.2.2.2.1 i,
    fun r i e hr he => .idx i hr he, fun r _ => (S r).1.2.2.1, fun r _ => (S r).1.2.2.2.1, fun r _ => (S r).2.2.1, fun r _ => (S r).2.2.2.1,
    fun w r _ => (S r).2.2.2.2.1 w, fun r _ => (S r).1.2.2.2.2.2.2.1, fun r hr => (K r hr).2.2.2.2.1, fun r s hr hs =>
      (Cbor.c58_cbor_views_partial hr).2.1 s hs⟩

/-- JSON: any text that is read at all. Blobs are copies. -/
theorem json_tame (X : Json.Text) (dbg : Bool) (addr : (json X dbg).ρ → Nat) : Tame ((json X dbg).treader addr) (fun _ => True) (fun _ => True) := by
  have i64 : ∀ v, (Json.asInt64 v).Clean := fun v => by cases v <;> first | exact .inl ⟨_, rfl⟩ | exact .inr rfl
  refine ⟨fun r _ => .ok _, fun r _ => ?_, fun r i _ => ?_, fun _ _ _ _ _ => trivial, fun r _ => .ok _, fun r _ => .ok _, fun r _ => i64 r, fun r _ => ?_,
    fun w r _ => .bind (i64 r) fun _ _ => .pure _, fun r _ => ?_, fun r _ => Json.asBlob_clean r, fun _ _ _ _ => trivial⟩
  · show (Json.arraySize r).Clean
    cases r <;> first | exact .inl ⟨_, rfl⟩ | exact .inr rfl
  · show (Json.getIdx r i).Clean
    cases r with
    | arr xs => simp only [Json.getIdx]; split <;> first | exact .inl ⟨_, rfl⟩ | exact .inr rfl
    | _ => exact .inr rfl
  · show (Json.asUInt64 r).Clean
    cases r <;> first | exact .inl ⟨_, rfl⟩ | exact .inr rfl
  · show (Json.isBlob r).Clean
    rcases Json.isBlob_returns r with h | h <;> exact .inl ⟨_, h⟩

/-- C103 for ZERA: any message of another writer, of a broken or of a hostile one. -/
theorem c103_zera_partial (addr : zera.ρ → Nat) {b : Bytes} (hb : b.length < 2 ^ 32 - 20) {v w : Zera.View} (h : Zera.initFrom b = .ok v)
    (hw : Zera.reader.Reach v w) (dt : DType) (D : Option Nat) :
    (isTensor (zera.treader addr) dt w).Clean ∧ Fair (Vast (zera.treader addr) dt w) (fun s => ∃ p, At b p s) (asXTensorView (zera.treader addr) dt D w) ∧
      ∀ nr nc, Fair (Vast (zera.treader addr) dt w) (fun s => ∃ p, At b p s) (asEigenMatrixView (zera.treader addr) dt nr nc w) :=
  let ⟨h1, _, h2, h3⟩ := c103_outcomes (zera_tame addr hb h) hw dt
  ⟨h1, h2 D, h3⟩

/-- C103 for MessagePack: any complete message. Missing: truncated ones, `c103_msgpack_refuted`. -/
theorem c103_msgpack_partial (addr : msgpack.ρ → Nat) {b : Bytes} (h : MsgPack.Elem (2 ^ 32 - 5) b) (t : Bytes) {w : Bytes}
    (hw : MsgPack.reader.Reach (b ++ t) w) (dt : DType) (D : Option Nat) :
    (isTensor (msgpack.treader addr) dt w).Clean ∧ Fair (Vast (msgpack.treader addr) dt w) (fun s => ∃ p, At (b ++ t) p s) (asXTensorView (msgpack.treader addr) dt D w) ∧
      ∀ nr nc, Fair (Vast (msgpack.treader addr) dt w) (fun s => ∃ p, At (b ++ t) p s) (asEigenMatrixView (msgpack.treader addr) dt nr nc w) :=
  let ⟨h1, _, h2, h3⟩ := c103_outcomes (msgpack_tame addr h t) hw dt
  ⟨h1, h2 D, h3⟩

/-- C103 for CBOR: any bytes in which no string announces nearly 2^64 bytes. Missing: these, `c103_cbor_refuted`. -/
theorem c103_cbor_partial (utf8 : Bytes → Bool) (maxDepth : Nat) {f : Nat} (addr : (cbor utf8 maxDepth f).ρ → Nat) {b : Bytes} (hn : Cbor.NoHuge b)
    (hv : b.length < 2 ^ 63) (hf : b.length < f) {w : Cbor.View} (hw : (Cbor.reader false f).Reach ⟨b, 0⟩ w) (dt : DType) (D : Option Nat) :
    (isTensor ((cbor utf8 maxDepth f).treader addr) dt w).Clean ∧
      Fair (Vast ((cbor utf8 maxDepth f).treader addr) dt w) (fun s => ∃ p, At b p s) (asXTensorView ((cbor utf8 maxDepth f).treader addr) dt D w) ∧
      ∀ nr nc, Fair (Vast ((cbor utf8 maxDepth f).treader addr) dt w) (fun s => ∃ p, At b p s) (asEigenMatrixView ((cbor utf8 maxDepth f).treader addr) dt nr nc w) :=
  let ⟨h1, _, h2, h3⟩ := c103_outcomes (cbor_tame utf8 maxDepth addr hn hv hf) hw dt
  ⟨h1, h2 D, h3⟩

/-- C103 for JSON: any text that is read at all, at any position, and no view is without a copy. -/
theorem c103_json (X : Json.Text) (dbg : Bool) (addr : (json X dbg).ρ → Nat) (w : Val) (dt : DType) (D : Option Nat) :
    (isTensor ((json X dbg).treader addr) dt w).Clean ∧ Fair (Vast ((json X dbg).treader addr) dt w) (fun _ => True) (asXTensorView ((json X dbg).treader addr) dt D w) ∧
      (∀ nr nc, Fair (Vast ((json X dbg).treader addr) dt w) (fun _ => True) (asEigenMatrixView ((json X dbg).treader addr) dt nr nc w)) ∧
      ∀ t, asXTensorView ((json X dbg).treader addr) dt D w = .ok t → t.zeroCopy = false := by
  obtain ⟨h1, -, h2, h3⟩ := c103_outcomes (json_tame X dbg addr) (r := w) trivial dt
  refine ⟨h1, h2 D, h3, fun t ht => ?_⟩
  obtain ⟨e2, blob, -, -, -, -, -, k, -⟩ := c39_xtensor_zero_copy ht
  cases hz : t.zeroCopy with
  | false => rfl
  | true => exact absurd (k.1 hz).1 Bool.false_ne_true

/-- `std::bad_alloc` does happen: a JSON text of a few bytes announces 2^61 doubles. -/
example (X : Json.Text) (dbg : Bool) : asXTensorView ((json X dbg).treader fun _ => 0) .f64 none
    (.arr [.int 11, .arr [.uint (2 ^ 31), .uint (2 ^ 30)], .arr [.str Json.blobTag, .str [], .str Json.blobEncoding]]) = .err .badAlloc := by
  have : asXTensorView (⟨Json.reader, Json.asIntN, false, fun _ => 0⟩ : TReader Val) .f64 none
    (.arr [.int 11, .arr [.uint (2 ^ 31), .uint (2 ^ 30)], .arr [.str Json.blobTag, .str [], .str Json.blobEncoding]]) = .err .badAlloc := by decide +kernel
  exact this

/-- The hypotheses of the CBOR theorem are met by a tensor cut off in its dimensions, and reading it raises. -/
example (utf8 : Bytes → Bool) (maxDepth : Nat) : Cbor.NoHuge [0x83, 0x01, 0x82, 0x02] ∧
    asXTensorView ((cbor utf8 maxDepth 9).treader fun _ => 0) .i16 none ⟨[0x83, 0x01, 0x82, 0x02], 0⟩ = .err .deser := by
  constructor
  · intro p n _ h
    exfalso
    have : 9 ≤ [0x83, 0x01, 0x82, 0x02].length := by
      rcases h with h | h <;>
      · have := h.bound
        simp only [List.length_cons, MsgPack.be_length] at this ⊢
        omega
    exact absurd this (by decide)
  · have : asXTensorView (⟨Cbor.reader false 9, Cbor.View.asIntN, true, fun _ => 0⟩ : TReader Cbor.View) .i16 none ⟨[0x83, 0x01, 0x82, 0x02], 0⟩ = .err .deser := by
      decide +kernel
    exact this

/-- C103 is false of MessagePack: a tensor of two elements whose last three bytes are missing is taken beyond its end even by asking. -/
theorem c103_msgpack_refuted (addr : msgpack.ρ → Nat) : isTensor (msgpack.treader addr) .i16 [0x93, 0x01, 0x91, 0x02, 0xc4, 0x04, 0x01] = .ub ∧
    asXTensorView (msgpack.treader addr) .i16 none [0x93, 0x01, 0x91, 0x02, 0xc4, 0x04, 0x01] = .ub ∧
    asEigenMatrixView (msgpack.treader addr) .i16 none none [0x93, 0x01, 0x92, 0x02, 0x01, 0xc4, 0x04, 0x01] = .ub := by
  have h1 : isTensor (msgpack.treader addr) .i16 [0x93, 0x01, 0x91, 0x02, 0xc4, 0x04, 0x01] = .ub := rfl
  have h2 : isTensor (msgpack.treader addr) .i16 [0x93, 0x01, 0x92, 0x02, 0x01, 0xc4, 0x04, 0x01] = .ub := rfl
  exact ⟨h1, by unfold asXTensorView; rw [h1]; rfl, by unfold asEigenMatrixView; rw [h2]; rfl⟩

/-- C103 is false of CBOR: a blob that announces 2^64 - 13 bytes. -/
theorem c103_cbor_refuted (utf8 : Bytes → Bool) (maxDepth : Nat) (addr : (cbor utf8 maxDepth 19).ρ → Nat) :
    asXTensorView ((cbor utf8 maxDepth 19).treader addr) .i16 none ⟨[0x83, 0x01, 0x81, 0x02, 0x5b, 255, 255, 255, 255, 255, 255, 255, 0xf3], 0⟩ = .ub := rfl

/-- C103 is false of Flex: the root is an array that lies before the start of the message. -/
theorem c103_flex_refuted (L : Flex.Lib) (dbg : Bool) (addr : (flex L dbg).ρ → Nat) :
    (Flex.opn [9, 40, 1] >>= fun r => isTensor ((flex L dbg).treader addr) .i16 r) = .ub := rfl

end Zer.Tensor
