import Verif.Flex.Doc
import Verif.Float

/-!
# The FlexBuffers format, as its document describes it

The format that `flex.hpp` reads and writes is described in the FlatBuffers documentation ("FlexBuffers",
section "Binary encoding"). This file restates the description as a relation between bytes and values,
without reference to the code of `flexbuffers.h` or to its transcription in `Verif/Flex/Format.lean`:

* Values are stored in slots. The slot of a scalar contains the scalar, every other slot an offset: the
  (unsigned) distance back to the data. A slot has the width of the vector that it is part of, the data
  that an offset leads to a width of its own.
* All numbers are little endian, of 1, 2, 4 or 8 bytes, and aligned to their width.
* A byte with the type (upper six bits) and the width (lower two bits) of each element follows the slots
  of a vector; a vector, a string and a blob are preceded by their size. Keys and strings end with a NUL
  byte. Typed vectors store their type once for all elements, in their own type.
* A map is a vector of values, preceded by an offset to a typed vector of keys and by the width of that
  vector. Keys are sorted.
* The buffer ends with the slot of the root, its type byte and its width.

`Rules` says which of this is demanded. The format is `Rules.format`; `Rules.tolerant` describes buffers
that are not documents, but are read as if they were.
-/

namespace Zer.Flex

/-- The number that a sequence of bytes represents, lowest byte first. -/
def numeral (xs : Bytes) : Nat := xs.foldr (fun c n => c.toNat + 256 * n) 0

/-- The number that `xs` represents in two's complement. -/
def signedNumeral (xs : Bytes) : Int := (numeral xs : Int).bmod (256 ^ xs.length)

/-- The double (as its bits) that `xs` represents: a double or a single. There are no halves in
flexbuffers; shorter numbers are tolerated as integers. -/
def floatNumeral (xs : Bytes) : Nat :=
  if xs.length = 8 then numeral xs else if xs.length = 4 then widen32 (numeral xs)
  else if numeral xs = 0 then 0 else mkDouble (decide (signedNumeral xs < 0)) (signedNumeral xs).natAbs 1074

/-- How many bytes a number of width `w` takes. -/
def bytesOfWidth (w : Nat) : Nat := if 8 ≤ w then 8 else if 4 ≤ w then 4 else if 2 ≤ w then 2 else 1

/-- What is demanded. -/
structure Rules where
  /-- Widths are 1, 2, 4 or 8, numbers are aligned to them, a map has as many values as keys. Otherwise
  alignment does not matter, an unknown width counts as the next smaller one, the width of a vector of keys
  is taken modulo 256, the space of the values modulo 2^64, and of too few values the missing ones are null. -/
  strict : Prop
  /-- Strings end with NUL. -/
  nul : Prop
  /-- Typed vectors have their elements. -/
  typed : Prop
  /-- Typed vectors are taken for empty. -/
  hollow : Prop
  /-- Numbers may stand elsewhere, with an offset to them in the slot. -/
  indirect : Prop

/-- The format. -/
def Rules.format : Rules := ⟨True, True, True, False, True⟩
/-- The format without typed vectors. -/
def Rules.untyped : Rules := ⟨True, True, False, False, True⟩
/-- The format without typed vectors and indirect numbers. -/
def Rules.plain : Rules := ⟨True, True, False, False, False⟩
/-- What zerialize takes for a document. -/
def Rules.tolerant : Rules := ⟨False, False, False, True, True⟩

/-- `xs` is the number of width `w` at position `p`. -/
structure Word (R : Rules) (b : Bytes) (p w : Nat) (xs : Bytes) : Prop where
  pos : At b p xs
  length : xs.length = bytesOfWidth w
  width : R.strict → w = 1 ∨ w = 2 ∨ w = 4 ∨ w = 8
  aligned : R.strict → p % w = 0

/-- The offset at `p` leads to `q`. -/
def Points (R : Rules) (b : Bytes) (p w q : Nat) : Prop := ∃ xs, Word R b p w xs ∧ q + numeral xs = p

/-- The size in front of `q` is `n`. -/
def Sized (R : Rules) (b : Bytes) (q w n : Nat) : Prop :=
  w ≤ q ∧ ∃ xs, Word R b (q - w) w xs ∧ numeral xs = n

/-- Types of typed vectors with their size in front, and the type of their elements. (15, a vector of
strings, is deprecated, because it does not store the width of its elements.) -/
def typedElem (ty ety : Nat) : Prop := (ty = 11 ∧ ety = 1) ∨ (ty = 12 ∧ ety = 2) ∨ (ty = 13 ∧ ety = 3) ∨
  (ty = 14 ∧ ety = 4) ∨ (ty = 36 ∧ ety = 26)

/-- Types of vectors of two, three and four elements, without size. -/
def fixedElem (ty n ety : Nat) : Prop := 2 ≤ n ∧ n ≤ 4 ∧ 1 ≤ ety ∧ ety ≤ 3 ∧ ty = 16 + 3 * (n - 2) + (ety - 1)

/-- The slot at `p` of width `pw` with type `ty` and width `bw` contains the document. -/
inductive Stands (R : Rules) (b : Bytes) : Nat → Nat → Nat → Nat → Doc → Prop where
  | null {p pw bw} : Stands R b p pw 0 bw .null
  | int {p pw bw xs} (i : Int64) : Word R b p pw xs → i.toInt = signedNumeral xs → Stands R b p pw 1 bw (.int i)
  | uint {p pw bw xs} (n : UInt64) : Word R b p pw xs → n.toNat = numeral xs → Stands R b p pw 2 bw (.uint n)
  | dbl {p pw bw xs} (d : UInt64) : Word R b p pw xs → (R.strict → pw = 4 ∨ pw = 8) → d.toNat = floatNumeral xs →
      Stands R b p pw 3 bw (.dbl d)
  | bool {p pw bw xs} : Word R b p pw xs → Stands R b p pw 26 bw (.bool (decide (numeral xs ≠ 0)))
  | intAt {p pw bw q xs} (i : Int64) : R.indirect → Points R b p pw q → Word R b q bw xs → i.toInt = signedNumeral xs →
      Stands R b p pw 6 bw (.int i)
  | uintAt {p pw bw q xs} (n : UInt64) : R.indirect → Points R b p pw q → Word R b q bw xs → n.toNat = numeral xs →
      Stands R b p pw 7 bw (.uint n)
  | dblAt {p pw bw q xs} (d : UInt64) : R.indirect → Points R b p pw q → Word R b q bw xs → (R.strict → bw = 4 ∨ bw = 8) →
      d.toNat = floatNumeral xs → Stands R b p pw 8 bw (.dbl d)
  | key {p pw bw q k} : Points R b p pw q → At b q (k ++ [0]) → (0 : UInt8) ∉ k → Stands R b p pw 4 bw (.key k)
  | str {p pw bw q s} : Points R b p pw q → Sized R b q bw s.length → At b q s →
      (R.nul → At b (q + s.length) [0]) → Stands R b p pw 5 bw (.str s)
  | blob {p pw bw q s} : Points R b p pw q → Sized R b q bw s.length → At b q s → Stands R b p pw 25 bw (.blob s)
  | vec {p pw bw q} {xs : List Doc} (t : Nat → UInt8) : Points R b p pw q → Sized R b q bw xs.length →
      (∀ i, i < xs.length → At b (q + xs.length * bw + i) [t i]) →
      (∀ i (h : i < xs.length), Stands R b (q + i * bw) bw ((t i).toNat / 4) (2 ^ ((t i).toNat % 4)) xs[i]) →
      Stands R b p pw 10 bw (.vec xs)
  | typed {p pw ty ety bw q} {xs : List Doc} : R.typed → typedElem ty ety → Points R b p pw q → Sized R b q bw xs.length →
      (∀ i (h : i < xs.length), Stands R b (q + i * bw) bw ety bw xs[i]) → Stands R b p pw ty bw (.vec xs)
  | fixed {p pw ty ety bw q} {xs : List Doc} : R.typed → fixedElem ty xs.length ety → Points R b p pw q →
      (∀ i (h : i < xs.length), Stands R b (q + i * bw) bw ety bw xs[i]) → Stands R b p pw ty bw (.vec xs)
  | hollow {p pw ty bw} : R.hollow → (11 ≤ ty ∧ ty ≤ 24 ∨ ty = 36) → Stands R b p pw ty bw (.vec [])
  | map {p pw bw q kp w n kw o} {ws : Bytes} {ms : List (Bytes × Doc)} (t : Nat → UInt8) (kq : Nat → Nat) :
      Points R b p pw q → Sized R b q bw n → (R.strict → n = ms.length) →
      3 * bw ≤ q → Points R b (q - 3 * bw) bw kp →
      Word R b (q - 2 * bw) bw ws → numeral ws = w → kw = w % 256 → (R.strict → kw = w) →
      Sized R b kp kw ms.length →
      (∀ i (h : i < ms.length), Points R b (kp + i * kw) kw (kq i) ∧ At b (kq i) (ms[i].1 ++ [0]) ∧ (0 : UInt8) ∉ ms[i].1) →
      o = n * bw % 2 ^ 64 → (R.strict → o = n * bw) →
      (∀ i, i < ms.length → i < n → At b (q + o + i) [t i]) →
      (∀ i (h : i < ms.length), i < n →
        Stands R b (q + i * bw) bw ((t i).toNat / 4) (2 ^ ((t i).toNat % 4)) ms[i].2) →
      (∀ i (h : i < ms.length), n ≤ i → ms[i].2 = .null) →
      Stands R b p pw 9 bw (.map ms)

/-- The buffer is a document: the slot of its root, the type byte, the width. A buffer without bytes is
taken for null where documents are not demanded. -/
def Holding (R : Rules) (b : Bytes) (d : Doc) : Prop :=
  (∃ pre t w, b = pre ++ [t, w] ∧ w.toNat ≤ pre.length ∧
    Stands R b (pre.length - w.toNat) w.toNat (t.toNat / 4) (2 ^ (t.toNat % 4)) d) ∨ (¬ R.strict ∧ b = [] ∧ d = .null)

/-- Demands can be dropped. -/
structure Rules.Le (R S : Rules) : Prop where
  strict : S.strict → R.strict
  nul : S.nul → R.nul
  typed : R.typed → S.typed
  hollow : R.hollow → S.hollow
  indirect : R.indirect → S.indirect

theorem Word.weaken {R S : Rules} (h : R.Le S) {b : Bytes} {p w : Nat} {xs : Bytes} (hw : Word R b p w xs) :
    Word S b p w xs := ⟨hw.1, hw.2, fun s => hw.3 (h.1 s), fun s => hw.4 (h.1 s)⟩

theorem Points.weaken {R S : Rules} (h : R.Le S) {b : Bytes} {p w q : Nat} : Points R b p w q → Points S b p w q :=
  fun ⟨xs, h1, h2⟩ => ⟨xs, h1.weaken h, h2⟩

theorem Sized.weaken {R S : Rules} (h : R.Le S) {b : Bytes} {q w n : Nat} : Sized R b q w n → Sized S b q w n :=
  fun ⟨h0, xs, h1, h2⟩ => ⟨h0, xs, h1.weaken h, h2⟩

theorem Stands.weaken {R S : Rules} (h : R.Le S) {b : Bytes} {p pw ty bw : Nat} {d : Doc} (hd : Stands R b p pw ty bw d) :
    Stands S b p pw ty bw d := by
  induction hd with
  | null => exact .null
  | int i h1 h2 => exact .int i (h1.weaken h) h2
  | uint i h1 h2 => exact .uint i (h1.weaken h) h2
  | dbl i h1 h2 h3 => exact .dbl i (h1.weaken h) (fun s => h2 (h.1 s)) h3
  | bool h1 => exact .bool (h1.weaken h)
  | intAt i hi h0 h1 h2 => exact .intAt i (h.5 hi) (h0.weaken h) (h1.weaken h) h2
  | uintAt i hi h0 h1 h2 => exact .uintAt i (h.5 hi) (h0.weaken h) (h1.weaken h) h2
  | dblAt i hi h0 h1 h2 h3 => exact .dblAt i (h.5 hi) (h0.weaken h) (h1.weaken h) (fun s => h2 (h.1 s)) h3
  | key h0 h1 h2 => exact .key (h0.weaken h) h1 h2
  | str h0 h1 h2 h3 => exact .str (h0.weaken h) (h1.weaken h) h2 (fun s => h3 (h.2 s))
  | blob h0 h1 h2 => exact .blob (h0.weaken h) (h1.weaken h) h2
  | vec t h0 h1 h2 _ ih => exact .vec t (h0.weaken h) (h1.weaken h) h2 ih
  | typed h0 h1 h2 h3 _ ih => exact .typed (h.3 h0) h1 (h2.weaken h) (h3.weaken h) ih
  | fixed h0 h1 h2 _ ih => exact .fixed (h.3 h0) h1 (h2.weaken h) ih
  | hollow h0 h1 => exact .hollow (h.4 h0) h1
  | map t kq h0 h1 h2 h3 h4 h5 h6 h7 h8 h9 h10 ho ho' h11 _ h13 ih =>
    exact .map t kq (h0.weaken h) (h1.weaken h) (fun s => h2 (h.1 s)) h3 (h4.weaken h) (h5.weaken h) h6 h7
      (fun s => h8 (h.1 s)) (h9.weaken h) (fun i hi => ⟨(h10 i hi).1.weaken h, (h10 i hi).2⟩) ho
      (fun s => ho' (h.1 s)) h11 ih h13

end Zer.Flex
