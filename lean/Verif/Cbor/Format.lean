import Verif.MsgPack.Format

/-!
# The CBOR format

Specification after RFC 8949, independent of the code: which byte strings are well-formed items and
which encode which value. Heads of every width are included, not only the shortest.
-/

namespace Zer.Cbor

open MsgPack (be)

/-- Heads with argument `n`: immediate, 1, 2, 4 or 8 bytes (RFC 8949, section 3). -/
inductive Hd (m n : Nat) : Bytes → Prop where
  | imm : n < 24 → Hd m n [UInt8.ofNat (m * 32 + n)]
  | w1 : n < 2 ^ 8 → Hd m n (UInt8.ofNat (m * 32 + 24) :: be 1 n)
  | w2 : n < 2 ^ 16 → Hd m n (UInt8.ofNat (m * 32 + 25) :: be 2 n)
  | w4 : n < 2 ^ 32 → Hd m n (UInt8.ofNat (m * 32 + 26) :: be 4 n)
  | w8 : n < 2 ^ 64 → Hd m n (UInt8.ofNat (m * 32 + 27) :: be 8 n)

/-- The head of an indefinite-length item. -/
def indefHd (m : Nat) : UInt8 := UInt8.ofNat (m * 32 + 31)

/-- Chunks of an indefinite string of major type `m`: definite strings (section 3.2.3). -/
inductive Chunks (m : Nat) : Bytes → Bytes → Prop where
  | nil : Chunks m [] []
  | cons {h s t b : Bytes} : Hd m s.length h → Chunks m t b → Chunks m (s ++ t) ((h ++ s) ++ b)

/-- `Text ind m s b`: `b` encodes the string `s` of major type `m`; chunked forms only if `ind`. -/
inductive Text (ind : Bool) (m : Nat) (s : Bytes) : Bytes → Prop where
  | definite {h : Bytes} : Hd m s.length h → Text ind m s (h ++ s)
  | chunked {b : Bytes} : ind = true → Chunks m s b → Text ind m s (indefHd m :: (b ++ [0xff]))

/-- Encodings of a double: any precision that represents it (section 3.3). -/
inductive EncDbl (d : Nat) : Bytes → Prop where
  | f64 : EncDbl d (0xfb :: be 8 d)
  | f32 {f : Nat} : f < 2 ^ 32 → widen32 f = d → EncDbl d (0xfa :: be 4 f)
  | f16 {f : Nat} : f < 2 ^ 16 → decodeF16 f = d → EncDbl d (0xf9 :: be 2 f)

/-- Encodings of an integer: major type 0 or 1. -/
def EncInt (z : Int) (b : Bytes) : Prop :=
  (0 ≤ z ∧ Hd 0 z.toNat b) ∨ (z < 0 ∧ Hd 1 (-1 - z).toNat b)

/-- A container of `n` entries with content `c`. -/
inductive Group (ind : Bool) (m n : Nat) (c : Bytes) : Bytes → Prop where
  | definite {h : Bytes} : Hd m n h → Group ind m n c (h ++ c)
  | indef : ind = true → Group ind m n c (indefHd m :: (c ++ [0xff]))

mutual
/-- `Enc ind v b`: `b` is an encoding of `v`, of definite lengths throughout unless `ind`. -/
def Enc (ind : Bool) : Val → Bytes → Prop
  | .null, b => b = [0xf6]
  | .bool x, b => b = [if x then 0xf5 else 0xf4]
  | .int i, b => EncInt i.toInt b
  | .uint n, b => EncInt n.toNat b
  | .dbl d, b => EncDbl d.toNat b
  | .str s, b => Text ind 3 s b
  | .blob s, b => Text ind 2 s b
  | .arr xs, b => ∃ cs, EncList ind xs cs ∧ Group ind 4 xs.length cs.flatten b
  | .map ms, b => ∃ cs, EncEntries ind ms cs ∧ Group ind 5 ms.length cs.flatten b
def EncList (ind : Bool) : List Val → List Bytes → Prop
  | [], cs => cs = []
  | x :: xs, cs => ∃ c cs', Enc ind x c ∧ EncList ind xs cs' ∧ cs = c :: cs'
/-- Keys and values alternating; keys are text. -/
def EncEntries (ind : Bool) : List (Bytes × Val) → List Bytes → Prop
  | [], cs => cs = []
  | (k, v) :: ms, cs => ∃ ck c cs', Text ind 3 k ck ∧ Enc ind v c ∧ EncEntries ind ms cs' ∧
      cs = ck :: c :: cs'
end

/-- `Item b`: `b` is exactly one well-formed item, of any type except simple values with a separate
byte (`0xf8`). Includes tags, undefined, integers up to 2^64-1 and map keys of any type. -/
inductive Item : Bytes → Prop where
  | num {m n : Nat} {h : Bytes} : m ≤ 1 → Hd m n h → Item h
  | str {ind : Bool} {m : Nat} {s b : Bytes} : m = 2 ∨ m = 3 → Text ind m s b → Item b
  | arr {ind : Bool} {cs : List Bytes} {b : Bytes} : (∀ c ∈ cs, Item c) →
      Group ind 4 cs.length cs.flatten b → Item b
  | map {ind : Bool} {n : Nat} {cs : List Bytes} {b : Bytes} : cs.length = 2 * n →
      (∀ c ∈ cs, Item c) → Group ind 5 n cs.flatten b → Item b
  | tag {n : Nat} {h c : Bytes} : Hd 6 n h → Item c → Item (h ++ c)
  | simple {n : Nat} : n < 24 → Item [UInt8.ofNat (7 * 32 + n)]
  | flt {x : UInt8} {p : Bytes} :
      x = 0xf9 ∧ p.length = 2 ∨ x = 0xfa ∧ p.length = 4 ∨ x = 0xfb ∧ p.length = 8 → Item (x :: p)

end Zer.Cbor
