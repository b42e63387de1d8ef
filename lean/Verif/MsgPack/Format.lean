import Verif.Reader
import Verif.Float

/-!
# The MessagePack format

Specification after the MessagePack specification (github.com/msgpack/msgpack/blob/master/spec.md),
independent of the code: which byte strings encode which value. Every encoding the specification
permits is included, not only the shortest. The extension types (0xc7-0xc9, 0xd4-0xd8) and the
unused 0xc1 have no counterpart in the value model.
-/

namespace Zer.MsgPack

/-- `n` as `k` bytes, most significant first. -/
def be : Nat → Nat → Bytes
  | 0, _ => []
  | k + 1, n => be k (n / 256) ++ [UInt8.ofNat (n % 256)]

/-- Header of a string of `n` bytes: fixstr, str 8, str 16, str 32. -/
inductive StrHead (n : Nat) : Bytes → Prop where
  | fix : n < 32 → StrHead n [UInt8.ofNat (0xa0 + n)]
  | s8 : n < 2 ^ 8 → StrHead n (0xd9 :: be 1 n)
  | s16 : n < 2 ^ 16 → StrHead n (0xda :: be 2 n)
  | s32 : n < 2 ^ 32 → StrHead n (0xdb :: be 4 n)

/-- Header of a blob of `n` bytes: bin 8, bin 16, bin 32. -/
inductive BinHead (n : Nat) : Bytes → Prop where
  | b8 : n < 2 ^ 8 → BinHead n (0xc4 :: be 1 n)
  | b16 : n < 2 ^ 16 → BinHead n (0xc5 :: be 2 n)
  | b32 : n < 2 ^ 32 → BinHead n (0xc6 :: be 4 n)

/-- Header of an array of `n` elements: fixarray, array 16, array 32. -/
inductive ArrHead (n : Nat) : Bytes → Prop where
  | fix : n < 16 → ArrHead n [UInt8.ofNat (0x90 + n)]
  | a16 : n < 2 ^ 16 → ArrHead n (0xdc :: be 2 n)
  | a32 : n < 2 ^ 32 → ArrHead n (0xdd :: be 4 n)

/-- Header of a map of `n` entries: fixmap, map 16, map 32. -/
inductive MapHead (n : Nat) : Bytes → Prop where
  | fix : n < 16 → MapHead n [UInt8.ofNat (0x80 + n)]
  | m16 : n < 2 ^ 16 → MapHead n (0xde :: be 2 n)
  | m32 : n < 2 ^ 32 → MapHead n (0xdf :: be 4 n)

/-- Encodings of an integer. Negative numbers are stored in two's complement. -/
inductive EncInt (z : Int) : Bytes → Prop where
  | posfix : 0 ≤ z → z < 2 ^ 7 → EncInt z [UInt8.ofNat z.toNat]
  | negfix : -2 ^ 5 ≤ z → z < 0 → EncInt z [UInt8.ofNat (z + 2 ^ 8).toNat]
  | u8 : 0 ≤ z → z < 2 ^ 8 → EncInt z (0xcc :: be 1 z.toNat)
  | u16 : 0 ≤ z → z < 2 ^ 16 → EncInt z (0xcd :: be 2 z.toNat)
  | u32 : 0 ≤ z → z < 2 ^ 32 → EncInt z (0xce :: be 4 z.toNat)
  | u64 : 0 ≤ z → z < 2 ^ 64 → EncInt z (0xcf :: be 8 z.toNat)
  | i8 : -2 ^ 7 ≤ z → z < 2 ^ 7 → EncInt z (0xd0 :: be 1 (z % 2 ^ 8).toNat)
  | i16 : -2 ^ 15 ≤ z → z < 2 ^ 15 → EncInt z (0xd1 :: be 2 (z % 2 ^ 16).toNat)
  | i32 : -2 ^ 31 ≤ z → z < 2 ^ 31 → EncInt z (0xd2 :: be 4 (z % 2 ^ 32).toNat)
  | i64 : -2 ^ 63 ≤ z → z < 2 ^ 63 → EncInt z (0xd3 :: be 8 (z % 2 ^ 64).toNat)

/-- Encodings of a double: float 64, or float 32 if a single converts to it. -/
inductive EncDbl (d : Nat) : Bytes → Prop where
  | f64 : EncDbl d (0xcb :: be 8 d)
  | f32 {f : Nat} : f < 2 ^ 32 → widen32 f = d → EncDbl d (0xca :: be 4 f)

mutual
/-- `Enc v b`: `b` is an encoding of `v`. Keys are strings. -/
def Enc : Val → Bytes → Prop
  | .null, b => b = [0xc0]
  | .bool x, b => b = [if x then 0xc3 else 0xc2]
  | .int i, b => EncInt i.toInt b
  | .uint n, b => EncInt n.toNat b
  | .dbl d, b => EncDbl d.toNat b
  | .str s, b => ∃ h, StrHead s.length h ∧ b = h ++ s
  | .blob s, b => ∃ h, BinHead s.length h ∧ b = h ++ s
  | .arr xs, b => ∃ h cs, ArrHead xs.length h ∧ EncList xs cs ∧ b = h ++ cs.flatten
  | .map ms, b => ∃ h cs, MapHead ms.length h ∧ EncEntries ms cs ∧ b = h ++ cs.flatten
/-- One encoding per element. -/
def EncList : List Val → List Bytes → Prop
  | [], cs => cs = []
  | x :: xs, cs => ∃ c cs', Enc x c ∧ EncList xs cs' ∧ cs = c :: cs'
/-- Encodings of keys and values, alternating. -/
def EncEntries : List (Bytes × Val) → List Bytes → Prop
  | [], cs => cs = []
  | (k, v) :: ms, cs => ∃ h c cs', StrHead k.length h ∧ Enc v c ∧ EncEntries ms cs' ∧
      cs = (h ++ k) :: c :: cs'
end

/-- Every string, blob and key is shorter than `n` bytes. -/
def _root_.Zer.Val.Below (n : Nat) : Val → Prop
  | .str s => s.length < n
  | .blob s => s.length < n
  | .arr xs => belowList xs
  | .map ms => belowEntries ms
  | _ => True
where
  belowList : List Val → Prop
    | [] => True
    | x :: xs => x.Below n ∧ belowList xs
  belowEntries : List (Bytes × Val) → Prop
    | [] => True
    | (k, v) :: ms => k.length < n ∧ v.Below n ∧ belowEntries ms

/-- `Elem L b`: `b` is exactly one well-formed element of any supported type, with strings and blobs
shorter than `L` bytes. Map keys may be of any type, floats and integers any bits. -/
inductive Elem (L : Nat) : Bytes → Prop where
  | single {m : UInt8} : m ≤ 0x7f ∨ 0xe0 ≤ m ∨ m = 0xc0 ∨ m = 0xc2 ∨ m = 0xc3 → Elem L [m]
  | fixed {m : UInt8} {p : Bytes} :
      (m = 0xcc ∨ m = 0xd0) ∧ p.length = 1 ∨ (m = 0xcd ∨ m = 0xd1) ∧ p.length = 2 ∨
      (m = 0xce ∨ m = 0xd2 ∨ m = 0xca) ∧ p.length = 4 ∨
      (m = 0xcf ∨ m = 0xd3 ∨ m = 0xcb) ∧ p.length = 8 → Elem L (m :: p)
  | str {h s : Bytes} : StrHead s.length h → s.length < L → Elem L (h ++ s)
  | bin {h s : Bytes} : BinHead s.length h → s.length < L → Elem L (h ++ s)
  | arr {h : Bytes} {cs : List Bytes} : ArrHead cs.length h → (∀ c ∈ cs, Elem L c) →
      Elem L (h ++ cs.flatten)
  | map {h : Bytes} {cs : List Bytes} {n : Nat} : MapHead n h → cs.length = 2 * n →
      (∀ c ∈ cs, Elem L c) → Elem L (h ++ cs.flatten)

end Zer.MsgPack
