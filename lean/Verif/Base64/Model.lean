import Verif.Base

/-!
# Model of `include/zerialize/internals/base64.hpp`

`value` and `buf` are `uint32_t`: left shifts drop bits above 2^32. `reserve` has no effect here.
-/

namespace Zer.Base64

/-- `base64_chars`, base64.hpp:26-27 -/
def chars : List UInt8 :=
  [0x41, 0x42, 0x43, 0x44, 0x45, 0x46, 0x47, 0x48, 0x49, 0x4a, 0x4b, 0x4c, 0x4d, 0x4e, 0x4f, 0x50,
   0x51, 0x52, 0x53, 0x54, 0x55, 0x56, 0x57, 0x58, 0x59, 0x5a, 0x61, 0x62, 0x63, 0x64, 0x65, 0x66,
   0x67, 0x68, 0x69, 0x6a, 0x6b, 0x6c, 0x6d, 0x6e, 0x6f, 0x70, 0x71, 0x72, 0x73, 0x74, 0x75, 0x76,
   0x77, 0x78, 0x79, 0x7a, 0x30, 0x31, 0x32, 0x33, 0x34, 0x35, 0x36, 0x37, 0x38, 0x39, 0x2b, 0x2f]

/-- `base64_chars[i]`; the index is always masked with 0x3F. -/
def charAt (i : Nat) : UInt8 := chars.getD i 0

/-- Inner loop, base64.hpp:43-46; at most `n` rounds (`n = bits` is enough). -/
def emit6 (value : Nat) : Nat → Nat → Bytes × Nat
  | 0, bits => ([], bits)
  | n + 1, bits =>
    if 6 ≤ bits then
      let r := emit6 value n (bits - 6)
      (charAt ((value >>> (bits - 6)) &&& 0x3f) :: r.1, r.2)
    else ([], bits)

/-- One round of the outer loop, base64.hpp:37-50: emitted text, new `value`, new `bits`. -/
def encStep (value bits : Nat) (b : UInt8) : Bytes × Nat × Nat :=
  let value := ((value <<< 8) % 2 ^ 32) ||| b.toNat
  let bits := bits + 8
  let r := emit6 value bits bits
  (r.1, if r.2 > 0 then value &&& (1 <<< r.2 - 1) else value, r.2)

/-- The outer loop, base64.hpp:36-51: text, `value`, `bits`. -/
def encLoop : Nat → Nat → Bytes → Bytes × Nat × Nat
  | value, bits, [] => ([], value, bits)
  | value, bits, b :: bs =>
    let r := encStep value bits b
    let r' := encLoop r.2.1 r.2.2 bs
    (r.1 ++ r'.1, r'.2)

/-- Padding loop, base64.hpp:59-61: at most `n` rounds (three are enough). -/
def pad : Nat → Bytes → Bytes
  | 0, s => s
  | n + 1, s => if s.length % 4 ≠ 0 then pad n (s ++ [0x3d]) else s

/-- `base64Encode`, base64.hpp:25-64 -/
def encode (data : Bytes) : Bytes :=
  let r := encLoop 0 0 data
  let s := if r.2.2 > 0 then
      r.1 ++ [charAt (((r.2.1 <<< (6 - r.2.2)) % 2 ^ 32) &&& 0x3f)]
    else r.1
  pad 3 s

/-- `lookup`, base64.hpp:78-87 -/
def lookup : List Nat :=
  [64,64,64,64,64,64,64,64,64,64,64,64,64,64,64,64, 64,64,64,64,64,64,64,64,64,64,64,64,64,64,64,64,
   64,64,64,64,64,64,64,64,64,64,64,62,64,64,64,63, 52,53,54,55,56,57,58,59,60,61,64,64,64,64,64,64,
   64, 0, 1, 2, 3, 4, 5, 6, 7, 8, 9,10,11,12,13,14, 15,16,17,18,19,20,21,22,23,24,25,64,64,64,64,64,
   64,26,27,28,29,30,31,32,33,34,35,36,37,38,39,40, 41,42,43,44,45,46,47,48,49,50,51,64,64,64,64,64,
   64,64,64,64,64,64,64,64,64,64,64,64,64,64,64,64, 64,64,64,64,64,64,64,64,64,64,64,64,64,64,64,64,
   64,64,64,64,64,64,64,64,64,64,64,64,64,64,64,64, 64,64,64,64,64,64,64,64,64,64,64,64,64,64,64,64,
   64,64,64,64,64,64,64,64,64,64,64,64,64,64,64,64, 64,64,64,64,64,64,64,64,64,64,64,64,64,64,64,64,
   64,64,64,64,64,64,64,64,64,64,64,64,64,64,64,64, 64,64,64,64,64,64,64,64,64,64,64,64,64,64,64,64]

/-- The loop of `base64Decode`, base64.hpp:95-113. -/
def decLoop : Nat → Nat → Bytes → Res Bytes
  | _, _, [] => pure []
  | buf, bits, c :: cs =>
    if c = 0x3d then pure []
    else
      let v := lookup.getD c.toNat 64
      if v = 64 then .err .deser
      else
        let buf := ((buf <<< 6) % 2 ^ 32) ||| v
        let bits := bits + 6
        if 8 ≤ bits then do
          let bits' := bits - 8
          let buf' := if bits' > 0 then buf &&& (1 <<< bits' - 1) else buf
          let out ← decLoop buf' bits' cs
          pure (UInt8.ofNat ((buf >>> bits') &&& 0xff) :: out)
        else decLoop buf bits cs

/-- `base64Decode`, base64.hpp:76-120 -/
def decode (s : Bytes) : Res Bytes := decLoop 0 0 s

end Zer.Base64
