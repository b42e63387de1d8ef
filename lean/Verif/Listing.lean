import Verif.Cbor.Contain
import Verif.MsgPack.Model
import Verif.Zera.Model
import Verif.Flex.Model
import Verif.Flex.Present

/-!
# What a program may do with the keys of a map

`mapKeys` of the deserializers returns a range of `std::string_view`. The models of the readers list the
keys as values; here the views themselves are modelled: where each of them points, and for how long.
-/

namespace Zer

/-- A `std::string_view` obtained by dereferencing a key iterator: into the buffer that was read, or into
the string `scratch` inside the iterator (cbor.hpp:369, 423-425). -/
inductive KeyView where
  | inBuf (p n : Nat)
  | inScratch

namespace KeyView

/-- The view is read after the iterator is gone; `scratch` went with it. A view into the buffer is read
where it points. -/
def later (b : Bytes) : KeyView → Res Bytes
  | .inBuf p n => sliceAt b p n
  | .inScratch => .ub

/-- All kept views are read, in order. -/
def laterAll (b : Bytes) : List KeyView → Res (List Bytes)
  | [] => pure []
  | x :: xs => do
    let k ← x.later b
    let ks ← laterAll b xs
    pure (k :: ks)

end KeyView

/-! ## CBOR -/

namespace Cbor.View

/-- `KeysView::iterator::operator*`, cbor.hpp:417-426: the view it returns. -/
def keyPlace (hard : Bool) (f : Nat) (v : Bytes) (q : Nat) : Res KeyView := do
  let kh ← readHead true v q
  if kh.major = 3 ∧ kh.indef = false then do
    let _ ← range hard v (q + kh.hlen) kh.val
    pure (.inBuf (q + kh.hlen) kh.val)
  else do
    let _ ← asString hard f ⟨v, q⟩
    pure .inScratch

/-- `for (auto k : r.mapKeys()) ks.push_back(k);` with the iterators of cbor.hpp:364-442. -/
def keptFrom (hard : Bool) (f : Nat) (v : Bytes) (indef : Bool) (stop : Nat) :
    Nat → Nat → Nat → Res (List KeyView)
  | 0, _, _ => .diverge
  | g + 1, q, remaining =>
    if q = stop then pure []
    else do
      let k ← keyPlace hard f v q
      let (q, remaining) ← keyNext f v indef q remaining
      let ks ← keptFrom hard f v indef stop g q remaining
      pure (k :: ks)

/-- The same from `mapKeys()` on, cbor.hpp:443-458. -/
def kept (hard : Bool) (f : Nat) (r : View) : Res (List KeyView) := do
  let h ← r.head
  Res.require (decide (h.major = 5)) .deser
  let h ← readHead true r.buf r.pos
  let stop ← keysEnd f r.buf r.pos
  keptFrom hard f r.buf h.indef stop f (r.pos + h.hlen) (if h.indef then 0 else h.val)

/-- The keys are kept and read after the loop. -/
def keptKeys (hard : Bool) (f : Nat) (r : View) : Res (List Bytes) := do
  let ks ← kept hard f r
  KeyView.laterAll r.buf ks

end Cbor.View

/-! ## MessagePack -/

namespace MsgPack

/-- `KeysView::iterator::operator*`, msgpack.hpp:394-401: `asStringView` of the key points into it. -/
def keyPlace (v : Bytes) (off : Nat) : Res KeyView := do
  let ks ← subspan v off
  let sz ← skip ks
  let kd ← first ks sz
  let (p, n) ← strInfo kd
  let _ ← sliceAt kd p n
  pure (.inBuf (off + p) n)

/-- `for (auto k : r.mapKeys()) ks.push_back(k);` with the iterators of msgpack.hpp:378-416. -/
def keptFrom (v : Bytes) (count endOff : Nat) : Nat → Nat → Nat → Res (List KeyView)
  | 0, _, _ => .diverge
  | f + 1, i, off =>
    if i = count ∧ off = endOff then pure []
    else do
      let k ← keyPlace v off
      let off' ← keyNext v off
      let ks ← keptFrom v count endOff f (i + 1) off'
      pure (k :: ks)

/-- The same from `mapKeys()` on, msgpack.hpp:432-436. -/
def kept (v : Bytes) : Res (List KeyView) := do
  Res.require (isMap v) .deser
  let (n, off) ← mapInfo v
  let e ← keysEnd v n off
  keptFrom v n e (n + 1) 0 off

/-- The keys are kept and read after the loop. -/
def keptKeys (v : Bytes) : Res (List Bytes) := do
  let ks ← kept v
  KeyView.laterAll v ks

end MsgPack

/-! ## ZERA -/

namespace Zera.View

/-- `KeysView::iterator::operator*`, zera.hpp:366-371: the view it returns. -/
def keyPlace (v : View) (cur : Nat) : Res KeyView := do
  let keyLen ← readU16 v.buf cur
  let _ ← v.envPtrAt (u32 (cur - HeaderSize)) (4 + keyLen + 16)
  let _ ← sliceAt v.buf (cur + 4) keyLen
  pure (.inBuf (cur + 4) keyLen)

/-- `for (auto k : r.mapKeys()) ks.push_back(k);` with the iterators of zera.hpp:355-384. -/
def keptFrom (v : View) : Nat → Nat → Res (List KeyView)
  | 0, _ => pure []
  | n + 1, cur => do
    let k ← v.keyPlace cur
    let cur' ← v.keyNext cur
    let ks ← keptFrom v n cur'
    pure (k :: ks)

/-- What `mapKeys()` puts into the `KeysView`, zera.hpp:393-401: `count` and `p`. The third member is
the address of the reader itself (`this`, zera.hpp:400). -/
def keysView (v : View) : Res (Nat × Nat) := do
  let t ← v.tag
  Res.require (decide (t = tObject)) .deser
  v.requireFlagsOk
  let objOfs ← v.a
  let p ← v.envPtrAt objOfs 4
  let count ← readU32 v.buf p
  let entries ← v.envPtrAt (u32 (objOfs + 4)) 0
  pure (count, entries)

/-- The keys are kept and read after the loop; the reader outlives the loop. -/
def keptKeys (v : View) : Res (List Bytes) := do
  let (count, entries) ← v.keysView
  let ks ← v.keptFrom count entries
  KeyView.laterAll v.buf ks

/-- `operator*` of an iterator whose reader is gone: the key length is still read from the buffer
(zera.hpp:368), then `self->env_ptr_at(...)` and `self->env_` (zera.hpp:369) read the reader. -/
def keyDerefGone (v : View) (cur : Nat) : Res Bytes := do
  let _ ← readU16 v.buf cur
  .ub

/-- `for (auto k : EXPR.mapKeys())` where `EXPR` is a temporary reader, such as `doc["m"]`. Before C++23
only the `KeysView` lives as long as the loop (`extended = false`); from C++23 on the reader does too.
Comparing iterators (zera.hpp:383) reads no reader, so a map without keys is no problem. -/
def keysOfTemporary (extended : Bool) (v : View) : Res (List Bytes) := do
  let (count, entries) ← v.keysView
  if extended then v.keysFrom count entries
  else if count = 0 then pure []
  else do
    let k ← v.keyDerefGone entries
    pure [k]

end Zera.View

/-! ## Flex -/

namespace Flex

/-- `KeysView::iterator::operator*`, flex.hpp:262-265: `c_str()` and `size()` of the string. Behind the
last key flatbuffers returns an empty string of its own. -/
def keyPlace (b : Bytes) (kp kw kn i : Nat) : Res KeyView :=
  if kn ≤ i then pure (.inBuf 0 0)
  else do
    let q ← indirect b (kp + u64 (i * kw)) kw
    let k ← cstrAt b q
    pure (.inBuf q k.length)

/-- `for (auto k : r.mapKeys()) ks.push_back(k);`, flex.hpp:250-272. -/
def keptFrom (b : Bytes) (kp kw kn : Nat) : Nat → Nat → Res (List KeyView)
  | _, 0 => pure []
  | i, n + 1 => do
    let k ← keyPlace b kp kw kn i
    let ks ← keptFrom b kp kw kn (i + 1) n
    pure (k :: ks)

/-- The keys are kept and read after the loop. -/
def keptKeys (r : Ref) : Res (List Bytes) := do
  Res.require (isMap r) .deser
  let (p, _) ← r.vector
  let (kp, kw, kn) ← keysAt r.buf p r.bw
  let ks ← keptFrom r.buf kp kw kn 0 kn
  KeyView.laterAll r.buf ks

/-- From `first` to `last` by iterators, at most `g` steps. `a == b` holds only if both point to the same
`KeysView` (`a.keys==b.keys`, flex.hpp:268); `same` says whether they do. -/
def between (b : Bytes) (kp kw kn : Nat) (same : Bool) : Nat → Nat → Res (List Bytes)
  | 0, _ => .diverge
  | g + 1, i =>
    if same = true ∧ i = kn then pure []
    else do
      let k ← keyAt b kp kw kn i
      let ks ← between b kp kw kn same g (u64 (i + 1))
      pure (k :: ks)

/-- From the `begin()` of a range to an `end()`: of the same range (`same = true`), or of the range of a
second call of `mapKeys` on the same reader, as in
`std::set<std::string_view> s(r.mapKeys().begin(), r.mapKeys().end())`, flex.hpp:270-277. -/
def keysBetween (same : Bool) (g : Nat) (r : Ref) : Res (List Bytes) := do
  Res.require (isMap r) .deser
  let (p, _) ← r.vector
  let (kp, kw, kn) ← keysAt r.buf p r.bw
  between r.buf kp kw kn same g 0

end Flex

/-! ## Proofs -/

namespace KeyView

theorem laterAll_cons (b : Bytes) (x : KeyView) (xs : List KeyView) :
    laterAll b (x :: xs) = (x.later b).bind fun k => (laterAll b xs).bind fun ks => .ok (k :: ks) := rfl

theorem laterAll_ok_ub {b : Bytes} {x : KeyView} {k : Bytes} {xs : List KeyView}
    (h1 : x.later b = .ok k) (h2 : laterAll b xs = .ub) : laterAll b (x :: xs) = .ub := by
  rw [laterAll_cons, h1, h2]; rfl

theorem laterAll_ok_ok {b : Bytes} {x : KeyView} {k : Bytes} {xs : List KeyView} {ks : List Bytes}
    (h1 : x.later b = .ok k) (h2 : laterAll b xs = .ok ks) : laterAll b (x :: xs) = .ok (k :: ks) := by
  rw [laterAll_cons, h1, h2]; rfl

theorem laterAll_scratch (b : Bytes) (xs : List KeyView) : laterAll b (.inScratch :: xs) = .ub := rfl

end KeyView

theorem sliceAt_nested {v : Bytes} {off m p n : Nat} {s : Bytes}
    (h : sliceAt ((v.drop off).take m) p n = .ok s) (ho : off ≤ v.length) (hm : m ≤ (v.drop off).length) :
    sliceAt v (off + p) n = .ok s := by
  unfold sliceAt at h ⊢
  split at h
  · rename_i hp
    simp only [List.length_take, List.length_drop] at hp hm
    rw [if_pos (by omega), ← h]
    congr 1
    rw [List.drop_take, List.drop_drop, List.take_take, Nat.min_eq_left (by omega)]
  · cases h

end Zer
