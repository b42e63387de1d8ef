import Verif.Flex.Write

/-!
# Flex: strings and keys that are views into other memory

`mem` is the memory from the start of the view to the end of its allocation; the view is its first
`len` bytes. flexbuffers copies the byte behind the view with it.
-/

namespace Zer.Flex

/-- `key(std::string_view)`, flex.hpp:91-94, with flexbuffers `Key(str, len)`, which copies `len + 1`
bytes. -/
def keyView (s : RS) (mem : Bytes) (len : Nat) : Res RS :=
  match mem[len]? with
  | some c => keyBytes s (mem.take len ++ [c])
  | none => .ub

/-- `string(std::string_view)`, flex.hpp:57, with flexbuffers `String(str, len)`, which calls
`CreateBlob(str, len, 1, FBT_STRING)` and copies `len + 1` bytes. -/
def strView (s : RS) (mem : Bytes) (len : Nat) : Res RS :=
  match mem[len]? with
  | some c => .ok (pushBlob s (createBlob s.buf 5 (mem.take len) [c]))
  | none => .ub

/-- A view followed by a NUL is the case that `step` models. -/
theorem keyView_nul {L : Lib} {dbg : Bool} {s : RS} {mem : Bytes} {len : Nat} (h : mem[len]? = some 0) :
    keyView s mem len = step L dbg s (.key (mem.take len)) := by
  simp only [keyView, h, step]

theorem strView_nul {L : Lib} {dbg : Bool} {s : RS} {mem : Bytes} {len : Nat} (h : mem[len]? = some 0) :
    strView s mem len = step L dbg s (.str (mem.take len)) := by
  simp only [strView, h, step]

theorem not_mem_cstrAt {b : Bytes} {p : Nat} (h : (0 : UInt8) ∉ b.drop p) : cstrAt b p = .ub := by
  rw [cstrAt, if_neg h]

/-- Without a NUL the key that is stored is not the view: something else is copied, or the comparison
with the keys of the pool leaves the buffer. -/
theorem keyView_other {L : Lib} {dbg : Bool} {s : RS} {mem : Bytes} {len : Nat} {c : UInt8} (hp : PoolOk s.buf s.pool)
    (h : mem[len]? = some c) (hc : c ≠ 0) (hn : (0 : UInt8) ∉ mem.take len) :
    keyView s mem len ≠ step L dbg s (.key (mem.take len)) := by
  simp only [keyView, h, step, keyBytes]
  obtain ⟨b', u, pool', h1, _⟩ := createKey_ok (N := True) hn [] hp
  rw [List.append_nil] at h1
  cases hpool : s.pool with
  | nil =>
    simp only [createKey, findKey, Res.pure_eq, Res.ok_bind]
    intro e
    injection e with e
    injection e with e
    have e := List.append_cancel_left e
    have e := List.append_cancel_left e
    simp [hc] at e
  | cons p ps =>
    rw [hpool] at h1 hp
    rw [h1]
    obtain ⟨k, k0, ka⟩ := hp p (by simp)
    have hd : (0 : UInt8) ∉ (s.buf ++ (mem.take len ++ [c])).drop s.buf.length := by
      rw [List.drop_left]
      intro hm
      rcases List.mem_append.1 hm with hm | hm
      · exact hn hm
      · exact hc (List.mem_singleton.1 hm).symm
    rw [createKey, findKey, cstrAt_at k0 (ka.append_right _), not_mem_cstrAt hd]
    simp only [Res.ok_bind, Res.ub_bind, Res.pure_eq]
    intro e; cases e

end Zer.Flex
