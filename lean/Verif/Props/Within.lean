import Verif.Flex.Within
import Verif.Props.Flex

/-!
# C74, C75 for Flex: parts of messages and messages in larger buffers

A flexbuffer is read from its end. What comes before a message is not part of it; what comes after it replaces it.
-/

namespace Zer.Flex

variable {L : Lib}

/-- C75 for Flex, the other way round: a buffer that presents a value presents it whatever bytes come before, for
arbitrary input bytes. Missing: bytes that follow (`c75_flex_refuted`). -/
theorem c75_flex_partial {p : Prop} {b : Bytes} {r : Ref} {v : Val} (hb : b ≠ []) (ho : opn b = .ok r) (h : reader.AgreesW p r v) (x : Bytes) :
    ∃ s, opn (x ++ b) = .ok s ∧ reader.AgreesW p s v := by
  obtain ⟨s, h1, h2⟩ := opn_within hb ho x
  exact ⟨s, h1, reader_within.agrees h h2⟩

theorem serialize_ne_nil {dbg : Bool} {v : Val} {b : Bytes} (h : (proto L dbg).serialize v = .ok b) : b ≠ [] := by
  intro e
  subst e
  obtain ⟨s, -, h⟩ := Res.bind_eq_ok.1 h
  change finish dbg s = _ at h
  unfold finish at h
  simp only at h
  generalize (if s.wrote then s.stack else s.stack ++ [⟨0, 0, 0⟩]) = stack at h
  split at h
  · cases h
  · split at h
    · injection h with h
      have := congrArg List.length h
      simp [finishRoot] at this
    · cases h

/-- C75 is false of Flex, for every input: bytes can be put behind any buffer so that it presents any value that can be
serialized. Of several messages in a row the last one is read. -/
theorem c75_flex_refuted (H : L.Law) (dbg : Bool) {w : Val} (hd : w.Distinct) (hn : w.NulFree) (hf : Fits w) :
    ∃ x, (proto L dbg).serialize w = .ok x ∧ ∀ b, ∃ r, opn (b ++ x) = .ok r ∧ reader.AgreesStrictly r w.sortKeys := by
  obtain ⟨x, r, h1, h2, h3⟩ := bytesOf_agrees H dbg (Tree.eval_emit w) hd hn hf
  exact ⟨x, h1, fun b => c75_flex_partial (serialize_ne_nil h1) h2 h3 b⟩

theorem finishRoot_ext (b : Bytes) (v : BV) : ∃ t, finishRoot b v = b ++ t ∧ t ≠ [] := by
  simp only [finishRoot, align, List.append_assoc]
  exact ⟨_, rfl, by simp⟩

/-- C74 is false of Flex: whatever value is serialized, the bytes are readable as null when all of them are lost; and
every value that can be serialized is what a proper prefix of the serialization of another value presents. -/
theorem c74_flex_refuted (H : L.Law) (dbg : Bool) :
    (∃ r, opn [] = .ok r ∧ reader.AgreesStrictly r .null) ∧
    ∀ {w : Val}, w.Distinct → w.NulFree → Fits w →
      ∃ c b p t r, (proto L dbg).serialize (.blob c) = .ok b ∧ b = p ++ t ∧ t ≠ [] ∧ opn p = .ok r ∧
        reader.AgreesStrictly r w.sortKeys := by
  refine ⟨⟨nullRef, rfl, .null ⟨rfl, rfl, ⟨_, _, rfl, rfl, rfl⟩, rfl, rfl, rfl, rfl, rfl⟩⟩, ?_⟩
  intro w hd hn hf
  obtain ⟨c, h1, h2⟩ := c75_flex_refuted H dbg hd hn hf
  obtain ⟨r, h3, h4⟩ := h2 (le (2 ^ widthU c.length) c.length)
  have e : (createBlob [] 25 c []).1 = le (2 ^ widthU c.length) c.length ++ c := by simp [createBlob, align, padding]
  obtain ⟨t, h5, h6⟩ := finishRoot_ext (createBlob [] 25 c []).1 (createBlob [] 25 c []).2
  rw [← e] at h3
  exact ⟨c, finishRoot (createBlob [] 25 c []).1 (createBlob [] 25 c []).2, (createBlob [] 25 c []).1, t, r, by cases dbg <;> rfl, h5, h6,
    h3, h4⟩

/-- The blob that holds the message `true`, without its last three bytes. -/
example : (proto std true).serialize (.bool true) = .ok [1, 104, 1] ∧
    (proto std true).serialize (.blob [1, 104, 1]) = .ok [3, 1, 104, 1, 3, 100, 1] ∧
    (opn [3, 1, 104, 1] >>= asBool) = .ok true := by decide +kernel

/-- Two messages in a row. -/
example : (opn ([5, 8, 1] ++ [1, 104, 1]) >>= asBool) = .ok true ∧ (opn [5, 8, 1] >>= asUInt64) = .ok 5 := by decide +kernel

end Zer.Flex
