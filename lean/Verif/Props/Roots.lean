import Verif.Buffer.Roots

/-!
# C73: What root serializers own is released exactly once
-/

namespace Zer.Roots

/-! ## JSON -/

namespace Json

/-- C73 for JSON, without copies: no history of root serializers that are neither copied nor moved does anything undefined,
no document is freed twice, and a document is freed only if `finish` was called on the object that made it. Every object
that is still there either has its own document, not freed, or has finished, and its document is freed. -/
theorem c73_json_partial (os : List Op) (h : ∀ o ∈ os, o.plain = true) :
    ∃ s, run {} os = .ok s ∧ s.freed.Nodup ∧
      (∀ d ∈ s.freed, .finish d ∈ os) ∧
      ∀ i p, s.obj i = some p → (p = some i ∧ i ∉ s.freed) ∨ (p = none ∧ i ∈ s.freed) := by
  obtain ⟨s, h1, h2, h3⟩ := Inv.init.run h
  refine ⟨s, h1, h2.nodup, fun d hd => ?_, h2.owns⟩
  rcases h3 d hd with h | h
  · simp at h
  · exact h

/-- An object on which `finish` is not called never frees its document, whatever is done before and afterwards. In particular
every `serialize<JSON>` that raises while the value is written leaks the document. -/
theorem c73_json_leak (os : List Op) (d : Nat) (h : ∀ o ∈ os, o.plain = true) (hd : .finish d ∉ os)
    {s : State} (hs : run {} os = .ok s) : d ∉ s.freed := by
  obtain ⟨s', h1, _, h3, _⟩ := c73_json_partial os h
  rw [h1] at hs
  cases hs
  exact fun hm => hd (h3 d hm)

/-- C73 is false for JSON: what happens when writing raises. The object is gone and the document is not freed. -/
theorem c73_json_leak_refuted : run {} [.new, .write 0, .destroy 0] = .ok { objs := [none], docs := 1, freed := [] } := by
  decide

/-- C73 is false for JSON: a copied (or moved) root serializer shares the document; finishing both frees it twice. -/
theorem c73_json_copy_refuted : run {} [.new, .copy 0, .finish 0, .finish 1] = .ub := by decide

/-- Moving is copying: the temporary that was moved from may well be destroyed, but a writer call on it after the other has
finished uses a freed document. -/
theorem c73_json_move_refuted : run {} [.new, .copy 0, .finish 1, .write 0] = .ub := by decide

/-- The value does not matter: as long as there are no copies, two serializers side by side are independent. -/
example : run {} [.new, .new, .write 1, .write 0, .finish 1, .destroy 1, .write 0, .destroy 0]
    = .ok { objs := [none, none], docs := 2, freed := [1] } := by decide

end Json

/-! ## MessagePack -/

namespace MsgPack

/-- C73 for MessagePack, without copies: nothing undefined happens, nothing is freed or handed out twice, and what is neither
freed nor handed out belongs to an object that is still there. -/
theorem c73_msgpack_partial (os : List Op) (h : ∀ o ∈ os, o.plain = true) :
    ∃ s, run {} os = .ok s ∧ (s.freed ++ s.handed).Nodup ∧
      ∀ n, n < s.blocks → n ∈ s.freed ++ s.handed ∨ ∃ i t, s.obj i = some ⟨some n, t⟩ := by
  obtain ⟨s, h1, h2⟩ := Inv.init.run h
  exact ⟨s, h1, h2.nodup, h2.all⟩

/-- No leaks: once all objects are destroyed every block was freed or handed out, exactly once. -/
theorem c73_msgpack_no_leak (os : List Op) (h : ∀ o ∈ os, o.plain = true) {s : State} (hs : run {} os = .ok s)
    (hall : ∀ o ∈ s.objs, o = none) (n : Nat) : (s.freed ++ s.handed).count n = if n < s.blocks then 1 else 0 := by
  obtain ⟨s', h1, h2⟩ := Inv.init.run h
  rw [hs] at h1
  cases h1
  by_cases hn : n < s.blocks
  · rw [if_pos hn]
    rcases h2.all n hn with hm | ⟨i, t, hi⟩
    · exact h2.nodup.count.trans (if_pos hm)
    · exfalso
      have hl := obj_lt hi
      simp only [State.obj, List.getElem?_eq_getElem hl, Option.join_some] at hi
      rw [hall _ (List.getElem_mem hl)] at hi
      cases hi
  · rw [if_neg hn]
    exact List.count_eq_zero.2 fun hm => hn (h2.range n hm)

example : run {} [.new, .write 0, .new, .write 1, .finish 0, .write 0, .destroy 1, .destroy 0]
    = .ok { objs := [none, none], blocks := 3, freed := [1, 2], handed := [0] } := by decide

/-- C73 is false for MessagePack: the destructors of an object and its copy free the same memory. -/
theorem c73_msgpack_copy_refuted : run {} [.new, .write 0, .copy 0, .destroy 0, .destroy 1] = .ub := by decide

/-- C73 is false for MessagePack: even a copy of an empty object writes into the original, which may be gone (returning a
root serializer from a function by move). -/
theorem c73_msgpack_move_refuted : run {} [.new, .copy 0, .destroy 0, .write 1] = .ub := by decide

end MsgPack

end Zer.Roots
