import Verif.Props.Life
import Verif.Json.Model

/-!
# C96 for JSON, and C48 for views: keys and parts of a document, as long as it has an owner

`KeysView` (json.hpp:24-73) holds the address of the object's node in the document, not of the reader; its iterators hold that address, the state of
`yyjson_obj_iter`, and the address of the current key. The views that they give out are the strings of the document.
-/

namespace Zer.Json

/-- `KeysView::iterator`, json.hpp:27-30: `owner`, of `it` (yyjson's `idx`, `max`) the number of keys that were passed, `key`. The node of the
`i`-th key of an object is `i`. -/
structure KeyIter where
  owner : Nat
  idx : Nat
  key : Option Nat
  deriving DecidableEq

/-- `yyjson_obj_iter_next` of an object with `n` members: the next key, or `nullptr`. -/
def KeyIter.advance (n : Nat) (it : KeyIter) : KeyIter :=
  if it.idx < n then { it with idx := it.idx + 1, key := some it.idx } else { it with key := none }

/-- `iterator(o, to_end)`, json.hpp:41-44, of the object at `o` with `n` members. -/
def KeyIter.make (o n : Nat) (toEnd : Bool) : KeyIter :=
  if toEnd then ⟨o, 0, none⟩ else KeyIter.advance n ⟨o, 0, none⟩

/-- `operator==`, json.hpp:63-66. -/
def KeyIter.eq (a b : KeyIter) : Bool := a.owner == b.owner && a.key == b.key

/-- `operator*`, json.hpp:46-49: `yyjson_get_str(nullptr)` is null, and so is the length: an empty view. -/
def KeyIter.deref (ms : List (Bytes × Val)) (it : KeyIter) : Bytes :=
  match it.key with
  | some i => (ms[i]?.map Prod.fst).getD []
  | none => []

/-- `for (it = a; it != e; ++it) keys.push_back(*it);` over the object with the members `ms`. -/
def keysBetween (ms : List (Bytes × Val)) : Nat → KeyIter → KeyIter → Res (List Bytes)
  | 0, _, _ => .diverge
  | f + 1, a, e =>
    if a.eq e then .ok []
    else do
      let ks ← keysBetween ms f (a.advance ms.length) e
      pure (a.deref ms :: ks)

theorem keysBetween_from {ms : List (Bytes × Val)} {o : Nat} {e : KeyIter} (ho : e.owner = o) (he : e.key = none) : ∀ (k i : Nat), i + k = ms.length →
    ∀ f, k < f → keysBetween ms f (KeyIter.advance ms.length ⟨o, i, if i = 0 then none else some (i - 1)⟩) e = .ok ((ms.drop i).map Prod.fst)
  | 0, i, hi, f, hf => by
    obtain ⟨f, rfl⟩ : ∃ g, f = g + 1 := ⟨f - 1, by omega⟩
    simp only [KeyIter.advance, if_neg (show ¬ i < ms.length by omega), keysBetween, KeyIter.eq, ho, he, beq_self_eq_true, Bool.and_self, if_true]
    rw [List.drop_of_length_le (by omega)]; rfl
  | k + 1, i, hi, f, hf => by
    obtain ⟨f, rfl⟩ : ∃ g, f = g + 1 := ⟨f - 1, by omega⟩
    have ih := keysBetween_from (ms := ms) ho he k (i + 1) (by omega) f (by omega)
    rw [if_neg (by omega), Nat.add_sub_cancel] at ih
    have hl : i < ms.length := by omega
    simp only [KeyIter.advance] at ih
    simp only [KeyIter.advance, if_pos hl, keysBetween, KeyIter.eq, ho, he, beq_self_eq_true, Bool.true_and, ih, Res.ok_bind, Res.pure_eq]
    rw [if_neg (by simp), KeyIter.deref, List.drop_eq_getElem_cons hl]
    simp only [List.getElem?_eq_getElem hl, Option.map_some, Option.getD_some, List.map_cons]

/-- C96 for JSON: from the `begin()` of one call of `mapKeys()` to the `end()` of the same or another call, on the same or another reader of the
same object, the iterators run through the keys that `mapKeys` lists, whatever their number. -/
theorem c96_json_two_calls (ms : List (Bytes × Val)) (o : Nat) {f : Nat} (hf : ms.length < f) :
    keysBetween ms f (.make o ms.length false) (.make o ms.length true) = mapKeys (.map ms) := by
  have := keysBetween_from (ms := ms) (o := o) (e := .make o ms.length true) rfl rfl ms.length 0 (by omega) f hf
  simpa [KeyIter.make, mapKeys] using this

theorem keysBetween_other {ms : List (Bytes × Val)} {e : KeyIter} : ∀ (f : Nat) {a : KeyIter}, a.owner ≠ e.owner → keysBetween ms f a e = .diverge
  | 0, _, _ => rfl
  | f + 1, a, h => by
    have h' : (a.advance ms.length).owner ≠ e.owner := by
      unfold KeyIter.advance; split <;> exact h
    rw [keysBetween, if_neg (by simp [KeyIter.eq, h]), keysBetween_other f h']
    rfl

/-- The ranges of two objects do not go together, not even if both are empty. -/
theorem c96_json_two_objects (ms : List (Bytes × Val)) {o p n : Nat} (h : o ≠ p) (f : Nat) :
    keysBetween ms f (.make o ms.length false) (.make p n true) = .diverge := by
  refine keysBetween_other f ?_
  unfold KeyIter.make KeyIter.advance
  simp only [Bool.false_eq_true, if_false, if_true]
  split <;> exact h

example : keysBetween [([98], .null), ([97], .null), ([98], .null)] 4 (.make 7 3 false) (.make 7 3 true) = .ok [[98], [97], [98]] := by decide

end Zer.Json

namespace Zer.Life

/-- **C48, C96** Exactly as long as a document has a living owner, wherever it has been moved to, views of the document and the keys that were listed
from it can be used: every history, every document that was parsed. -/
theorem c48_json_usable_iff (ops : List JOp) {s : JState} (h : jrun {} ops = some s) {d : Nat} (hd : d < s.docs) :
    d ∉ s.freed ↔ ∃ i r, s.obj i = some r ∧ r.owns = true ∧ r.doc = some d := by
  constructor
  · intro hf
    have hb := c48_json_balance ops h hd
    rw [List.count_eq_zero_of_not_mem hf] at hb
    have : 0 < s.objs.countP (jowns d) := by unfold JState.owners at hb; omega
    obtain ⟨x, hx, hj⟩ := List.countP_pos_iff.1 this
    obtain ⟨i, hi, e⟩ := List.getElem_of_mem hx
    cases x with
    | none => simp [jowns] at hj
    | some r =>
      refine ⟨i, r, ?_, ?_⟩
      · unfold JState.obj
        rw [List.getElem?_eq_getElem hi, e]; rfl
      · simpa [jowns] using hj
  · rintro ⟨i, r, h1, h2, h3⟩
    exact ((c48_json_alive ops h).1 i r d h1 h2 h3).2

/-- A document is parsed, a view is taken of a part (`auto v = d["m"]`), the reader is moved and the old one destroyed: the view is usable; the new
one is destroyed: it is not. -/
example : ∃ s t r, jrun {} [.parse true, .view 0, .moveNew 0, .destroy 0] = some s ∧ s.obj 1 = some r ∧ r.doc = some 0 ∧ 0 ∉ s.freed ∧
    jrun {} [.parse true, .view 0, .moveNew 0, .destroy 0, .destroy 2] = some t ∧ t.obj 1 = some r ∧ 0 ∈ t.freed :=
  ⟨_, _, _, rfl, rfl, rfl, by decide +kernel, rfl, rfl, by decide +kernel⟩

end Zer.Life
