import Verif.Props.Nested
import Verif.Props.Evolve

/-!
# C109 and C110 along any way

Documents that were written to any format, translated between formats any number of times, as a whole or in parts (`ArrivesDoc`,
`Verif/Props/Nested.lean`), read by programs (`Prog`, `Verif/Props/Program.lean`).
-/

namespace Zer

open Tensor

/-- C109 along any way: a program gets from a document, wherever and however it arrived, the result that the value gives; so two copies that came
by different ways give the same. -/
theorem c109_arrived {T U : Terminal} (hT : T.P.reader.Raises) (hU : U.P.reader.Raises) {r : T.P.ρ} {s : U.P.ρ} {a b : Signs} {v : Val}
    (hr : ArrivesDoc T r a v) (hs : ArrivesDoc U s b v) (lst : List Bytes → List Bytes) {α : Type} (g : Prog α) :
    g.run T.P.reader lst r [] = .ok (g.tell lst v []) ∧ g.run U.P.reader lst s [] = .ok (g.tell lst v []) :=
  c109_program hT hU lst hr.presented.1 hs.presented.1 rfl g

/-- C110 along any way: the same for two versions of a document, and programs that ignore the new members. -/
theorem c110_arrived {T U : Terminal} (hT : T.P.reader.Raises) (hU : U.P.reader.Raises) {r : T.P.ρ} {s : U.P.ρ} {a b : Signs} {v w : Val}
    (hr : ArrivesDoc T r a v) (hs : ArrivesDoc U s b w) {N : Bytes → Bool} {lst : List Bytes → List Bytes}
    (hl : ∀ ks, lst (ks.filter fun k => !N k) = lst ks) (h : (v.without N).Same (w.without N)) {α : Type} {g : Prog α} (hg : g.Ignores N) :
    ∃ x, g.run T.P.reader lst r [] = .ok x ∧ g.run U.P.reader lst s [] = .ok x :=
  c110_new_members hT hU hl hr.presented.1 hs.presented.1 h hg

/-- The readers of the five formats raise. -/
theorem c109_terminals {X : Json.Text} (hX : X.Law) {L : Flex.Lib} (hL : L.Law) (utf8 : Bytes → Bool) (maxDepth fuel : Nat) (dbg dbg' : Bool) :
    zeraT.P.reader.Raises ∧ msgpackT.P.reader.Raises ∧ (cborT utf8 maxDepth fuel).P.reader.Raises ∧ (jsonT hX dbg).P.reader.Raises ∧
      (flexT hL dbg').P.reader.Raises :=
  ⟨Zera.raises, MsgPack.raises, Cbor.raises false fuel, Json.raises, Flex.raises⟩

end Zer
