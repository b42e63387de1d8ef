import Verif.Proto

/-!
# A reader position presents at most one value
-/

namespace Zer

/-- A writer that only records its calls. -/
def recorder : Writer (List Ev) := ⟨fun s e => .ok (s ++ [e])⟩

theorem recorder_run (es s : List Ev) : recorder.run s es = .ok (s ++ es) := by
  induction es generalizing s with
  | nil => simp
  | cons e es ih =>
    simp only [Writer.run_cons, recorder, Res.ok_bind]
    have := ih (s ++ [e])
    simp only [recorder] at this
    rw [this]; simp

/-- The calls of a value determine the value. -/
theorem emit_inj {v w : Val} (h : emit v = emit w) : v = w := by
  have := Tree.eval_emit v
  rw [h, Tree.eval_emit w] at this
  injection this with this
  exact this.symm

/-- Two values presented by one position are equal, up to the signedness of integers (exactly, if the
reader presents it) and shadowed map entries. -/
theorem Reader.AgreesW.determined {ρ : Type} {R : Reader ρ} {p : Prop} {r : ρ} {v w : Val}
    (hv : R.AgreesW p r v) (hw : R.AgreesW p r w) :
    v.firstWins.Same w.firstWins ∧ (p → v.firstWins = w.firstWins) := by
  obtain ⟨v', h1, h2, h3⟩ := writeValue_run v r hv
  obtain ⟨w', k1, k2, k3⟩ := writeValue_run w r hw
  have e1 := h3 _ recorder (max v.depth w.depth) (Nat.le_max_left _ _) []
  have e2 := k3 _ recorder (max v.depth w.depth) (Nat.le_max_right _ _) []
  rw [recorder_run] at e1 e2
  rw [e1] at e2
  injection e2 with e2
  have e := emit_inj (List.append_cancel_left e2)
  subst e
  refine ⟨?_, fun hp => ?_⟩
  · unfold Val.Same at h1 k1 ⊢
    rw [← h1, k1]
  · rw [← h2 hp, k2 hp]

/-- With distinct keys, a position presents at most one value. -/
theorem Reader.AgreesW.determined_distinct {ρ : Type} {R : Reader ρ} {p : Prop} {r : ρ} {v w : Val}
    (hv : R.AgreesW p r v) (hw : R.AgreesW p r w) (dv : v.Distinct) (dw : w.Distinct) :
    v.Same w ∧ (p → v = w) := by
  have := hv.determined hw
  rwa [Val.firstWins_of_distinct v dv, Val.firstWins_of_distinct w dw] at this

end Zer
