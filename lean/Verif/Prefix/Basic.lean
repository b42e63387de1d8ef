import Verif.Determined

/-!
# Reading part of a buffer: what a call returns on a prefix it also returns on the whole
-/

namespace Zer

/-- Whatever the first call returns, the second returns. -/
def Res.Le {α : Type} (x y : Res α) : Prop := ∀ a, x = .ok a → y = .ok a

namespace Res.Le

theorem refl {α : Type} (x : Res α) : x.Le x := fun _ h => h
theorem err {α : Type} {e : Err} {y : Res α} : (Res.err e : Res α).Le y := fun _ h => by cases h
theorem ub {α : Type} {y : Res α} : (Res.ub : Res α).Le y := fun _ h => by cases h
theorem diverge {α : Type} {y : Res α} : (Res.diverge : Res α).Le y := fun _ h => by cases h

theorem bind {α β : Type} {x y : Res α} {f g : α → Res β} (h : x.Le y) (hf : ∀ a, (f a).Le (g a)) :
    (x >>= f).Le (y >>= g) := by
  intro b hb
  obtain ⟨a, h1, h2⟩ := Res.bind_eq_ok.1 hb
  exact Res.bind_eq_ok.2 ⟨a, h a h1, hf a b h2⟩

theorem require {c d : Bool} {e : Err} (h : c = true → d = true) : (Res.require c e).Le (Res.require d e) := by
  intro u hu
  rw [Res.require_eq_ok] at hu ⊢
  exact h hu

theorem ite {α : Type} {c : Prop} [Decidable c] {x x' y y' : Res α} (h : x.Le x') (h' : y.Le y') :
    (if c then x else y).Le (if c then x' else y') := by
  split
  · exact h
  · exact h'

theorem byteAt (v t : Bytes) (p : Nat) : (byteAt v p).Le (byteAt (v ++ t) p) := by
  intro x h
  have hp : p < v.length := by
    by_cases hp : p < v.length
    · exact hp
    · simp [Zer.byteAt, List.getElem?_eq_none (Nat.le_of_not_lt hp)] at h
  simpa [Zer.byteAt, List.getElem?_append_left hp] using h

theorem sliceAt (v t : Bytes) (p n : Nat) : (sliceAt v p n).Le (sliceAt (v ++ t) p n) := by
  intro x h
  unfold Zer.sliceAt at h ⊢
  split at h
  · rename_i hl
    rw [if_pos (by simp; omega), ← h]
    rw [List.drop_append_of_le_length (by omega), List.take_append_of_le_length (by simp; omega)]
  · cases h

end Res.Le

/-- A presented value has the kind that is shown. -/
theorem Reader.AgreesW.kind_eq {ρ : Type} {R : Reader ρ} {p : Prop} {r : ρ} {v w : Val} (h : R.AgreesW p r w)
    (hs : R.Shows r (v.kind == 0) (v.kind == 1) (v.kind == 2) (v.kind == 3) (v.kind == 4) (v.kind == 5) (v.kind == 6)
      (v.kind == 7)) : w.kind = v.kind := by
  obtain ⟨ar, h, har⟩ := h.shows
  obtain ⟨e0, e1, e2, e3, e4, e5, e6, e7⟩ := h.unique hs
  have hv : v.kind ≤ 7 := by cases v <;> simp [Val.kind]
  have hw : w.kind ≤ 7 := by cases w <;> simp [Val.kind]
  have key : ∀ a : Fin 8, ∀ b : Fin 8, (a.1 == 0) = (b.1 == 0) → (a.1 == 1) = (b.1 == 1) →
      (a.1 == 2) = (b.1 == 2) → (a.1 == 3) = (b.1 == 3) → (a.1 == 4) = (b.1 == 4) →
      (a.1 == 5) = (b.1 == 5) → (a.1 == 6) = (b.1 == 6) → a.1 = b.1 := by decide
  exact key ⟨w.kind, by omega⟩ ⟨v.kind, by omega⟩ e0 e1 e2 e3 e4 e5 e6

/-- What a position of array kind answers. -/
theorem Reader.AgreesW.arr_of_kind {ρ : Type} {R : Reader ρ} {p : Prop} {r : ρ} {w : Val} (h : R.AgreesW p r w) (hk : w.kind = 7) :
    ∃ (ys : List Val) (child : Nat → ρ), R.arraySize r = .ok ys.length ∧
      ∀ i (hi : i < ys.length), R.getIdx r i = .ok (child i) ∧ R.AgreesW p (child i) ys[i] := by
  cases h with
  | arr child _ h1 h2 _ h3 => exact ⟨_, child, h1, fun i hi => ⟨h2 i hi, h3 i hi⟩⟩
  | _ => simp [Val.kind] at hk

/-- What a position of map kind answers. -/
theorem Reader.AgreesW.map_of_kind {ρ : Type} {R : Reader ρ} {p : Prop} {r : ρ} {w : Val} (h : R.AgreesW p r w) (hk : w.kind = 6) :
    ∃ (ys : List (Bytes × Val)) (child : Bytes → ρ), R.mapKeys r = .ok (ys.map Prod.fst) ∧
      ∀ k, k ∈ ys.map Prod.fst → R.getKey r k = .ok (child k) ∧ ∃ u, R.AgreesW p (child k) u := by
  cases h with
  | @map _ ms child _ h1 _ h2 _ h3 =>
    refine ⟨_, child, h1, fun k hk => ⟨h2 k hk, ?_⟩⟩
    obtain ⟨u, hu⟩ := firstVal_isSome.1 hk
    exact ⟨u, h3 k u hu⟩
  | _ => simp [Val.kind] at hk

/-- Looking up a key a map does not have answers `false`. -/
theorem Reader.AgreesW.no_key {ρ : Type} {R : Reader ρ} {p : Prop} {r : ρ} {w : Val} (h : R.AgreesW p r w) (hk : w.kind = 6) :
    ∃ k, R.contains r k = .ok false := by
  cases h with
  | @map _ ms child _ _ h1 _ _ _ =>
    have fresh : ∀ ks : List Bytes, ∃ n, ∀ k ∈ ks, k.length ≤ n := by
      intro ks
      induction ks with
      | nil => exact ⟨0, by simp⟩
      | cons k ks ih =>
        obtain ⟨n, hn⟩ := ih
        refine ⟨max n k.length, fun x hx => ?_⟩
        rcases List.mem_cons.1 hx with rfl | hx
        · omega
        · have := hn x hx; omega
    obtain ⟨n, hn⟩ := fresh (ms.map Prod.fst)
    refine ⟨List.replicate (n + 1) 0, ?_⟩
    rw [h1, decide_eq_false]
    intro hm
    have := hn _ hm
    simp at this
    omega
  | _ => simp [Val.kind] at hk

end Zer
