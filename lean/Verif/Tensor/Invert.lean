import Verif.Tensor.Lemmas

/-!
# What a returned view says about the input
-/

namespace Zer.Tensor

variable {ρ : Type}

/-- The parts that a tensor was read from, at any position of any reader. -/
structure Read (R : TReader ρ) (dt : DType) (r e0 e1 e2 : ρ) (shape : List Nat) (bytes : Bytes) : Prop where
  arr : R.isArray r = .ok true
  g0 : R.getIdx r 0 = .ok e0
  g1 : R.getIdx r 1 = .ok e1
  g2 : R.getIdx r 2 = .ok e2
  isInt : R.isInt e0 = .ok true
  int8 : R.asIntN 8 e0 = .ok dt.code
  int32 : R.asIntN 32 e0 = .ok dt.code
  shape : tensorShape R.toReader e1 = .ok shape
  isBlob : R.isBlob e2 = .ok true
  blob : R.asBlob e2 = .ok bytes

theorem if_err_ok {α : Type} {c : Prop} [Decidable c] {e : Err} {x : Res α} {v : α}
    (h : (if c then .err e else x) = .ok v) : ¬ c ∧ x = .ok v := by
  by_cases hc : c
  · rw [if_pos hc] at h; cases h
  · rw [if_neg hc] at h; exact ⟨hc, h⟩

theorem isTensor_true {R : TReader ρ} {dt : DType} {r : ρ} (h : isTensor R dt r = .ok true) :
    ∃ e0 e1 e2, R.isArray r = .ok true ∧ R.getIdx r 0 = .ok e0 ∧ R.getIdx r 1 = .ok e1 ∧ R.getIdx r 2 = .ok e2 ∧
      R.isInt e0 = .ok true ∧ R.asIntN 8 e0 = .ok dt.code ∧ R.isArray e1 = .ok true ∧ R.isBlob e2 = .ok true := by
  unfold isTensor at h
  obtain ⟨a, ha, h⟩ := Res.bind_eq_ok.1 h
  cases a with
  | false => simp at h
  | true =>
    simp only [Bool.not_true, Bool.false_eq_true, if_false] at h
    obtain ⟨n, hn, h⟩ := Res.bind_eq_ok.1 h
    by_cases hlt : n < 3
    · simp [hlt] at h
    · simp only [hlt, if_false] at h
      obtain ⟨e0, h0, h⟩ := Res.bind_eq_ok.1 h
      obtain ⟨i, hi, h⟩ := Res.bind_eq_ok.1 h
      cases i with
      | false => simp at h
      | true =>
        simp only [Bool.not_true, Bool.false_eq_true, if_false, h0, Res.ok_bind] at h
        obtain ⟨c, hc, h⟩ := Res.bind_eq_ok.1 h
        by_cases hcc : c ≠ dt.code
        · rw [if_pos hcc] at h; simp at h
        · rw [if_neg hcc] at h
          obtain ⟨e1, h1, h⟩ := Res.bind_eq_ok.1 h
          obtain ⟨a1, ha1, h⟩ := Res.bind_eq_ok.1 h
          cases a1 with
          | false => simp at h
          | true =>
            simp only [Bool.not_true, Bool.false_eq_true, if_false] at h
            obtain ⟨e2, h2, hb⟩ := Res.bind_eq_ok.1 h
            have : c = dt.code := Classical.not_not.1 hcc
            subst this
            exact ⟨e0, e1, e2, ha, h0, h1, h2, hi, hc, ha1, hb⟩

theorem asXTensorView_ok {R : TReader ρ} {dt : DType} {D : Option Nat} {r : ρ} {v : View}
    (h : asXTensorView R dt D r = .ok v) :
    ∃ e0 e1 e2 shape bytes count, Read R dt r e0 e1 e2 shape bytes ∧ (∀ d, D = some d → shape.length = d) ∧
      checkedCount 1 shape = .ok count ∧ bytes.length = (count * dt.size) % 2 ^ 64 ∧
      makeView R.span (R.addr e2) dt shape count bytes = .ok v := by
  unfold asXTensorView at h
  obtain ⟨t, ht, g⟩ := Res.bind_eq_ok.1 h
  obtain ⟨_, hr, k⟩ := Res.bind_eq_ok.1 g
  rw [Res.require_eq_ok.1 hr] at ht
  obtain ⟨e0, e1, e2, ha, h0, h1, h2, hi, hc, ha1, hb⟩ := isTensor_true ht
  simp only [h0, h1, h2, Res.ok_bind] at k
  obtain ⟨c, hc', k⟩ := Res.bind_eq_ok.1 k
  by_cases hcc : c ≠ dt.code
  · rw [if_pos hcc] at k; cases k
  · rw [if_neg hcc] at k
    have : c = dt.code := Classical.not_not.1 hcc
    subst this
    obtain ⟨shape, hs, k⟩ := Res.bind_eq_ok.1 k
    obtain ⟨hD, k⟩ := if_err_ok k
    obtain ⟨bytes, hbb, k⟩ := Res.bind_eq_ok.1 k
    obtain ⟨count, hct, k⟩ := Res.bind_eq_ok.1 k
    obtain ⟨hl, k⟩ := if_err_ok k
    refine ⟨e0, e1, e2, shape, bytes, count, ⟨ha, h0, h1, h2, hi, hc, hc', hs, hb, hbb⟩, ?_, hct,
      Classical.not_not.1 hl, k⟩
    rintro d rfl
    simpa using hD

theorem asEigenMatrixView_ok {R : TReader ρ} {dt : DType} {nr nc : Option Nat} {r : ρ} {v : View}
    (h : asEigenMatrixView R dt nr nc r = .ok v) :
    ∃ e0 e1 e2 rows cols bytes, Read R dt r e0 e1 e2 [rows, cols] bytes ∧ (∀ d, nr = some d → rows = d) ∧
      (∀ d, nc = some d → cols = d) ∧ bytes.length = (rows * cols % 2 ^ 64 * dt.size) % 2 ^ 64 ∧
      makeView R.span (R.addr e2) dt [rows, cols] (rows * cols) bytes = .ok v := by
  unfold asEigenMatrixView at h
  obtain ⟨t, ht, g⟩ := Res.bind_eq_ok.1 h
  obtain ⟨_, hr, k⟩ := Res.bind_eq_ok.1 g
  rw [Res.require_eq_ok.1 hr] at ht
  obtain ⟨e0, e1, e2, ha, h0, h1, h2, hi, hc, ha1, hb⟩ := isTensor_true ht
  simp only [h0, h1, h2, Res.ok_bind] at k
  obtain ⟨c, hc', k⟩ := Res.bind_eq_ok.1 k
  by_cases hcc : c ≠ dt.code
  · rw [if_pos hcc] at k; cases k
  · rw [if_neg hcc] at k
    have : c = dt.code := Classical.not_not.1 hcc
    subst this
    obtain ⟨shape, hs, k⟩ := Res.bind_eq_ok.1 k
    match shape, hs, k with
    | [rows, cols], hs, k =>
      obtain ⟨hR, k⟩ := if_err_ok k
      obtain ⟨hC, k⟩ := if_err_ok k
      obtain ⟨bytes, hbb, k⟩ := Res.bind_eq_ok.1 k
      obtain ⟨hl, k⟩ := if_err_ok k
      refine ⟨e0, e1, e2, rows, cols, bytes, ⟨ha, h0, h1, h2, hi, hc, hc', hs, hb, hbb⟩, ?_, ?_,
        Classical.not_not.1 hl, k⟩
      · rintro d rfl
        simpa using hR
      · rintro d rfl
        simpa using hC
    | [], _, k => cases k
    | [_], _, k => cases k
    | _ :: _ :: _ :: _, _, k => cases k

/-- What `makeView` returns. -/
theorem makeView_ok {span : Bool} {addr : Nat} {dt : DType} {shape : List Nat} {count : Nat} {bytes : Bytes} {v : View}
    (h : makeView span addr dt shape count bytes = .ok v) :
    v.shape = shape ∧ v.count = count ∧ v.required = dt.align ∧ v.address = addr ∧ v.byteSize = bytes.length ∧
    v.reason = reasonOf span addr dt.align ∧ (v.zeroCopy = true ↔ reasonOf span addr dt.align = .ok) ∧
    (v.zeroCopy = true → v.bytes = bytes) ∧
    (v.zeroCopy = false → count * dt.size < 2 ^ 64 ∧ v.bytes.length = count * dt.size ∧
      v.bytes.take bytes.length = bytes) := by
  have own : ∀ {o}, ownedCopy count dt.size bytes = .ok o → count * dt.size < 2 ^ 64 ∧ o.length = count * dt.size ∧
      o.take bytes.length = bytes := by
    intro o ho
    unfold ownedCopy at ho
    split at ho
    · split at ho
      · injection ho with ho
        subst ho
        refine ⟨‹_›, ?_, by simp⟩
        simp; omega
      · cases ho
    · cases ho
  unfold makeView at h
  unfold reasonOf
  by_cases hs : span = false
  · rw [if_pos hs] at h
    obtain ⟨o, ho, h⟩ := Res.bind_eq_ok.1 h
    injection h with h
    subst h
    simp [hs, own ho]
  · rw [if_neg hs] at h
    by_cases ha : addr % dt.align ≠ 0
    · rw [if_pos ha] at h
      obtain ⟨o, ho, h⟩ := Res.bind_eq_ok.1 h
      injection h with h
      subst h
      simp [hs, ha, own ho]
    · rw [if_neg ha] at h
      injection h with h
      subst h
      have : addr % dt.align = 0 := Classical.not_not.1 ha
      simp [hs, this]

end Zer.Tensor
