import Verif.Props.PromiseMore

/-!
# Property C115, continued: blobs and sizes of arrays in ZERA, on any bytes
-/

namespace Zer.Zera

theorem flags_done {v : View} {t : Nat} (h : v.tag = .ok t) (ht : t ≠ tString) (hf : v.flags = .ok 0) : v.requireFlagsOk = .ok () :=
  (flagsOk_iff h ht).2 hf

theorem env_ok {v : View} {o n : Nat} (h : o + n ≤ v.envSize) : v.envPtrAt o n = .ok (HeaderSize + o) := by
  have h1 : o ≤ v.envSize := by omega
  have h2 : n ≤ v.envSize := by omega
  simp [View.envPtrAt, h1, h2, h, Res.require]

theorem arena_ok {v : View} {o n : Nat} (h : o + n ≤ v.arenaLen) : v.arenaBytes o n = .ok (v.arenaOfs + o, n) := by
  have h1 : o ≤ v.arenaLen := by omega
  have h2 : n ≤ v.arenaLen := by omega
  simp [View.arenaBytes, h1, h2, h, Res.require]

/-- C115 for ZERA, arrays, any position of any bytes: what says it is an array has a size if and only if its flags are zero and the references to all of
its elements are inside of the envelope. -/
theorem c115_zera_array (w : View) (hs : w.isArray = .ok true) (n : Nat) :
    w.arraySize = .ok n ↔ w.flags = .ok 0 ∧ ∃ o, w.a = .ok o ∧ readU32 w.buf (HeaderSize + o) = .ok n ∧ o + (4 + 16 * n) ≤ w.envSize := by
  obtain ⟨t, ht, e⟩ := Res.bind_eq_ok.1 hs
  obtain rfl : t = tArray := of_decide_eq_true (Res.ok.inj e)
  constructor
  · intro h
    obtain ⟨_, h1, h⟩ := Res.bind_eq_ok.1 h
    obtain ⟨_, -, h⟩ := Res.bind_eq_ok.1 h
    obtain ⟨_, hf, h⟩ := Res.bind_eq_ok.1 h
    obtain ⟨o, ha, h⟩ := Res.bind_eq_ok.1 h
    obtain ⟨p, hp, h⟩ := Res.bind_eq_ok.1 h
    obtain ⟨c, hc, h⟩ := Res.bind_eq_ok.1 h
    obtain ⟨_, hq, h⟩ := Res.bind_eq_ok.1 h
    obtain rfl := Res.ok.inj h
    obtain ⟨rfl, -⟩ := envPtrAt_eq hp
    exact ⟨(flagsOk_iff ht (by decide)).1 hf, o, ha, hc, (envPtrAt_eq hq).2⟩
  · rintro ⟨hf, o, ha, hn, hl⟩
    simp only [View.arraySize, ht, Res.ok_bind, decide_true, Res.require, if_true, flags_done ht (by decide) hf, ha,
      env_ok (show o + 4 ≤ w.envSize by omega), hn, env_ok hl]
    rfl

/-- C115 for ZERA, blobs, any position of any bytes below 4 GiB - 20: what says it is a blob can be read if and only if its flags are zero, its shape is
inside of the envelope, of rank 1 and as long as the blob, and its bytes are inside of the arena. -/
theorem c115_zera_blob {b : Bytes} (hb : b.length < 2 ^ 32 - 20) {v w : View} (h : initFrom b = .ok v) (hr : reader.Reach v w)
    (hs : w.isBlob = .ok true) : (∃ x, w.asBlob = .ok x) ↔ w.flags = .ok 0 ∧ ∃ s o n, w.c = .ok s ∧ w.a = .ok o ∧ w.b = .ok n ∧
      s + 12 ≤ w.envSize ∧ readU32 w.buf (HeaderSize + s) = .ok 1 ∧ readU64 w.buf (HeaderSize + s + 4) = .ok n ∧ o + n ≤ w.arenaLen := by
  have C := c04_zera_reader_safe_partial hb h hr
  obtain ⟨t, ht, e⟩ := Res.bind_eq_ok.1 hs
  have htt : t = tTyped := by
    by_cases h : t = tTyped
    · exact h
    · rw [if_neg h] at e; cases e
  subst htt
  constructor
  · rintro ⟨x, hx⟩
    obtain ⟨⟨p, m⟩, hx, -⟩ := Res.bind_eq_ok.1 hx
    obtain ⟨_, -, hx⟩ := Res.bind_eq_ok.1 hx
    obtain ⟨_, -, hx⟩ := Res.bind_eq_ok.1 hx
    obtain ⟨_, hf, hx⟩ := Res.bind_eq_ok.1 hx
    obtain ⟨s, hc, hx⟩ := Res.bind_eq_ok.1 hx
    obtain ⟨sp, hsp, hx⟩ := Res.bind_eq_ok.1 hx
    obtain ⟨rank, hrk, hx⟩ := Res.bind_eq_ok.1 hx
    obtain ⟨_, -, hx⟩ := Res.bind_eq_ok.1 hx
    obtain ⟨_, h1, hx⟩ := Res.bind_eq_ok.1 hx
    obtain ⟨_, hq, hx⟩ := Res.bind_eq_ok.1 hx
    obtain ⟨d, hd, hx⟩ := Res.bind_eq_ok.1 hx
    obtain ⟨y, hy, hx⟩ := Res.bind_eq_ok.1 hx
    obtain ⟨_, h2, hx⟩ := Res.bind_eq_ok.1 hx
    obtain ⟨o, ho, hx⟩ := Res.bind_eq_ok.1 hx
    have hlast := (arenaBytes_eq hx).2
    have henv := (envPtrAt_eq hq).2
    obtain rfl : rank = 1 := of_decide_eq_true (Res.require_eq_ok.1 h1)
    obtain rfl : d = y := of_decide_eq_true (Res.require_eq_ok.1 h2)
    obtain ⟨rfl, -⟩ := envPtrAt_eq hsp
    exact ⟨(flagsOk_iff ht (by decide)).1 hf, s, o, d, hc, ho, hy, henv, hrk, hd, hlast⟩
  · rintro ⟨hf, s, o, n, hc, ho, hn, hl, h1, h2, ha⟩
    have e : w.blobRange = .ok (w.arenaOfs + o, n) := by
      simp only [View.blobRange, hs, Res.ok_bind, Res.require, if_true, flags_done ht (by decide) hf, hc,
        env_ok (show s + 4 ≤ w.envSize by omega), h1, show decide (1 ≤ RankMax) = true from rfl, decide_true,
        env_ok (show s + (4 + 8 * 1) ≤ w.envSize by omega), h2, hn, ho]
      exact arena_ok ha
    have hcl := C.asBlob
    simp only [View.asBlob, e, Res.ok_bind] at hcl ⊢
    unfold sliceAt at hcl ⊢
    split at hcl
    · exact ⟨_, by rw [if_pos (by assumption)]⟩
    · rcases hcl with ⟨_, hcl⟩ | hcl <;> cases hcl

/-- The hypotheses can be met: an array with a blob. -/
example : (do
      let b ← Zera.proto.serialize (.arr [.blob [1, 2, 3], .null])
      let v ← initFrom b
      let n ← v.arraySize
      let c ← v.getIdx 0
      let q ← c.isBlob
      let x ← c.asBlob
      pure (n, q, x)) = .ok (2, true, [1, 2, 3]) := by decide +kernel

end Zer.Zera
