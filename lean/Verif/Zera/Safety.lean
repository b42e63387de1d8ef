import Verif.Zera.Sim
import Verif.Reach

/-!
# The ZERA reader on arbitrary bytes
-/

namespace Zer.Zera
open Res (Clean)

/-- Envelope and arena lie inside the buffer. -/
structure InBuf (v : View) : Prop where
  env : HeaderSize + v.envSize ≤ v.buf.length
  arena : v.arenaOfs ≤ v.buf.length
  envLt : v.envSize < 2 ^ 32

theorem InBuf.withVr {v : View} (h : InBuf v) (x : Option Nat) : InBuf { v with vr := x } :=
  ⟨h.env, h.arena, h.envLt⟩

theorem requireVr_clean (v : View) : v.requireVr.Clean := by
  unfold View.requireVr
  split
  · exact .deser
  · exact (Clean.require _).bind fun _ _ => .pure _

theorem requireVr_bound {v : View} {p : Nat} (h : v.requireVr = .ok p) :
    v.vr = some p ∧ HeaderSize ≤ p ∧ p + 16 ≤ HeaderSize + v.envSize := by
  unfold View.requireVr at h
  split at h
  · cases h
  · rename_i q e
    obtain ⟨_, h1, h2⟩ := Res.bind_eq_ok.1 h
    have := Res.require_eq_ok.1 h1
    injection h2 with h2
    subst h2
    simp at this
    exact ⟨e, this⟩

theorem byteAt_clean {b : Bytes} {p : Nat} (h : p < b.length) : (byteAt b p).Clean :=
  .inl ⟨_, byteAt_ok h⟩
theorem readU16_clean {b : Bytes} {p : Nat} (h : p + 2 ≤ b.length) : (readU16 b p).Clean := by
  obtain ⟨x, hx, _⟩ := readU16_ok h; exact .inl ⟨x, hx⟩
theorem readU32_clean {b : Bytes} {p : Nat} (h : p + 4 ≤ b.length) : (readU32 b p).Clean := by
  obtain ⟨x, hx, _⟩ := readU32_ok h; exact .inl ⟨x, hx⟩
theorem readU64_clean {b : Bytes} {p : Nat} (h : p + 8 ≤ b.length) : (readU64 b p).Clean := by
  obtain ⟨x, hx, _⟩ := readU64_ok h; exact .inl ⟨x, hx⟩
theorem sliceAt_clean {b : Bytes} {p n : Nat} (h : p + n ≤ b.length) : (sliceAt b p n).Clean := by
  simp [sliceAt, h, Clean]

/-- A read that returned lies in the buffer, so its value is bounded. -/
theorem readU16_lt {b : Bytes} {p x : Nat} (h : readU16 b p = .ok x) : x < 2 ^ 16 := by
  obtain ⟨x0, h0, h⟩ := Res.bind_eq_ok.1 h
  obtain ⟨x1, h1, h⟩ := Res.bind_eq_ok.1 h
  have := readU16_of_bytes h0 h1
  have e : readU16 b p = .ok x := by simp [readU16, h0, h1]; simpa using h
  rw [this] at e; injection e with e
  have := byteAt_lt h0; have := byteAt_lt h1; omega

theorem readU32_lt {b : Bytes} {p x : Nat} (h : readU32 b p = .ok x) : x < 2 ^ 32 := by
  have h' := h
  obtain ⟨x0, h0, h⟩ := Res.bind_eq_ok.1 h
  obtain ⟨x1, h1, h⟩ := Res.bind_eq_ok.1 h
  obtain ⟨x2, h2, h⟩ := Res.bind_eq_ok.1 h
  obtain ⟨x3, h3, h⟩ := Res.bind_eq_ok.1 h
  have := readU32_of_bytes h0 h1 h2 h3
  rw [this] at h'; injection h' with e
  have := byteAt_lt h0; have := byteAt_lt h1; have := byteAt_lt h2; have := byteAt_lt h3; omega

section access
variable {v : View} (S : InBuf v)
include S

theorem vrRead_clean {α : Type} {f : Nat → Res α}
    (hf : ∀ p, p + 16 ≤ v.buf.length → (f p).Clean) : (v.requireVr >>= f).Clean :=
  (requireVr_clean v).bind fun p hp => hf p (by
    have := requireVr_bound hp; have := S.env; omega)

theorem tag_clean : v.tag.Clean := vrRead_clean S fun _ h => byteAt_clean (by omega)
theorem flags_clean : v.flags.Clean := vrRead_clean S fun _ h => byteAt_clean (by omega)
theorem aux_clean : v.aux.Clean := vrRead_clean S fun _ h => readU16_clean (by omega)
theorem a_clean : v.a.Clean := vrRead_clean S fun _ h => readU32_clean (by omega)
theorem b_clean : v.b.Clean := vrRead_clean S fun _ h => readU32_clean (by omega)
theorem c_clean : v.c.Clean := vrRead_clean S fun _ h => readU32_clean (by omega)

omit S in
theorem envPtrAt_clean (ofs need : Nat) : (v.envPtrAt ofs need).Clean :=
  (Clean.require _).bind fun _ _ => (Clean.require _).bind fun _ _ =>
    (Clean.require _).bind fun _ _ => .pure _

omit S in
theorem envPtrAt_eq {ofs need q : Nat} (h : v.envPtrAt ofs need = .ok q) :
    q = HeaderSize + ofs ∧ ofs + need ≤ v.envSize := by
  obtain ⟨_, h1, h⟩ := Res.bind_eq_ok.1 h
  obtain ⟨_, h2, h⟩ := Res.bind_eq_ok.1 h
  obtain ⟨_, h3, h⟩ := Res.bind_eq_ok.1 h
  injection h with h
  have := Res.require_eq_ok.1 h3
  simp at this
  exact ⟨h.symm, this⟩

omit S in
theorem arenaBytes_clean (ofs len : Nat) : (v.arenaBytes ofs len).Clean :=
  (Clean.require _).bind fun _ _ => (Clean.require _).bind fun _ _ =>
    (Clean.require _).bind fun _ _ => .pure _

omit S in
theorem arenaBytes_eq {ofs len : Nat} {r : Nat × Nat} (h : v.arenaBytes ofs len = .ok r) :
    r = (v.arenaOfs + ofs, len) ∧ ofs + len ≤ v.arenaLen := by
  obtain ⟨_, h1, h⟩ := Res.bind_eq_ok.1 h
  obtain ⟨_, h2, h⟩ := Res.bind_eq_ok.1 h
  obtain ⟨_, h3, h⟩ := Res.bind_eq_ok.1 h
  injection h with h
  have := Res.require_eq_ok.1 h3
  simp at this
  exact ⟨h.symm, this⟩

theorem requireFlagsOk_clean : v.requireFlagsOk.Clean :=
  (tag_clean S).bind fun t _ => (flags_clean S).bind fun fl _ => by
    split <;> exact .require _

theorem isKind_clean (k : Nat) : (v.tag >>= fun t => (pure (decide (t = k)) : Res Bool)).Clean :=
  (tag_clean S).bind fun _ _ => .pure _

theorem isBlob_clean : v.isBlob.Clean :=
  (tag_clean S).bind fun t _ => by
    split
    · exact (aux_clean S).bind fun _ _ => .pure _
    · exact .pure _

theorem asBool_clean : v.asBool.Clean :=
  (tag_clean S).bind fun _ _ => (Clean.require _).bind fun _ _ =>
    (requireFlagsOk_clean S).bind fun _ _ => (aux_clean S).bind fun _ _ =>
    (Clean.require _).bind fun _ _ => .pure _

theorem bits_clean : v.bits.Clean :=
  (a_clean S).bind fun _ _ => (b_clean S).bind fun _ _ => .pure _

theorem asInt64_clean : v.asInt64.Clean :=
  (tag_clean S).bind fun _ _ => (Clean.require _).bind fun _ _ =>
    (requireFlagsOk_clean S).bind fun _ _ => (bits_clean S).bind fun _ _ =>
    (tag_clean S).bind fun _ _ => by
      split
      · exact (Clean.require _).bind fun _ _ => .pure _
      · exact .pure _

theorem asUInt64_clean : v.asUInt64.Clean :=
  (tag_clean S).bind fun _ _ => (Clean.require _).bind fun _ _ =>
    (requireFlagsOk_clean S).bind fun _ _ => (bits_clean S).bind fun _ _ =>
    (tag_clean S).bind fun _ _ => by
      split
      · exact (Clean.require _).bind fun _ _ => .pure _
      · exact .pure _

theorem asDouble_clean : v.asDouble.Clean :=
  (tag_clean S).bind fun _ _ => (Clean.require _).bind fun _ _ =>
    (requireFlagsOk_clean S).bind fun _ _ => (bits_clean S).bind fun _ _ => .pure _

theorem asIntN_clean (w : Nat) : (v.asIntN w).Clean :=
  (asInt64_clean S).bind fun _ _ => by
    split
    · exact .deser
    · exact .pure _

theorem asUIntN_clean (w : Nat) : (v.asUIntN w).Clean :=
  (asUInt64_clean S).bind fun _ _ => by
    split
    · exact .deser
    · exact .pure _

theorem inlineBytes_clean (n : Nat) : (v.inlineBytes n).Clean :=
  (Clean.require _).bind fun _ _ => (requireVr_clean v).bind fun _ _ => .pure _

theorem stringRange_clean : v.stringRange.Clean :=
  (tag_clean S).bind fun _ _ => (Clean.require _).bind fun _ _ =>
    (requireFlagsOk_clean S).bind fun _ _ => (flags_clean S).bind fun _ _ => by
      split
      · exact (aux_clean S).bind fun _ _ => (Clean.require _).bind fun _ _ => inlineBytes_clean S _
      · exact (a_clean S).bind fun _ _ => (b_clean S).bind fun _ _ => arenaBytes_clean _ _

omit S in
/-- Where a string lies. -/
theorem stringRange_eq {p n : Nat} (h : v.stringRange = .ok (p, n)) :
    (HeaderSize ≤ p ∧ p + n ≤ HeaderSize + v.envSize) ∨
    (v.arenaOfs ≤ p ∧ p + n ≤ v.arenaOfs + v.arenaLen) := by
  obtain ⟨_, _, h⟩ := Res.bind_eq_ok.1 h
  obtain ⟨_, _, h⟩ := Res.bind_eq_ok.1 h
  obtain ⟨_, _, h⟩ := Res.bind_eq_ok.1 h
  obtain ⟨_, _, h⟩ := Res.bind_eq_ok.1 h
  split at h
  · obtain ⟨len, _, h⟩ := Res.bind_eq_ok.1 h
    obtain ⟨_, _, h⟩ := Res.bind_eq_ok.1 h
    obtain ⟨_, h1, h⟩ := Res.bind_eq_ok.1 h
    obtain ⟨q, h2, h⟩ := Res.bind_eq_ok.1 h
    injection h with h
    injection h with e1 e2
    have hr := requireVr_bound h2
    have hn := of_decide_eq_true (Res.require_eq_ok.1 h1)
    have : InlineMax = 12 := rfl
    left; omega
  · obtain ⟨x, _, h⟩ := Res.bind_eq_ok.1 h
    obtain ⟨y, _, h⟩ := Res.bind_eq_ok.1 h
    obtain ⟨h1, h2⟩ := arenaBytes_eq h
    injection h1 with e1 e2
    right; omega

omit S in
/-- Where a blob lies. -/
theorem blobRange_eq {p n : Nat} (h : v.blobRange = .ok (p, n)) :
    v.arenaOfs ≤ p ∧ p + n ≤ v.arenaOfs + v.arenaLen := by
  obtain ⟨_, _, h⟩ := Res.bind_eq_ok.1 h
  obtain ⟨_, _, h⟩ := Res.bind_eq_ok.1 h
  obtain ⟨_, _, h⟩ := Res.bind_eq_ok.1 h
  obtain ⟨_, _, h⟩ := Res.bind_eq_ok.1 h
  obtain ⟨_, _, h⟩ := Res.bind_eq_ok.1 h
  obtain ⟨_, _, h⟩ := Res.bind_eq_ok.1 h
  obtain ⟨_, _, h⟩ := Res.bind_eq_ok.1 h
  obtain ⟨_, _, h⟩ := Res.bind_eq_ok.1 h
  obtain ⟨_, _, h⟩ := Res.bind_eq_ok.1 h
  obtain ⟨_, _, h⟩ := Res.bind_eq_ok.1 h
  obtain ⟨_, _, h⟩ := Res.bind_eq_ok.1 h
  obtain ⟨_, _, h⟩ := Res.bind_eq_ok.1 h
  obtain ⟨_, _, h⟩ := Res.bind_eq_ok.1 h
  obtain ⟨h1, h2⟩ := arenaBytes_eq h
  injection h1 with e1 e2
  omega

theorem asStringView_clean : v.asStringView.Clean :=
  (stringRange_clean S).bind fun r hr => by
    obtain ⟨p, n⟩ := r
    have h1 := stringRange_eq hr
    have := S.env; have := S.arena
    simp only [View.arenaLen] at h1
    exact sliceAt_clean (by omega)

theorem blobRange_clean : v.blobRange.Clean :=
  (isBlob_clean S).bind fun _ _ => (Clean.require _).bind fun _ _ =>
    (requireFlagsOk_clean S).bind fun _ _ => (c_clean S).bind fun so _ =>
    (envPtrAt_clean _ _).bind fun sp hsp =>
    (readU32_clean (by have := envPtrAt_eq hsp; have := S.env; omega)).bind fun rank _ =>
    (Clean.require _).bind fun _ _ => (Clean.require _).bind fun _ hr =>
    (envPtrAt_clean _ _).bind fun q hq =>
    (readU64_clean (by
      have := envPtrAt_eq hq; have := S.env
      have := Res.require_eq_ok.1 hr
      simp at this; omega)).bind fun _ _ =>
    (b_clean S).bind fun _ _ => (Clean.require _).bind fun _ _ => (a_clean S).bind fun _ _ =>
    arenaBytes_clean _ _

theorem asBlob_clean : v.asBlob.Clean :=
  (blobRange_clean S).bind fun r hr => by
    obtain ⟨p, n⟩ := r
    have h1 := blobRange_eq hr
    have := S.env; have := S.arena
    simp only [View.arenaLen] at h1
    exact sliceAt_clean (by omega)

theorem arraySize_clean : v.arraySize.Clean :=
  (tag_clean S).bind fun _ _ => (Clean.require _).bind fun _ _ =>
    (requireFlagsOk_clean S).bind fun _ _ => (a_clean S).bind fun _ _ =>
    (envPtrAt_clean _ _).bind fun p hp =>
    (readU32_clean (by have := envPtrAt_eq hp; have := S.env; omega)).bind fun _ _ =>
    (envPtrAt_clean _ _).bind fun _ _ => .pure _

theorem getIdx_clean (i : Nat) : (v.getIdx i).Clean :=
  (tag_clean S).bind fun _ _ => (Clean.require _).bind fun _ _ =>
    (requireFlagsOk_clean S).bind fun _ _ => (a_clean S).bind fun _ _ =>
    (envPtrAt_clean _ _).bind fun p hp =>
    (readU32_clean (by have := envPtrAt_eq hp; have := S.env; omega)).bind fun _ _ =>
    (Clean.require _).bind fun _ _ => (envPtrAt_clean _ _).bind fun _ _ => .pure _

theorem keyHit_clean {key : Bytes} {kp kl ofs : Nat} (hkp : v.envPtrAt ofs kl = .ok kp) :
    (v.keyHit key kp kl).Clean := by
  unfold View.keyHit
  split
  · exact (sliceAt_clean (by have := envPtrAt_eq hkp; have := S.env; omega)).bind fun _ _ => .pure _
  · exact .pure _

theorem containsFrom_clean (key : Bytes) : ∀ n ofs, (v.containsFrom key n ofs).Clean
  | 0, _ => .pure _
  | n + 1, ofs =>
    (envPtrAt_clean _ _).bind fun e he =>
    (readU16_clean (by have := envPtrAt_eq he; have := S.env; omega)).bind fun kl _ =>
    (readU16_clean (by have := envPtrAt_eq he; have := S.env; omega)).bind fun _ _ =>
    (envPtrAt_clean _ _).bind fun kp hkp =>
    (keyHit_clean S hkp).bind fun hit _ => by
        split
        · exact .pure _
        · exact (envPtrAt_clean _ _).bind fun _ _ => containsFrom_clean key n _

theorem contains_clean (key : Bytes) : (v.contains key).Clean :=
  (isKind_clean S tObject).bind fun m _ => by
    split
    · exact .pure _
    · exact (requireFlagsOk_clean S).bind fun _ _ => (a_clean S).bind fun _ _ =>
        (envPtrAt_clean _ _).bind fun p hp =>
        (readU32_clean (by have := envPtrAt_eq hp; have := S.env; omega)).bind fun _ _ =>
        containsFrom_clean S key _ _

theorem getKeyFrom_clean (key : Bytes) : ∀ n ofs, (v.getKeyFrom key n ofs).Clean
  | 0, _ => .deser
  | n + 1, ofs =>
    (envPtrAt_clean _ _).bind fun e he =>
    (readU16_clean (by have := envPtrAt_eq he; have := S.env; omega)).bind fun kl _ =>
    (readU16_clean (by have := envPtrAt_eq he; have := S.env; omega)).bind fun _ _ =>
    (envPtrAt_clean _ _).bind fun kp hkp =>
    (envPtrAt_clean _ _).bind fun vp _ =>
    (keyHit_clean S hkp).bind fun hit _ => by
        split
        · exact .pure _
        · exact (envPtrAt_clean _ _).bind fun _ _ => getKeyFrom_clean key n _

theorem getKey_clean (key : Bytes) : (v.getKey key).Clean :=
  (tag_clean S).bind fun _ _ => (Clean.require _).bind fun _ _ =>
    (requireFlagsOk_clean S).bind fun _ _ => (a_clean S).bind fun _ _ =>
    (envPtrAt_clean _ _).bind fun p hp =>
    (readU32_clean (by have := envPtrAt_eq hp; have := S.env; omega)).bind fun _ _ =>
    getKeyFrom_clean S key _ _

theorem toStringOutcome_clean : v.toStringOutcome.Clean :=
  (tag_clean S).bind fun _ _ => by
    split
    · exact (asBool_clean S).bind fun _ _ => .pure _
    split
    · exact (asInt64_clean S).bind fun _ _ => .pure _
    split
    · exact (asUInt64_clean S).bind fun _ _ => .pure _
    split
    · exact (asDouble_clean S).bind fun _ _ => .pure _
    split
    · exact (asStringView_clean S).bind fun _ _ => .pure _
    split
    · exact (arraySize_clean S).bind fun _ _ => .pure _
    split
    · exact (isBlob_clean S).bind fun _ _ => (b_clean S).bind fun _ _ => .pure _
    · exact .pure _

/-! ### Key iteration -/

theorem keysFrom_clean (h2 : HeaderSize + v.envSize + 2 ≤ v.buf.length) :
    ∀ n cur, HeaderSize ≤ cur → cur ≤ HeaderSize + v.envSize → (v.keysFrom n cur).Clean
  | 0, _, _, _ => .pure _
  | n + 1, cur, hlo, hhi => by
    refine Clean.bind ?_ fun k _ => Clean.bind ?_ fun cur' hc => ?_
    · refine (readU16_clean (by omega)).bind fun kl hkl => (envPtrAt_clean _ _).bind fun q hq => ?_
      have hm : u32 (cur - HeaderSize) = cur - HeaderSize := by
        have := S.envLt; simp only [u32]; apply Nat.mod_eq_of_lt; omega
      rw [hm] at hq
      have := envPtrAt_eq hq; have := S.env
      exact sliceAt_clean (by omega)
    · exact (readU16_clean (by omega)).bind fun kl hkl => envPtrAt_clean _ _
    · obtain ⟨kl, _, h⟩ := Res.bind_eq_ok.1 hc
      have := envPtrAt_eq h
      exact (keysFrom_clean h2 n cur' (by omega) (by omega)).bind fun _ _ => .pure _

theorem mapKeys_clean (h2 : HeaderSize + v.envSize + 2 ≤ v.buf.length) : v.mapKeys.Clean :=
  (tag_clean S).bind fun _ _ => (Clean.require _).bind fun _ _ =>
    (requireFlagsOk_clean S).bind fun _ _ => (a_clean S).bind fun _ _ =>
    (envPtrAt_clean _ _).bind fun p hp =>
    (readU32_clean (by have := envPtrAt_eq hp; have := S.env; omega)).bind fun _ _ =>
    (envPtrAt_clean _ _).bind fun e he =>
    keysFrom_clean S h2 _ _ (by have := envPtrAt_eq he; omega) (by have := envPtrAt_eq he; omega)

end access

/-! ### Opening and moving -/

theorem parseHeader_clean (b : Bytes) : (parseHeader b).Clean := by
  refine (Clean.require _).bind fun _ h => ?_
  have h := of_decide_eq_true (Res.require_eq_ok.1 h)
  have : HeaderSize = 20 := rfl
  exact (readU32_clean (by omega)).bind fun _ _ => (readU16_clean (by omega)).bind fun _ _ =>
    (readU16_clean (by omega)).bind fun _ _ => (readU32_clean (by omega)).bind fun _ _ =>
    (readU32_clean (by omega)).bind fun _ _ => (readU32_clean (by omega)).bind fun _ _ => .pure _

theorem initFrom_clean (b : Bytes) : (initFrom b).Clean :=
  (parseHeader_clean b).bind fun _ _ => (Clean.require _).bind fun _ _ =>
    (Clean.require _).bind fun _ _ => (Clean.require _).bind fun _ _ =>
    (Clean.require _).bind fun _ _ => (Clean.require _).bind fun _ _ =>
    (Clean.require _).bind fun _ _ => (Clean.require _).bind fun _ _ =>
    (Clean.require _).bind fun _ _ => (Clean.require _).bind fun _ _ =>
    (Clean.require _).bind fun _ _ => .pure _

/-- What opening a buffer checks. -/
theorem initFrom_eq {b : Bytes} {v : View} (h : initFrom b = .ok v) :
    ∃ root, v = ⟨b, v.envSize, v.arenaOfs, some (HeaderSize + root)⟩ ∧ HeaderSize ≤ b.length ∧
      v.envSize < 2 ^ 32 ∧ v.arenaOfs < 2 ^ 32 ∧ root < v.envSize ∧ v.envSize ≤ b.length ∧
      v.arenaOfs ≤ b.length ∧ v.arenaOfs % 16 = 0 ∧ u32 (HeaderSize + v.envSize) ≤ v.arenaOfs := by
  obtain ⟨hd, hp, h⟩ := Res.bind_eq_ok.1 h
  obtain ⟨_, _, h⟩ := Res.bind_eq_ok.1 h
  obtain ⟨_, _, h⟩ := Res.bind_eq_ok.1 h
  obtain ⟨_, _, h⟩ := Res.bind_eq_ok.1 h
  obtain ⟨_, r1, h⟩ := Res.bind_eq_ok.1 h
  obtain ⟨_, r2, h⟩ := Res.bind_eq_ok.1 h
  obtain ⟨_, r3, h⟩ := Res.bind_eq_ok.1 h
  obtain ⟨_, r4, h⟩ := Res.bind_eq_ok.1 h
  obtain ⟨_, r5, h⟩ := Res.bind_eq_ok.1 h
  obtain ⟨_, r6, h⟩ := Res.bind_eq_ok.1 h
  obtain ⟨_, _, h⟩ := Res.bind_eq_ok.1 h
  injection h with h
  subst h
  obtain ⟨_, p0, hp⟩ := Res.bind_eq_ok.1 hp
  obtain ⟨_, _, hp⟩ := Res.bind_eq_ok.1 hp
  obtain ⟨_, _, hp⟩ := Res.bind_eq_ok.1 hp
  obtain ⟨_, _, hp⟩ := Res.bind_eq_ok.1 hp
  obtain ⟨_, _, hp⟩ := Res.bind_eq_ok.1 hp
  obtain ⟨_, q1, hp⟩ := Res.bind_eq_ok.1 hp
  obtain ⟨_, q2, hp⟩ := Res.bind_eq_ok.1 hp
  injection hp with hp
  subst hp
  have p0 := Res.require_eq_ok.1 p0
  have r1 := Res.require_eq_ok.1 r1
  have r2 := Res.require_eq_ok.1 r2
  have r3 := Res.require_eq_ok.1 r3
  have r4 := Res.require_eq_ok.1 r4
  have r6 := Res.require_eq_ok.1 r6
  have q1 := readU32_lt q1
  have q2 := readU32_lt q2
  simp only [decide_eq_true_eq] at p0 r1 r2 r3 r4 r6
  exact ⟨_, rfl, p0, q1, q2, r2, r1, r3, r4, r6⟩

/-- Buffers below 4 GiB - 20 bytes: the header check covers envelope and arena. -/
theorem initFrom_inBuf {b : Bytes} {v : View} (hb : b.length < 2 ^ 32 - 20)
    (h : initFrom b = .ok v) : InBuf v := by
  obtain ⟨root, hv, h1, h2, h3, h4, h5, h6, h7, h8⟩ := initFrom_eq h
  have e : v.buf = b := by rw [hv]
  have hu : u32 (HeaderSize + v.envSize) = HeaderSize + v.envSize := by
    simp only [u32]; apply Nat.mod_eq_of_lt; simp only [HeaderSize]; omega
  rw [hu] at h8
  exact ⟨by rw [e]; omega, by rw [e]; omega, h2⟩

theorem getIdx_eq {v w : View} {i : Nat} (h : v.getIdx i = .ok w) : ∃ p, w = { v with vr := some p } := by
  obtain ⟨_, _, h⟩ := Res.bind_eq_ok.1 h
  obtain ⟨_, _, h⟩ := Res.bind_eq_ok.1 h
  obtain ⟨_, _, h⟩ := Res.bind_eq_ok.1 h
  obtain ⟨_, _, h⟩ := Res.bind_eq_ok.1 h
  obtain ⟨_, _, h⟩ := Res.bind_eq_ok.1 h
  obtain ⟨_, _, h⟩ := Res.bind_eq_ok.1 h
  obtain ⟨_, _, h⟩ := Res.bind_eq_ok.1 h
  obtain ⟨p, _, h⟩ := Res.bind_eq_ok.1 h
  injection h with h
  exact ⟨p, h.symm⟩

theorem getKeyFrom_eq {v w : View} {k : Bytes} : ∀ {n ofs : Nat}, v.getKeyFrom k n ofs = .ok w →
    ∃ p, w = { v with vr := some p }
  | 0, _, h => by cases h
  | n + 1, ofs, h => by
    obtain ⟨_, _, h⟩ := Res.bind_eq_ok.1 h
    obtain ⟨_, _, h⟩ := Res.bind_eq_ok.1 h
    obtain ⟨_, _, h⟩ := Res.bind_eq_ok.1 h
    obtain ⟨_, _, h⟩ := Res.bind_eq_ok.1 h
    obtain ⟨_, _, h⟩ := Res.bind_eq_ok.1 h
    obtain ⟨_, _, h⟩ := Res.bind_eq_ok.1 h
    split at h
    · injection h with h; exact ⟨_, h.symm⟩
    · obtain ⟨_, _, h⟩ := Res.bind_eq_ok.1 h
      exact getKeyFrom_eq h

theorem getKey_eq {v w : View} {k : Bytes} (h : v.getKey k = .ok w) :
    ∃ p, w = { v with vr := some p } := by
  obtain ⟨_, _, h⟩ := Res.bind_eq_ok.1 h
  obtain ⟨_, _, h⟩ := Res.bind_eq_ok.1 h
  obtain ⟨_, _, h⟩ := Res.bind_eq_ok.1 h
  obtain ⟨_, _, h⟩ := Res.bind_eq_ok.1 h
  obtain ⟨_, _, h⟩ := Res.bind_eq_ok.1 h
  obtain ⟨_, _, h⟩ := Res.bind_eq_ok.1 h
  exact getKeyFrom_eq h

/-- Everything reachable shares the buffer and the bounds. -/
theorem reach_eq {v w : View} (h : reader.Reach v w) : ∃ p, w = { v with vr := p } := by
  induction h with
  | refl => exact ⟨v.vr, rfl⟩
  | idx i _ hi ih =>
    obtain ⟨p, rfl⟩ := ih
    obtain ⟨q, rfl⟩ := getIdx_eq hi
    exact ⟨some q, rfl⟩
  | key k _ hk ih =>
    obtain ⟨p, rfl⟩ := ih
    obtain ⟨q, rfl⟩ := getKey_eq hk
    exact ⟨some q, rfl⟩

theorem reader_kinded : reader.Kinded := by
  constructor
  · intro r i r' h h'
    have h : r.isArray = .ok false := h
    have h' : r.getIdx i = .ok r' := h'
    obtain ⟨t, ht, h1⟩ := Res.bind_eq_ok.1 h
    obtain ⟨t', ht', h2⟩ := Res.bind_eq_ok.1 h'
    rw [ht] at ht'; injection ht' with e; subst e
    obtain ⟨_, h3, _⟩ := Res.bind_eq_ok.1 h2
    have := Res.require_eq_ok.1 h3
    injection h1 with h1
    rw [h1] at this; cases this
  · intro r i r' h h'
    have h : r.isMap = .ok false := h
    have h' : r.getKey i = .ok r' := h'
    obtain ⟨t, ht, h1⟩ := Res.bind_eq_ok.1 h
    obtain ⟨t', ht', h2⟩ := Res.bind_eq_ok.1 h'
    rw [ht] at ht'; injection ht' with e; subst e
    obtain ⟨_, h3, _⟩ := Res.bind_eq_ok.1 h2
    have := Res.require_eq_ok.1 h3
    injection h1 with h1
    rw [h1] at this; cases this

theorem readerAligned_kinded : readerAligned.Kinded := ⟨reader_kinded.idx, reader_kinded.key⟩

theorem reach_aligned {v w : View} (h : reader.Reach v w) : readerAligned.Reach v w := by
  induction h with
  | refl => exact .refl
  | idx i _ hi ih => exact .idx i ih hi
  | key k _ hk ih => exact .key k ih hk

end Zer.Zera
