import Verif.Zera.Sim

/-!
# Exactly when ZERA serialization succeeds

`envCost`/`arenaAfter` compute the bytes a value occupies; serialization succeeds iff the keys are
short enough and the totals fit 32-bit offsets.
-/

namespace Zer

mutual
/-- Every map key inside the value has at most 65535 bytes. -/
def Val.ShortKeys : Val → Prop
  | .arr xs => shortKeysList xs
  | .map ms => shortKeysEntries ms
  | _ => True
def Val.shortKeysList : List Val → Prop
  | [] => True
  | x :: xs => x.ShortKeys ∧ shortKeysList xs
def Val.shortKeysEntries : List (Bytes × Val) → Prop
  | [] => True
  | (k, v) :: ms => k.length ≤ 65535 ∧ v.ShortKeys ∧ shortKeysEntries ms
end

namespace Zera

mutual
/-- Envelope bytes a value occupies besides its own 16-byte reference (ZERA.md layout): 12 for a
blob shape, a count and 16 bytes per element for arrays, a count and 20 bytes plus the key per
entry for maps. -/
def envCost : Val → Nat
  | .blob _ => 12
  | .arr xs => envCostList xs + (4 + 16 * xs.length)
  | .map ms => envCostEntries ms + (4 + entriesLen ms)
  | _ => 0
def envCostList : List Val → Nat
  | [] => 0
  | x :: xs => envCost x + envCostList xs
def envCostEntries : List (Bytes × Val) → Nat
  | [] => 0
  | (_, v) :: ms => envCost v + envCostEntries ms
/-- Payload bytes of map entries. -/
def entriesLen : List (Bytes × Val) → Nat
  | [] => 0
  | (k, _) :: ms => 20 + k.length + entriesLen ms
end

mutual
/-- Arena size after a value was appended to an arena of size `a`. -/
def arenaAfter (thr : Nat) (a : Nat) : Val → Nat
  | .str s => if s.length ≤ min thr 12 then a else a + s.length
  | .blob s => alignUp a 16 + s.length
  | .arr xs => arenaAfterList thr a xs
  | .map ms => arenaAfterEntries thr a ms
  | _ => a
def arenaAfterList (thr : Nat) (a : Nat) : List Val → Nat
  | [] => a
  | x :: xs => arenaAfterList thr (arenaAfter thr a x) xs
def arenaAfterEntries (thr : Nat) (a : Nat) : List (Bytes × Val) → Nat
  | [] => a
  | (_, v) :: ms => arenaAfterEntries thr (arenaAfter thr a v) ms
end

mutual
theorem le_arenaAfter (thr a : Nat) : ∀ v, a ≤ arenaAfter thr a v
  | .null | .bool _ | .int _ | .uint _ | .dbl _ => by simp [arenaAfter]
  | .str s => by simp only [arenaAfter]; split <;> omega
  | .blob s => by have := alignUp_ge a 16; simp only [arenaAfter]; omega
  | .arr xs => by simpa [arenaAfter] using le_arenaAfterList thr a xs
  | .map ms => by simpa [arenaAfter] using le_arenaAfterEntries thr a ms
theorem le_arenaAfterList (thr a : Nat) : ∀ xs, a ≤ arenaAfterList thr a xs
  | [] => by simp [arenaAfterList]
  | x :: xs => by
    have h1 := le_arenaAfter thr a x
    have h2 := le_arenaAfterList thr (arenaAfter thr a x) xs
    simp only [arenaAfterList]; omega
theorem le_arenaAfterEntries (thr a : Nat) : ∀ ms, a ≤ arenaAfterEntries thr a ms
  | [] => by simp [arenaAfterEntries]
  | (k, x) :: xs => by
    have h1 := le_arenaAfter thr a x
    have h2 := le_arenaAfterEntries thr (arenaAfter thr a x) xs
    simp only [arenaAfterEntries]; omega
end

/-- `s'` is `s` with a longer envelope and arena. -/
def Grown (s s' : RS) (ec aa : Nat) : Prop :=
  s'.st = s.st ∧ s'.root = s.root ∧ s'.thr = s.thr ∧ s'.env.length = s.env.length + ec ∧
  s'.arena.length = aa

theorem arenaPut_iff (s : RS) (payload : Bytes) (al : Nat) :
    arenaPut s payload al =
      if alignUp s.arena.length (max 1 al) > u32max then .err .ser
      else if payload.length > u32max then .err .ser
      else .ok (⟨s.st, s.env, s.arena ++
          List.replicate (alignUp s.arena.length (max 1 al) - s.arena.length) 0 ++ payload, s.root,
          s.thr⟩, u32 (alignUp s.arena.length (max 1 al))) := by
  have h := alignUp_ge s.arena.length (max 1 al)
  have e : (s.arena ++ List.replicate (alignUp s.arena.length (max 1 al) - s.arena.length) 0).length =
      alignUp s.arena.length (max 1 al) := by simp; omega
  simp only [arenaPut]
  rw [e]

/-! ### Sufficiency -/

mutual
theorem run_emit_ok : ∀ (v : Val) (s : RS), v.ShortKeys → s.env.length + envCost v ≤ u32max →
    arenaAfter s.thr s.arena.length v ≤ u32max →
    ∃ s' vr, writer.run s (emit v) = deliverVr s' vr ∧ vr.length = 16 ∧
      Grown s s' (envCost v) (arenaAfter s.thr s.arena.length v)
  | .null, s, _, _, _ => ⟨s, makeVr tNull 0 0 0 0 0, by simp [emit, writer, step], rfl, rfl, rfl, rfl, rfl, rfl⟩
  | .bool b, s, _, _, _ => ⟨s, makeVr tBool 0 (if b then 1 else 0) 0 0 0,
      by simp [emit, writer, step], rfl, rfl, rfl, rfl, rfl, rfl⟩
  | .int i, s, _, _, _ => ⟨s, makeVr tI64 0 0 (lo32 i.toUInt64.toNat) (hi32 i.toUInt64.toNat) 0,
      by simp [emit, writer, step], rfl, rfl, rfl, rfl, rfl, rfl⟩
  | .uint n, s, _, _, _ => ⟨s, makeVr tU64 0 0 (lo32 n.toNat) (hi32 n.toNat) 0,
      by simp [emit, writer, step], rfl, rfl, rfl, rfl, rfl, rfl⟩
  | .dbl n, s, _, _, _ => ⟨s, makeVr tF64 0 0 (lo32 n.toNat) (hi32 n.toNat) 0,
      by simp [emit, writer, step], rfl, rfl, rfl, rfl, rfl, rfl⟩
  | .str x, s, _, _, h => by
    simp only [emit, Writer.run_cons, Writer.run_nil, writer, step]
    simp only [arenaAfter] at h ⊢
    by_cases hl : x.length ≤ min s.thr InlineMax
    · have hl' : x.length ≤ min s.thr 12 := hl
      rw [if_pos hl'] at h
      simp only [if_pos hl, if_pos hl']
      refine ⟨s, _, Res.bind_ok_self _, ?_, rfl, rfl, rfl, rfl, rfl⟩
      rw [inline_bytes (by omega)]
      exact inlineVr_length (by omega)
    · have hl' : ¬ x.length ≤ min s.thr 12 := hl
      rw [if_neg hl'] at h
      have hx : ¬ x.length > u32max := by omega
      have ha : ¬ alignUp s.arena.length (max 1 1) > u32max := by
        simp only [Nat.max_self, alignUp_one]; omega
      simp only [if_neg hl, if_neg hl', if_neg hx, arenaPut_iff, if_neg ha, Res.ok_bind]
      refine ⟨_, _, Res.bind_ok_self _, rfl, rfl, rfl, rfl, rfl, ?_⟩
      simp [alignUp_one]
  | .blob x, s, _, he, h => by
    simp only [emit, Writer.run_cons, Writer.run_nil, writer, step]
    simp only [arenaAfter, envCost] at h he ⊢
    have hmax : max 1 ArenaBaseAlign = 16 := by decide
    have hx : ¬ x.length > u32max := by omega
    have hge := alignUp_ge s.arena.length 16
    have ha : ¬ alignUp s.arena.length 16 > u32max := by omega
    have hb : ¬ s.env.length > u32max := by omega
    simp only [if_neg hx, arenaPut_iff, hmax, if_neg ha, Res.ok_bind, appendEnv, if_neg hb]
    refine ⟨_, _, Res.bind_ok_self _, rfl, rfl, rfl, rfl, ?_, ?_⟩
    · simp
    · simp; omega
  | .arr xs, s, hk, he, h => by
    simp only [emit, Writer.run_cons, Writer.run_append, Writer.run_nil, writer, step, Res.ok_bind]
    simp only [arenaAfter, envCost, Val.ShortKeys] at h he hk ⊢
    obtain ⟨s', p, n, h1, h2, h3, h4, h5, h6, h7⟩ :=
      run_list_ok xs { s with st := .arr (le32 0) 0 :: s.st } (le32 0) 0 s.st hk rfl
        (by simp only; omega) h
    rw [← writer, h1]
    have hp : p.length = 4 + 16 * xs.length := h3
    have hw : writeU32At p 0 n = .ok (p.take 0 ++ le32 n ++ p.drop 4) := by
      rw [writeU32At, if_pos (by omega)]
    have hb : ¬ s'.env.length > u32max := by rw [h6]; simp only; omega
    simp only [Res.ok_bind, h2, hw, appendEnv, if_neg hb]
    refine ⟨_, _, Res.bind_ok_self _, rfl, rfl, h4, h5, ?_, h7⟩
    simp [h6]; omega
  | .map ms, s, hk, he, h => by
    simp only [emit, Writer.run_cons, Writer.run_append, Writer.run_nil, writer, step, Res.ok_bind]
    simp only [arenaAfter, envCost, Val.ShortKeys] at h he hk ⊢
    obtain ⟨s', p, n, h1, h2, h3, h4, h5, h6, h7⟩ :=
      run_entries_ok ms { s with st := .map (le32 0) 0 none :: s.st } (le32 0) 0 s.st hk rfl
        (by simp only; omega) h
    rw [← writer, h1]
    have hp : p.length = 4 + entriesLen ms := h3
    have hw : writeU32At p 0 n = .ok (p.take 0 ++ le32 n ++ p.drop 4) := by
      rw [writeU32At, if_pos (by omega)]
    have hb : ¬ s'.env.length > u32max := by rw [h6]; simp only; omega
    simp only [Res.ok_bind, h2, hw, appendEnv, if_neg hb]
    refine ⟨_, _, Res.bind_ok_self _, rfl, rfl, h4, h5, ?_, h7⟩
    simp [h6]; omega
theorem run_list_ok : ∀ (xs : List Val) (s : RS) (p : Bytes) (n : Nat) (st : List Ctx),
    Val.shortKeysList xs → s.st = .arr p n :: st → s.env.length + envCostList xs ≤ u32max →
    arenaAfterList s.thr s.arena.length xs ≤ u32max →
    ∃ s' p' n', writer.run s (emitList xs) = .ok s' ∧ s'.st = .arr p' n' :: st ∧
      p'.length = p.length + 16 * xs.length ∧ s'.root = s.root ∧ s'.thr = s.thr ∧
      s'.env.length = s.env.length + envCostList xs ∧
      s'.arena.length = arenaAfterList s.thr s.arena.length xs
  | [], s, p, n, st, _, hst, _, _ =>
    ⟨s, p, n, rfl, hst, rfl, rfl, rfl, rfl, rfl⟩
  | x :: xs, s, p, n, st, hk, hst, he, h => by
    simp only [envCostList, arenaAfterList, Val.shortKeysList] at he h hk ⊢
    have hle := le_arenaAfterList s.thr (arenaAfter s.thr s.arena.length x) xs
    obtain ⟨s1, vr, h1, h2, h3, h4, h5, h6, h7⟩ :=
      run_emit_ok x s hk.1 (by omega) (by omega)
    rw [hst] at h3
    have hd : deliverVr s1 vr = .ok { s1 with st := .arr (p ++ vr) (u32 (n + 1)) :: st } := by
      simp only [deliverVr, h3]
    obtain ⟨s2, p', n', g1, g2, g3, g4, g5, g6, g7⟩ :=
      run_list_ok xs { s1 with st := .arr (p ++ vr) (u32 (n + 1)) :: st } (p ++ vr) (u32 (n + 1)) st
        hk.2 rfl (by simp only [h6]; omega) (by simp only [h5, h7]; exact h)
    refine ⟨s2, p', n', ?_, g2, ?_, g4.trans h4, g5.trans h5, ?_, ?_⟩
    · rw [emitList, Writer.run_append, h1, hd]; exact g1
    · rw [g3]; simp [h2]; omega
    · rw [g6]; simp [h6]; omega
    · rw [g7]; simp [h5, h7]
theorem run_entries_ok : ∀ (ms : List (Bytes × Val)) (s : RS) (p : Bytes) (n : Nat) (st : List Ctx),
    Val.shortKeysEntries ms → s.st = .map p n none :: st →
    s.env.length + envCostEntries ms ≤ u32max →
    arenaAfterEntries s.thr s.arena.length ms ≤ u32max →
    ∃ s' p' n', writer.run s (emitEntries ms) = .ok s' ∧ s'.st = .map p' n' none :: st ∧
      p'.length = p.length + entriesLen ms ∧ s'.root = s.root ∧ s'.thr = s.thr ∧
      s'.env.length = s.env.length + envCostEntries ms ∧
      s'.arena.length = arenaAfterEntries s.thr s.arena.length ms
  | [], s, p, n, st, _, hst, _, _ =>
    ⟨s, p, n, rfl, hst, rfl, rfl, rfl, rfl, rfl⟩
  | (k, x) :: ms, s, p, n, st, hk, hst, he, h => by
    simp only [envCostEntries, arenaAfterEntries, Val.shortKeysEntries] at he h hk ⊢
    have hle := le_arenaAfterEntries s.thr (arenaAfter s.thr s.arena.length x) ms
    have hkl : ¬ k.length > u16max := by have := hk.1; simp [u16max]; omega
    let p1 := p ++ le16 k.length ++ le16 0 ++ k
    have hp1 : p1.length = p.length + 4 + k.length := by simp [p1]; omega
    have hkey : step s (.key k) = .ok { s with
        st := .map (p1 ++ List.replicate 16 0) (u32 (n + 1)) (some p1.length) :: st } := by
      simp only [step, hst, if_neg hkl]; rfl
    obtain ⟨s1, vr, h1, h2, h3, h4, h5, h6, h7⟩ :=
      run_emit_ok x { s with
        st := .map (p1 ++ List.replicate 16 0) (u32 (n + 1)) (some p1.length) :: st } hk.2.1
        (by simp only; omega) (by simp only; omega)
    have hlen : ¬ (p1.length + 16 > (p1 ++ List.replicate 16 (0 : UInt8)).length) := by simp
    have e1 : (p1 ++ List.replicate 16 (0 : UInt8)).take p1.length = p1 := by simp
    have e2 : (p1 ++ List.replicate 16 (0 : UInt8)).drop (p1.length + 16) = [] := by simp
    have hd : deliverVr s1 vr = .ok { s1 with st := .map (p1 ++ vr) (u32 (n + 1)) none :: st } := by
      simp only [deliverVr, h3, if_neg hlen, e1, e2, List.append_nil]
    obtain ⟨s2, p', n', g1, g2, g3, g4, g5, g6, g7⟩ :=
      run_entries_ok ms { s1 with st := .map (p1 ++ vr) (u32 (n + 1)) none :: st } (p1 ++ vr)
        (u32 (n + 1)) st hk.2.2 rfl (by simp only [h6]; omega) (by simp only [h5, h7]; exact h)
    refine ⟨s2, p', n', ?_, g2, ?_, g4.trans h4, g5.trans h5, ?_, ?_⟩
    · rw [emitEntries, Writer.run_cons]
      show (step s (.key k) >>= _) = _
      rw [hkey, Res.ok_bind, Writer.run_append, h1, hd]; exact g1
    · rw [g3, List.length_append, hp1, h2, entriesLen]; omega
    · rw [g6]; simp [h6]; omega
    · rw [g7]; simp [h5, h7]
end

/-! ### Necessity -/

theorem bind_ok {α β : Type} {x : Res α} {f : α → Res β} {b : β} (h : (x >>= f) = .ok b) :
    ∃ a, x = .ok a ∧ f a = .ok b := Res.bind_eq_ok.1 h

mutual
theorem run_emit_inv : ∀ (v : Val) (s t : RS), writer.run s (emit v) = .ok t →
    v.ShortKeys ∧ ∃ s' vr, deliverVr s' vr = .ok t ∧ vr.length = 16 ∧
      Grown s s' (envCost v) (arenaAfter s.thr s.arena.length v)
  | .null, s, t, h => ⟨trivial, s, makeVr tNull 0 0 0 0 0,
      by simpa [emit, writer, step] using h, rfl, rfl, rfl, rfl, rfl, rfl⟩
  | .bool b, s, t, h => ⟨trivial, s, makeVr tBool 0 (if b then 1 else 0) 0 0 0,
      by simpa [emit, writer, step] using h, rfl, rfl, rfl, rfl, rfl, rfl⟩
  | .int i, s, t, h => ⟨trivial, s, makeVr tI64 0 0 (lo32 i.toUInt64.toNat) (hi32 i.toUInt64.toNat) 0,
      by simpa [emit, writer, step] using h, rfl, rfl, rfl, rfl, rfl, rfl⟩
  | .uint n, s, t, h => ⟨trivial, s, makeVr tU64 0 0 (lo32 n.toNat) (hi32 n.toNat) 0,
      by simpa [emit, writer, step] using h, rfl, rfl, rfl, rfl, rfl, rfl⟩
  | .dbl n, s, t, h => ⟨trivial, s, makeVr tF64 0 0 (lo32 n.toNat) (hi32 n.toNat) 0,
      by simpa [emit, writer, step] using h, rfl, rfl, rfl, rfl, rfl, rfl⟩
  | .str x, s, t, h => by
    refine ⟨trivial, ?_⟩
    simp only [emit, Writer.run_cons, Writer.run_nil, writer, step] at h
    obtain ⟨t', h, ht⟩ := bind_ok h
    cases ht
    simp only [arenaAfter]
    by_cases hl : x.length ≤ min s.thr InlineMax
    · have hl' : x.length ≤ min s.thr 12 := hl
      simp only [if_pos hl] at h
      simp only [if_pos hl']
      refine ⟨s, _, h, ?_, rfl, rfl, rfl, rfl, rfl⟩
      rw [inline_bytes (by omega)]
      exact inlineVr_length (by omega)
    · have hl' : ¬ x.length ≤ min s.thr 12 := hl
      simp only [if_neg hl'] at h ⊢
      simp only [if_neg hl] at h
      by_cases hx : x.length > u32max
      · rw [if_pos hx] at h; cases h
      · rw [if_neg hx] at h
        obtain ⟨⟨s1, o⟩, ha, hd⟩ := bind_ok h
        rw [arenaPut_iff] at ha
        split at ha
        · cases ha
        · injection ha with ha; injection ha with ha1 ha2
          subst ha1
          refine ⟨_, _, hd, rfl, rfl, rfl, rfl, rfl, ?_⟩
          simp [alignUp_one]
  | .blob x, s, t, h => by
    refine ⟨trivial, ?_⟩
    simp only [emit, Writer.run_cons, Writer.run_nil, writer, step] at h
    obtain ⟨t', h, ht⟩ := bind_ok h
    cases ht
    simp only [arenaAfter, envCost]
    have hmax : max 1 ArenaBaseAlign = 16 := by decide
    have hge := alignUp_ge s.arena.length 16
    by_cases hx : x.length > u32max
    · rw [if_pos hx] at h; cases h
    · rw [if_neg hx] at h
      obtain ⟨⟨s1, o⟩, ha, hd⟩ := bind_ok h
      obtain ⟨⟨s2, o2⟩, hb, hd⟩ := bind_ok hd
      rw [arenaPut_iff, hmax] at ha
      split at ha
      · cases ha
      · injection ha with ha; injection ha with ha1 ha2
        subst ha1
        simp only [appendEnv] at hb
        split at hb
        · cases hb
        · injection hb with hb; injection hb with hb1 hb2
          subst hb1
          refine ⟨_, _, hd, rfl, rfl, rfl, rfl, by simp, ?_⟩
          simp; omega
  | .arr xs, s, t, h => by
    simp only [emit, Writer.run_cons, Writer.run_append, Writer.run_nil, writer, step,
      Res.ok_bind] at h
    obtain ⟨s1, h1, h2⟩ := bind_ok h
    obtain ⟨t', h2, ht⟩ := bind_ok h2
    cases ht
    obtain ⟨hk, p, n, g2, g3, g4, g5, g6, g7⟩ :=
      run_list_inv xs { s with st := .arr (le32 0) 0 :: s.st } s1 (le32 0) 0 s.st rfl h1
    refine ⟨hk, ?_⟩
    simp only [g2] at h2
    obtain ⟨p', hw, h3⟩ := bind_ok h2
    obtain ⟨⟨s2, o⟩, ha, hd⟩ := bind_ok h3
    simp only [appendEnv] at ha
    split at ha
    · cases ha
    · injection ha with ha; injection ha with ha1 ha2
      subst ha1
      refine ⟨_, _, hd, rfl, rfl, g4, g5, ?_, g7⟩
      have hp : p.length = 4 + 16 * xs.length := g3
      rw [writeU32At, if_pos (by omega)] at hw
      injection hw with hw
      subst hw
      simp only [envCost, List.length_append, g6, List.take_zero, List.length_nil, le32_length,
        List.length_drop, hp]
      omega
  | .map ms, s, t, h => by
    simp only [emit, Writer.run_cons, Writer.run_append, Writer.run_nil, writer, step,
      Res.ok_bind] at h
    obtain ⟨s1, h1, h2⟩ := bind_ok h
    obtain ⟨t', h2, ht⟩ := bind_ok h2
    cases ht
    obtain ⟨hk, p, n, g2, g3, g4, g5, g6, g7⟩ :=
      run_entries_inv ms { s with st := .map (le32 0) 0 none :: s.st } s1 (le32 0) 0 s.st rfl h1
    refine ⟨hk, ?_⟩
    simp only [g2] at h2
    obtain ⟨p', hw, h3⟩ := bind_ok h2
    obtain ⟨⟨s2, o⟩, ha, hd⟩ := bind_ok h3
    simp only [appendEnv] at ha
    split at ha
    · cases ha
    · injection ha with ha; injection ha with ha1 ha2
      subst ha1
      refine ⟨_, _, hd, rfl, rfl, g4, g5, ?_, g7⟩
      have hp : p.length = 4 + entriesLen ms := g3
      rw [writeU32At, if_pos (by omega)] at hw
      injection hw with hw
      subst hw
      simp only [envCost, List.length_append, g6, List.take_zero, List.length_nil, le32_length,
        List.length_drop, hp]
      omega
theorem run_list_inv : ∀ (xs : List Val) (s t : RS) (p : Bytes) (n : Nat) (st : List Ctx),
    s.st = .arr p n :: st → writer.run s (emitList xs) = .ok t →
    Val.shortKeysList xs ∧ ∃ p' n', t.st = .arr p' n' :: st ∧
      p'.length = p.length + 16 * xs.length ∧ t.root = s.root ∧ t.thr = s.thr ∧
      t.env.length = s.env.length + envCostList xs ∧
      t.arena.length = arenaAfterList s.thr s.arena.length xs
  | [], s, t, p, n, st, hst, h => by
    cases h
    exact ⟨trivial, p, n, hst, rfl, rfl, rfl, rfl, rfl⟩
  | x :: xs, s, t, p, n, st, hst, h => by
    rw [emitList, Writer.run_append] at h
    obtain ⟨s1, h1, h2⟩ := bind_ok h
    obtain ⟨hk, s', vr, hd, hl, g1, g2, g3, g4, g5⟩ := run_emit_inv x s s1 h1
    rw [hst] at g1
    simp only [deliverVr, g1] at hd
    injection hd with hd
    subst hd
    obtain ⟨hk2, p', n', f1, f2, f3, f4, f5, f6⟩ :=
      run_list_inv xs _ t (p ++ vr) (u32 (n + 1)) st rfl h2
    simp only [g3, g5] at f6
    refine ⟨⟨hk, hk2⟩, p', n', f1, ?_, f3.trans g2, f4.trans g3, ?_, f6⟩
    · rw [f2]; simp [hl]; omega
    · rw [f5]; simp only [g4, envCostList]; omega
theorem run_entries_inv : ∀ (ms : List (Bytes × Val)) (s t : RS) (p : Bytes) (n : Nat) (st : List Ctx),
    s.st = .map p n none :: st → writer.run s (emitEntries ms) = .ok t →
    Val.shortKeysEntries ms ∧ ∃ p' n', t.st = .map p' n' none :: st ∧
      p'.length = p.length + entriesLen ms ∧ t.root = s.root ∧ t.thr = s.thr ∧
      t.env.length = s.env.length + envCostEntries ms ∧
      t.arena.length = arenaAfterEntries s.thr s.arena.length ms
  | [], s, t, p, n, st, hst, h => by
    cases h
    exact ⟨trivial, p, n, hst, rfl, rfl, rfl, rfl, rfl⟩
  | (k, x) :: ms, s, t, p, n, st, hst, h => by
    rw [emitEntries, Writer.run_cons] at h
    obtain ⟨s0, h0, h⟩ := bind_ok h
    have h0 : step s (.key k) = .ok s0 := h0
    simp only [step, hst] at h0
    by_cases hkl : k.length > u16max
    · rw [if_pos hkl] at h0; cases h0
    · rw [if_neg hkl] at h0
      injection h0 with h0
      rw [Writer.run_append] at h
      obtain ⟨s1, h1, h2⟩ := bind_ok h
      obtain ⟨hk, s', vr, hd, hl, g1, g2, g3, g4, g5⟩ := run_emit_inv x s0 s1 h1
      subst h0
      simp only at g1 g2 g3 g4 g5
      simp only [deliverVr, g1] at hd
      split at hd
      · cases hd
      · injection hd with hd
        subst hd
        obtain ⟨hk2, p', n', f1, f2, f3, f4, f5, f6⟩ := run_entries_inv ms _ t _ _ st rfl h2
        simp only [g3, g5] at f6
        refine ⟨⟨by simp [u16max] at hkl; omega, hk, hk2⟩, p', n', f1, ?_, f3.trans g2,
          f4.trans g3, ?_, f6⟩
        · rw [f2]
          simp [hl, entriesLen]; omega
        · rw [f5]; simp only [g4, envCostEntries]; omega
end

/-- Serialization succeeds exactly for values with short keys whose envelope and arena fit. -/
theorem serializeEvs_emit_ok_iff {thr : Nat} (hthr : thr ≤ 12) (v : Val) :
    (∃ b, serializeEvs thr (emit v) = .ok b) ↔
      v.ShortKeys ∧ alignUp (20 + (16 + envCost v)) 16 ≤ u32max ∧ arenaAfter thr 0 v ≤ u32max := by
  have h0 : setThreshold {} thr = .ok { thr := thr } := by
    simp [setThreshold, InlineMax, hthr]
  have hge := alignUp_ge (20 + (16 + envCost v)) 16
  constructor
  · rintro ⟨b, hb⟩
    simp only [serializeEvs, h0, Res.ok_bind] at hb
    obtain ⟨s, h1, h2⟩ := bind_ok hb
    obtain ⟨hk, s', vr, hd, hl, g1, g2, g3, g4, g5⟩ := run_emit_inv v _ s h1
    refine ⟨hk, ?_⟩
    simp only [List.length_nil, Nat.zero_add] at g1 g2 g3 g4 g5
    simp only [deliverVr, g1, writeRootVr, g2, appendEnv] at hd
    by_cases hlen : s'.env.length > u32max
    · rw [if_pos hlen] at hd; cases hd
    · rw [if_neg hlen] at hd
      simp only [Res.ok_bind, Res.pure_eq] at hd
      injection hd with hd
      subst hd
      simp only [finish, Res.pure_eq, Res.ok_bind] at h2
      split at h2
      · cases h2
      · rename_i c1
        split at h2
        · cases h2
        · rename_i c2
          simp only [List.length_append, hl, g4] at c1 h2
          have e : u32 (envCost v + 16) = envCost v + 16 := by
            simp only [u32]; apply Nat.mod_eq_of_lt; simp [u32max] at c1; omega
          rw [e] at h2
          split at h2
          · cases h2
          · rename_i c3
            simp only [HeaderSize, ArenaBaseAlign] at c3
            rw [Nat.add_comm 16]
            refine ⟨by omega, ?_⟩
            rw [← g5]; omega
  · rintro ⟨hk, h1, h2⟩
    obtain ⟨s', vr, hr, hl, g1, g2, g3, g4, g5⟩ :=
      run_emit_ok v { thr := thr } hk (by simp only [List.length_nil]; omega) (by simpa using h2)
    simp only [List.length_nil, Nat.zero_add] at g1 g2 g3 g4 g5
    have hlen : ¬ s'.env.length > u32max := by rw [g4]; omega
    simp only [serializeEvs, h0, Res.ok_bind, hr, deliverVr, g1, writeRootVr, g2, appendEnv,
      if_neg hlen, Res.pure_eq, finish]
    have c1 : ¬ (s'.env ++ vr).length > u32max := by rw [List.length_append, hl, g4]; omega
    have c2 : ¬ s'.arena.length > u32max := by rw [g5]; omega
    have e : u32 (s'.env ++ vr).length = envCost v + 16 := by
      rw [List.length_append, hl, g4]
      simp only [u32]; apply Nat.mod_eq_of_lt; simp [u32max] at h1; omega
    have c3 : ¬ alignUp (HeaderSize + (envCost v + 16)) ArenaBaseAlign > u32max := by
      simp only [HeaderSize, ArenaBaseAlign]; rw [Nat.add_comm (envCost v)]; omega
    rw [if_neg c1, if_neg c2, e, if_neg c3]
    exact ⟨_, rfl⟩

/-- The length of a serialization. -/
theorem serializeEvs_emit_length {thr : Nat} (hthr : thr ≤ 12) {v : Val} {b : Bytes}
    (hb : serializeEvs thr (emit v) = .ok b) :
    b.length = alignUp (20 + (16 + envCost v)) 16 + arenaAfter thr 0 v := by
  have h0 : setThreshold {} thr = .ok { thr := thr } := by
    simp [setThreshold, InlineMax, hthr]
  simp only [serializeEvs, h0, Res.ok_bind] at hb
  obtain ⟨s, h1, h2⟩ := bind_ok hb
  obtain ⟨hk, s', vr, hd, hl, g1, g2, g3, g4, g5⟩ := run_emit_inv v _ s h1
  simp only [List.length_nil, Nat.zero_add] at g1 g2 g3 g4 g5
  simp only [deliverVr, g1, writeRootVr, g2, appendEnv] at hd
  by_cases hlen : s'.env.length > u32max
  · rw [if_pos hlen] at hd; cases hd
  · rw [if_neg hlen] at hd
    simp only [Res.ok_bind, Res.pure_eq] at hd
    injection hd with hd
    subst hd
    simp only [finish, Res.pure_eq, Res.ok_bind] at h2
    split at h2
    · cases h2
    · rename_i c1
      split at h2
      · cases h2
      · rename_i c2
        simp only [List.length_append, hl, g4] at c1 h2
        have e : u32 (envCost v + 16) = envCost v + 16 := by
          simp only [u32]; apply Nat.mod_eq_of_lt; simp [u32max] at c1; omega
        rw [e] at h2
        split at h2
        · cases h2
        · rename_i c3
          injection h2 with h2
          rw [← h2]
          have hge' := alignUp_ge (HeaderSize + (envCost v + 16)) ArenaBaseAlign
          simp only [assemble, List.length_append, le32_length, le16_length, List.length_replicate,
            hl, g4, g5]
          simp only [HeaderSize, ArenaBaseAlign] at hge' ⊢
          rw [Nat.add_comm (envCost v) 16] at hge' ⊢
          omega

end Zera
end Zer
