import Verif.Prefix.Basic
import Verif.Zera.Size
import Verif.Zera.Safety

/-!
# ZERA: truncated input

`Ends env k vr v`: some string or blob reached from the reference `vr` occupies the last bytes of
an arena of `k` bytes.  Writing a value either leaves the arena alone or establishes `Ends` for
the arena it leaves behind; a reader whose arena is shorter than `k` cannot present the value.
-/

namespace Zer.Zera

open Zer Res

inductive Ends (env : Bytes) (k : Nat) : Bytes → Val → Prop where
  | str (s : Bytes) (ofs : Nat) : ofs < 2 ^ 32 → s.length < 2 ^ 32 → ofs + s.length = k →
      Ends env k (makeVr tString 0 0 ofs s.length 0) (.str s)
  | blob (s : Bytes) (ofs sofs : Nat) : ofs < 2 ^ 32 → s.length < 2 ^ 32 → ofs + s.length = k →
      Ends env k (makeVr tTyped 0 dtU8 ofs s.length sofs) (.blob s)
  | arr (ps : List (Bytes × Val)) (ofs : Nat) (q : Bytes × Val) : ofs < 2 ^ 32 →
      At env ofs (le32 ps.length ++ (ps.map Prod.fst).flatten) →
      (∀ p ∈ ps, p.1.length = 16) → q ∈ ps → Ends env k q.1 q.2 →
      Ends env k (makeVr tArray 0 0 ofs 0 0) (.arr (ps.map Prod.snd))
  | map (ps : List (Bytes × Bytes × Val)) (ofs : Nat) (q : Bytes × Bytes × Val) : ofs < 2 ^ 32 →
      At env ofs (le32 ps.length ++ (ps.map (fun p => entry p.1 p.2.1)).flatten) →
      (∀ p ∈ ps, p.1.length < 2 ^ 16) → (∀ p ∈ ps, p.2.1.length = 16) → q ∈ ps →
      Ends env k q.2.1 q.2.2 →
      Ends env k (makeVr tObject 0 0 ofs 0 0) (.map (ps.map (fun p => (p.1, p.2.2))))

theorem Ends.mono {env vr : Bytes} {k : Nat} {v : Val} (h : Ends env k vr v) (e : Bytes) :
    Ends (env ++ e) k vr v := by
  induction h with
  | str s ofs h1 h2 h3 => exact .str s ofs h1 h2 h3
  | blob s ofs so h1 h2 h3 => exact .blob s ofs so h1 h2 h3
  | arr ps ofs q h1 h2 h3 h4 _ ih => exact .arr ps ofs q h1 (h2.append_right _) h3 h4 ih
  | map ps ofs q h1 h2 h3 h4 h5 _ ih => exact .map ps ofs q h1 (h2.append_right _) h3 h4 h5 ih

theorem Ends.length {env vr : Bytes} {k : Nat} {v : Val} (h : Ends env k vr v) : vr.length = 16 := by
  cases h <;> rfl

/-! ## A shorter arena does not present the value -/

theorem shows_kind {v : View} {tg xx : Nat} {w u : Val} (ht : v.tag = .ok tg) (hx : v.aux = .ok xx)
    (h : reader.Agrees v w)
    (hk : ∀ n, (u.kind == n) = match n with
      | 0 => decide (tg = 0) | 1 => decide (tg = 1) | 2 => decide (tg = 2) || decide (tg = 8)
      | 3 => decide (tg = 3) | 4 => decide (tg = 4) | 5 => decide (tg = 7) && decide (xx = 2)
      | 6 => decide (tg = 6) | 7 => decide (tg = 5) | _ => false) : w.kind = u.kind := by
  refine Reader.AgreesW.kind_eq h ?_
  rw [hk 0, hk 1, hk 2, hk 3, hk 4, hk 5, hk 6, hk 7]
  exact shows_of_tag ht hx

theorem eq_of_key {α β : Type} {ps : List (α × β)} {p q : α × β} (h : (ps.map Prod.fst).Nodup)
    (hp : p ∈ ps) (hq : q ∈ ps) (e : p.1 = q.1) : p = q := by
  induction ps with
  | nil => simp at hp
  | cons x xs ih =>
    simp only [List.map_cons, List.nodup_cons] at h
    rcases List.mem_cons.1 hp with hp' | hp' <;> rcases List.mem_cons.1 hq with hq' | hq'
    · rw [hp', hq']
    · exact absurd (List.mem_map.2 ⟨q, hq', by rw [← e, hp']⟩) h.1
    · exact absurd (List.mem_map.2 ⟨p, hp', by rw [e, hq']⟩) h.1
    · exact ih h.2 hp' hq'

theorem Ends.no_value {env arena vr : Bytes} {k : Nat} {val : Val} (h : Ends env k vr val)
    (hk : arena.length < k) : val.Distinct → ∀ (v : View) (o : Nat), Holds v env arena →
    v.vr = some (HeaderSize + o) → At env o vr → ∀ w, ¬ reader.Agrees v w := by
  induction h with
  | str s ofs h1 h2 h3 =>
    intro _ v o H hvr hat w hw
    have P := H.pos rfl hat; rw [← hvr] at P
    have hkd := shows_kind (u := .str s) (vr_tag P) (vr_aux P) hw (by
      intro n; match n with
        | 0 | 1 | 2 | 3 | 4 | 5 | 6 | 7 => rfl
        | n + 8 => simp [Val.kind])
    cases hw with
    | str _ hx _ =>
      have hx : v.asStringView = .ok _ := hx
      have hfl := vr_flagsOk rfl P
      simp only [View.asStringView, View.stringRange, vr_tag P, hfl, vr_flags P, vr_a P, vr_b P,
        Res.ok_bind, Nat.mod_eq_of_lt h1, Nat.mod_eq_of_lt h2] at hx
      obtain ⟨r, x1, _⟩ := Res.bind_eq_ok.1 hx
      have x2 : v.arenaBytes ofs s.length = .ok r := by simpa [tString] using x1
      have := (arenaBytes_eq x2).2
      rw [H.arenaLen] at this; omega
    | _ => simp [Val.kind] at hkd
  | blob s ofs so h1 h2 h3 =>
    intro _ v o H hvr hat w hw
    have P := H.pos rfl hat; rw [← hvr] at P
    have hkd := shows_kind (u := .blob s) (vr_tag P) (vr_aux P) hw (by
      intro n; match n with
        | 0 | 1 | 2 | 3 | 4 | 5 | 6 | 7 => rfl
        | n + 8 => simp [Val.kind])
    cases hw with
    | blob _ hx _ =>
      have hx : v.asBlob = .ok _ := hx
      have hfl := vr_flagsOk rfl P
      obtain ⟨r, x1, _⟩ := Res.bind_eq_ok.1 hx
      simp only [View.blobRange] at x1
      obtain ⟨_, -, x1⟩ := Res.bind_eq_ok.1 x1
      obtain ⟨_, -, x1⟩ := Res.bind_eq_ok.1 x1
      obtain ⟨_, -, x1⟩ := Res.bind_eq_ok.1 x1
      obtain ⟨_, -, x1⟩ := Res.bind_eq_ok.1 x1
      obtain ⟨_, -, x1⟩ := Res.bind_eq_ok.1 x1
      obtain ⟨_, -, x1⟩ := Res.bind_eq_ok.1 x1
      obtain ⟨_, -, x1⟩ := Res.bind_eq_ok.1 x1
      obtain ⟨_, -, x1⟩ := Res.bind_eq_ok.1 x1
      obtain ⟨_, -, x1⟩ := Res.bind_eq_ok.1 x1
      obtain ⟨_, -, x1⟩ := Res.bind_eq_ok.1 x1
      simp only [vr_a P, vr_b P, Res.ok_bind, Nat.mod_eq_of_lt h1, Nat.mod_eq_of_lt h2] at x1
      obtain ⟨_, -, x1⟩ := Res.bind_eq_ok.1 x1
      have := (arenaBytes_eq x1).2
      rw [H.arenaLen] at this; omega
    | _ => simp [Val.kind] at hkd
  | arr ps ofs q h1 h2 h3 h4 h5 ih =>
    intro hd v o H hvr hat w hw
    have P := H.pos rfl hat; rw [← hvr] at P
    have hkd := shows_kind (u := .arr (ps.map Prod.snd)) (vr_tag P) (vr_aux P) hw (by
      intro n; match n with
        | 0 | 1 | 2 | 3 | 4 | 5 | 6 | 7 => rfl
        | n + 8 => simp [Val.kind])
    obtain ⟨ys, child, a1, a2⟩ := Reader.AgreesW.arr_of_kind hw hkd
    have hfl := vr_flagsOk rfl P
    have hlt := H.envLt
    have hsz := H.envSize
    have h16 : ∀ x ∈ ps.map Prod.fst, x.length = 16 := by
      intro x hx
      obtain ⟨p, hp, rfl⟩ := List.mem_map.1 hx
      exact h3 p hp
    have hb := h2.bound
    rw [List.length_append, le32_length, flatten16_length h16, List.length_map] at hb
    have hcnt : readU32 v.buf (HeaderSize + ofs) = .ok ps.length := by
      rw [readU32_at (H.envAt' h2.left), Nat.mod_eq_of_lt (by omega)]
    have e1 : v.envPtrAt ofs 4 = .ok (HeaderSize + ofs) := envPtrAt_ok (by omega)
    have e2 : v.envPtrAt ofs (4 + 16 * ps.length) = .ok (HeaderSize + ofs) :=
      envPtrAt_ok (by omega)
    have hlen : ys.length = ps.length := by
      have : v.arraySize = .ok ps.length := by
        simp only [View.arraySize, vr_tag P, hfl, vr_a P, Res.ok_bind,
          Nat.mod_eq_of_lt h1, e1, hcnt, e2]
        simp [tArray]
      have a1 : v.arraySize = .ok ys.length := a1
      rw [this] at a1; injection a1 with a1; exact a1.symm
    obtain ⟨i, hi, rfl⟩ := List.getElem_of_mem h4
    obtain ⟨b1, b2⟩ := a2 i (by omega)
    have hidx : v.getIdx i = .ok { v with vr := some (HeaderSize + (ofs + 4 + 16 * i)) } := by
      simp only [View.getIdx, vr_tag P, hfl, vr_a P, Res.ok_bind, Nat.mod_eq_of_lt h1, e1, hcnt]
      have e3 : u32 (ofs + 4 + 16 * i) = ofs + 4 + 16 * i := by simp [u32]; omega
      simp [hi, e3, envPtrAt_ok (ofs := ofs + 4 + 16 * i) (need := 16) (v := v) (by omega), tArray]
    have b1 : v.getIdx i = .ok (child i) := b1
    rw [hidx] at b1; injection b1 with b1
    rw [← b1] at b2
    have hat' : At env (ofs + 4 + 16 * i) (ps[i].1) := by
      have := flatten_at h16 h2.right i (by simpa using hi)
      simpa using this
    have hd' : ps[i].2.Distinct := by
      have := (Val.distinctList_iff _).1 hd
      exact this _ (List.mem_map.2 ⟨ps[i], List.getElem_mem _, rfl⟩)
    exact ih hd' _ _ (H.withVr _) rfl hat' _ b2
  | map ps ofs q h1 h2 h3 h4 h5 h6 ih =>
    intro hd v o H hvr hat w hw
    have P := H.pos rfl hat; rw [← hvr] at P
    have hkd := shows_kind (u := .map (ps.map (fun p => (p.1, p.2.2)))) (vr_tag P) (vr_aux P) hw (by
      intro n; match n with
        | 0 | 1 | 2 | 3 | 4 | 5 | 6 | 7 => rfl
        | n + 8 => simp [Val.kind])
    obtain ⟨ys, child, a1, a2⟩ := Reader.AgreesW.map_of_kind hw hkd
    have hfl := vr_flagsOk rfl P
    have hlt := H.envLt
    have hsz := H.envSize
    have hE : Entries env (ofs + 4) ps := ⟨by simpa using h2.right, h3, h4⟩
    have hcl := entries_count ps
    have hb := h2.bound
    rw [List.length_append, le32_length] at hb
    have hcnt : readU32 v.buf (HeaderSize + ofs) = .ok ps.length := by
      rw [readU32_at (H.envAt' h2.left), Nat.mod_eq_of_lt (by omega)]
    have e1 : v.envPtrAt ofs 4 = .ok (HeaderSize + ofs) := envPtrAt_ok (by omega)
    have e3 : u32 (ofs + 4) = ofs + 4 := by simp [u32]; omega
    have e2 : v.envPtrAt (ofs + 4) 0 = .ok (HeaderSize + (ofs + 4)) := envPtrAt_ok (by omega)
    have hmk : v.mapKeys = .ok (ps.map Prod.fst) := by
      simp only [View.mapKeys, vr_tag P, hfl, vr_a P, Res.ok_bind, Nat.mod_eq_of_lt h1, e1,
        hcnt, e3, e2]
      rw [keysFrom_ok H ps _ hE]; rfl
    have hgk : v.getKey q.1 = v.getKeyFrom q.1 ps.length (ofs + 4) := by
      simp only [View.getKey, vr_tag P, hfl, vr_a P, Res.ok_bind, Nat.mod_eq_of_lt h1, e1, hcnt, e3]
      rfl
    have hqk : q.1 ∈ ps.map Prod.fst := List.mem_map.2 ⟨q, h5, rfl⟩
    have hys : q.1 ∈ ys.map Prod.fst := by
      have a1 : v.mapKeys = .ok (ys.map Prod.fst) := a1
      rw [hmk] at a1; injection a1 with a1; rw [← a1]; exact hqk
    obtain ⟨b1, u, b2⟩ := a2 _ hys
    have b1 : v.getKey q.1 = .ok (child q.1) := b1
    rw [hgk] at b1
    rcases getKeyFrom_ok H q.1 ps _ hE with ⟨hn, _⟩ | ⟨p, hp, o', c1, c2, _, c4⟩
    · exact hn hqk
    · have hnd : (ps.map Prod.fst).Nodup := by
        have := hd.1
        simpa [Function.comp_def] using this
      have hpq : p = q := eq_of_key hnd hp h5 c1
      subst hpq
      rw [c4] at b1; injection b1 with b1
      rw [← b1] at b2
      have hd' : p.2.2.Distinct := by
        have := (Val.distinctEntries_iff _).1 hd.2
        exact this (p.1, p.2.2) (List.mem_map.2 ⟨p, h5, rfl⟩)
      exact ih hd' _ _ (H.withVr _) rfl c2 _ b2

/-! ## The writer -/

theorem le32_mod {a b : Nat} (h : u32 a = u32 b) : le32 a = le32 b := by
  rw [← le32_u32 a, h, le32_u32]

mutual
theorem run_emit_ends : ∀ (v : Val) (s t : RS), writer.run s (emit v) = .ok t →
    ∃ s' vr, deliverVr s' vr = .ok t ∧ vr.length = 16 ∧ s'.st = s.st ∧ s'.root = s.root ∧
      (∃ e, s'.env = s.env ++ e) ∧
      (s'.arena.length = s.arena.length ∨ Ends s'.env s'.arena.length vr v)
  | .null, s, t, h => ⟨s, makeVr tNull 0 0 0 0 0,
      by simpa [emit, writer, step] using h, rfl, rfl, rfl, ⟨[], by simp⟩, .inl rfl⟩
  | .bool b, s, t, h => ⟨s, makeVr tBool 0 (if b then 1 else 0) 0 0 0,
      by simpa [emit, writer, step] using h, rfl, rfl, rfl, ⟨[], by simp⟩, .inl rfl⟩
  | .int i, s, t, h => ⟨s, makeVr tI64 0 0 (lo32 i.toUInt64.toNat) (hi32 i.toUInt64.toNat) 0,
      by simpa [emit, writer, step] using h, rfl, rfl, rfl, ⟨[], by simp⟩, .inl rfl⟩
  | .uint n, s, t, h => ⟨s, makeVr tU64 0 0 (lo32 n.toNat) (hi32 n.toNat) 0,
      by simpa [emit, writer, step] using h, rfl, rfl, rfl, ⟨[], by simp⟩, .inl rfl⟩
  | .dbl n, s, t, h => ⟨s, makeVr tF64 0 0 (lo32 n.toNat) (hi32 n.toNat) 0,
      by simpa [emit, writer, step] using h, rfl, rfl, rfl, ⟨[], by simp⟩, .inl rfl⟩
  | .str x, s, t, h => by
    simp only [emit, Writer.run_cons, Writer.run_nil, writer, step] at h
    obtain ⟨t', h, ht⟩ := bind_ok h
    cases ht
    by_cases hl : x.length ≤ min s.thr InlineMax
    · simp only [if_pos hl] at h
      have hl' : x.length ≤ min s.thr 12 := hl
      refine ⟨s, _, h, ?_, rfl, rfl, ⟨[], by simp⟩, .inl rfl⟩
      rw [inline_bytes (by omega)]
      exact inlineVr_length (by omega)
    · simp only [if_neg hl] at h
      by_cases hx : x.length > u32max
      · rw [if_pos hx] at h; cases h
      · rw [if_neg hx] at h
        obtain ⟨⟨s1, o⟩, ha, hd⟩ := bind_ok h
        rw [arenaPut_iff] at ha
        split at ha
        · cases ha
        · rename_i hle
          injection ha with ha; injection ha with ha1 ha2
          subst ha1
          simp only [Nat.max_self, alignUp_one] at hle ha2
          have hx' : x.length < 2 ^ 32 := by simp [u32max] at hx; omega
          have hle' : s.arena.length < 2 ^ 32 := by simp [u32max] at hle; omega
          have e1 : u32 s.arena.length = s.arena.length := Nat.mod_eq_of_lt hle'
          subst ha2
          simp only [e1] at hd
          refine ⟨_, _, hd, rfl, rfl, rfl, ⟨[], by simp⟩, .inr ?_⟩
          refine .str x _ hle' hx' ?_
          simp [alignUp_one]
  | .blob x, s, t, h => by
    simp only [emit, Writer.run_cons, Writer.run_nil, writer, step] at h
    obtain ⟨t', h, ht⟩ := bind_ok h
    cases ht
    have hmax : max 1 ArenaBaseAlign = 16 := by decide
    have hge := alignUp_ge s.arena.length 16
    by_cases hx : x.length > u32max
    · rw [if_pos hx] at h; cases h
    · rw [if_neg hx] at h
      obtain ⟨⟨s1, o⟩, ha, hd⟩ := bind_ok h
      obtain ⟨⟨s2, o2⟩, hb, hd⟩ := bind_ok hd
      rw [arenaPut_iff, hmax] at ha
      split at ha
      · cases ha
      · rename_i hle
        injection ha with ha; injection ha with ha1 ha2
        subst ha1
        simp only [appendEnv] at hb
        split at hb
        · cases hb
        · injection hb with hb; injection hb with hb1 hb2
          subst hb1
          have hx' : x.length < 2 ^ 32 := by simp [u32max] at hx; omega
          have hle' : alignUp s.arena.length 16 < 2 ^ 32 := by simp [u32max] at hle; omega
          have e1 : u32 (alignUp s.arena.length 16) = alignUp s.arena.length 16 := Nat.mod_eq_of_lt hle'
          subst ha2
          simp only [e1] at hd
          refine ⟨_, _, hd, rfl, rfl, rfl, ⟨_, rfl⟩, .inr ?_⟩
          refine .blob x _ _ hle' hx' ?_
          simp; omega
  | .arr xs, s, t, h => by
    simp only [emit, Writer.run_cons, Writer.run_append, Writer.run_nil, writer, step,
      Res.ok_bind] at h
    obtain ⟨s1, h1, h2⟩ := bind_ok h
    obtain ⟨t', h2, ht⟩ := bind_ok h2
    cases ht
    obtain ⟨ps, n, g0, g1, g2, g3, g4, ⟨e, g5⟩, g6⟩ :=
      run_list_ends xs { s with st := .arr (le32 0) 0 :: s.st } s1 (le32 0) 0 s.st rfl h1
    simp only [g2] at h2
    obtain ⟨p', hw, h3⟩ := bind_ok h2
    obtain ⟨⟨s2, o⟩, ha, hd⟩ := bind_ok h3
    simp only [appendEnv] at ha
    split at ha
    · cases ha
    · rename_i hle
      injection ha with ha; injection ha with ha1 ha2
      subst ha1
      refine ⟨_, _, hd, rfl, rfl, g4, ⟨e ++ p', by simp [g5]⟩, ?_⟩
      rw [writeU32At_zero] at hw
      injection hw with hw
      subst hw
      have hle' : s1.env.length < 2 ^ 32 := by simp [u32max] at hle; omega
      have e1 : u32 s1.env.length = s1.env.length := Nat.mod_eq_of_lt hle'
      rcases g6 with g6 | ⟨q, hq, g6⟩
      · exact .inl g6
      · right
        rw [← ha2, e1, ← g0]
        have hn : le32 n = le32 ps.length := by
          rw [← g0, List.length_map] at g3; exact le32_mod (by simpa using g3)
        rw [hn]
        exact .arr ps _ q hle' (At.self_end _ _) g1 hq (g6.mono _)
  | .map ms, s, t, h => by
    simp only [emit, Writer.run_cons, Writer.run_append, Writer.run_nil, writer, step,
      Res.ok_bind] at h
    obtain ⟨s1, h1, h2⟩ := bind_ok h
    obtain ⟨t', h2, ht⟩ := bind_ok h2
    cases ht
    obtain ⟨ps, n, g0, g1, gk, g2, g3, g4, ⟨e, g5⟩, g6⟩ :=
      run_entries_ends ms { s with st := .map (le32 0) 0 none :: s.st } s1 (le32 0) 0 s.st rfl h1
    simp only [g2] at h2
    obtain ⟨p', hw, h3⟩ := bind_ok h2
    obtain ⟨⟨s2, o⟩, ha, hd⟩ := bind_ok h3
    simp only [appendEnv] at ha
    split at ha
    · cases ha
    · rename_i hle
      injection ha with ha; injection ha with ha1 ha2
      subst ha1
      refine ⟨_, _, hd, rfl, rfl, g4, ⟨e ++ p', by simp [g5]⟩, ?_⟩
      rw [writeU32At_zero] at hw
      injection hw with hw
      subst hw
      have hle' : s1.env.length < 2 ^ 32 := by simp [u32max] at hle; omega
      have e1 : u32 s1.env.length = s1.env.length := Nat.mod_eq_of_lt hle'
      rcases g6 with g6 | ⟨q, hq, g6⟩
      · exact .inl g6
      · right
        rw [← ha2, e1, ← g0]
        have hn : le32 n = le32 ps.length := by
          rw [← g0, List.length_map] at g3; exact le32_mod (by simpa using g3)
        rw [hn]
        exact .map ps _ q hle' (At.self_end _ _) gk g1 hq (g6.mono _)
theorem run_list_ends : ∀ (xs : List Val) (s t : RS) (p : Bytes) (n : Nat) (st : List Ctx),
    s.st = .arr p n :: st → writer.run s (emitList xs) = .ok t →
    ∃ (ps : List (Bytes × Val)) (n' : Nat), ps.map Prod.snd = xs ∧ (∀ q ∈ ps, q.1.length = 16) ∧
      t.st = .arr (p ++ (ps.map Prod.fst).flatten) n' :: st ∧ u32 n' = u32 (n + xs.length) ∧
      t.root = s.root ∧ (∃ e, t.env = s.env ++ e) ∧
      (t.arena.length = s.arena.length ∨ ∃ q ∈ ps, Ends t.env t.arena.length q.1 q.2)
  | [], s, t, p, n, st, hst, h => by
    cases h
    exact ⟨[], n, rfl, by simp, by simpa using hst, rfl, rfl, ⟨[], by simp⟩, .inl rfl⟩
  | x :: xs, s, t, p, n, st, hst, h => by
    rw [emitList, Writer.run_append] at h
    obtain ⟨s1, h1, h2⟩ := bind_ok h
    obtain ⟨s', vr, hd, hl, g1, g2, ⟨e, g3⟩, g4⟩ := run_emit_ends x s s1 h1
    rw [hst] at g1
    simp only [deliverVr, g1] at hd
    injection hd with hd
    subst hd
    obtain ⟨ps, n', f0, f1, f2, f3, f4, ⟨e', f5⟩, f6⟩ :=
      run_list_ends xs _ t (p ++ vr) (u32 (n + 1)) st rfl h2
    simp only at f4 f5 f6
    refine ⟨(vr, x) :: ps, n', by simp [f0], ?_, by simpa using f2, ?_, f4.trans g2,
      ⟨e ++ e', by rw [f5, g3]; simp⟩, ?_⟩
    · intro q hq
      rcases List.mem_cons.1 hq with rfl | hq
      · exact hl
      · exact f1 q hq
    · rw [f3]; simp [u32]; omega
    · rcases f6 with f6 | ⟨q, hq, f6⟩
      · rcases g4 with g4 | g4
        · exact .inl (f6.trans g4)
        · refine .inr ⟨(vr, x), by simp, ?_⟩
          rw [f6, f5]; exact g4.mono _
      · exact .inr ⟨q, by simp [hq], f6⟩
theorem run_entries_ends : ∀ (ms : List (Bytes × Val)) (s t : RS) (p : Bytes) (n : Nat) (st : List Ctx),
    s.st = .map p n none :: st → writer.run s (emitEntries ms) = .ok t →
    ∃ (ps : List (Bytes × Bytes × Val)) (n' : Nat), ps.map (fun p => (p.1, p.2.2)) = ms ∧
      (∀ q ∈ ps, q.2.1.length = 16) ∧ (∀ q ∈ ps, q.1.length < 2 ^ 16) ∧
      t.st = .map (p ++ (ps.map (fun p => entry p.1 p.2.1)).flatten) n' none :: st ∧
      u32 n' = u32 (n + ms.length) ∧ t.root = s.root ∧ (∃ e, t.env = s.env ++ e) ∧
      (t.arena.length = s.arena.length ∨ ∃ q ∈ ps, Ends t.env t.arena.length q.2.1 q.2.2)
  | [], s, t, p, n, st, hst, h => by
    cases h
    exact ⟨[], n, rfl, by simp, by simp, by simpa using hst, rfl, rfl, ⟨[], by simp⟩, .inl rfl⟩
  | (k, x) :: ms, s, t, p, n, st, hst, h => by
    rw [emitEntries, Writer.run_cons] at h
    obtain ⟨s0, h0, h⟩ := bind_ok h
    have h0 : step s (.key k) = .ok s0 := h0
    simp only [step, hst] at h0
    by_cases hkl : k.length > u16max
    · rw [if_pos hkl] at h0; cases h0
    · rw [if_neg hkl] at h0
      injection h0 with h0
      rw [Writer.run_append] at h
      obtain ⟨s1, h1, h2⟩ := bind_ok h
      obtain ⟨s', vr, hd, hl, g1, g2, ⟨e, g3⟩, g4⟩ := run_emit_ends x s0 s1 h1
      subst h0
      simp only at g1 g2 g3 g4
      generalize hp1 : p ++ le16 k.length ++ le16 0 ++ k = p1 at g1
      have hlen : ¬ (p1.length + 16 > (p1 ++ List.replicate 16 (0 : UInt8)).length) := by simp
      have e1 : (p1 ++ List.replicate 16 (0 : UInt8)).take p1.length = p1 := by simp
      have e2 : (p1 ++ List.replicate 16 (0 : UInt8)).drop (p1.length + 16) = [] := by simp
      simp only [deliverVr, g1, if_neg hlen, e1, e2, List.append_nil] at hd
      injection hd with hd
      subst hd
      obtain ⟨ps, n', f0, f1, fk, f2, f3, f4, ⟨e', f5⟩, f6⟩ := run_entries_ends ms _ t _ _ st rfl h2
      simp only at f4 f5 f6
      refine ⟨(k, vr, x) :: ps, n', by simp [f0], ?_, ?_, ?_, ?_, f4.trans g2,
        ⟨e ++ e', by rw [f5, g3]; simp⟩, ?_⟩
      · intro q hq
        rcases List.mem_cons.1 hq with rfl | hq
        · exact hl
        · exact f1 q hq
      · intro q hq
        rcases List.mem_cons.1 hq with rfl | hq
        · simp [u16max] at hkl; simp only; omega
        · exact fk q hq
      · rw [f2, ← hp1]; simp [entry]
      · rw [f3]; simp [u32]; omega
      · rcases f6 with f6 | ⟨q, hq, f6⟩
        · rcases g4 with g4 | g4
          · exact .inl (f6.trans g4)
          · refine .inr ⟨(k, vr, x), by simp, ?_⟩
            rw [f6, f5]; exact g4.mono _
        · exact .inr ⟨q, by simp [hq], f6⟩
end

theorem le_readU16 (v t : Bytes) (p : Nat) : (readU16 v p).Le (readU16 (v ++ t) p) :=
  .bind (.byteAt _ _ _) fun _ => .bind (.byteAt _ _ _) fun _ => .refl _

theorem le_readU32 (v t : Bytes) (p : Nat) : (readU32 v p).Le (readU32 (v ++ t) p) :=
  .bind (.byteAt _ _ _) fun _ => .bind (.byteAt _ _ _) fun _ => .bind (.byteAt _ _ _) fun _ =>
    .bind (.byteAt _ _ _) fun _ => .refl _

theorem le_parseHeader (v t : Bytes) : (parseHeader v).Le (parseHeader (v ++ t)) :=
  .bind (.require (by simp; omega)) fun _ => .bind (le_readU32 _ _ _) fun _ =>
    .bind (le_readU16 _ _ _) fun _ => .bind (le_readU16 _ _ _) fun _ => .bind (le_readU32 _ _ _) fun _ =>
    .bind (le_readU32 _ _ _) fun _ => .bind (le_readU32 _ _ _) fun _ => .refl _

/-- What opening a buffer checked and returned. -/
theorem initFrom_ok {b : Bytes} {r : View} (h : initFrom b = .ok r) : ∃ hd : Header, parseHeader b = .ok hd ∧
    hd.arenaOfs ≤ b.length ∧ r = ⟨b, hd.envSize, hd.arenaOfs, some (HeaderSize + hd.rootOfs)⟩ := by
  obtain ⟨hd, x1, h⟩ := Res.bind_eq_ok.1 h
  obtain ⟨_, -, h⟩ := Res.bind_eq_ok.1 h
  obtain ⟨_, -, h⟩ := Res.bind_eq_ok.1 h
  obtain ⟨_, -, h⟩ := Res.bind_eq_ok.1 h
  obtain ⟨_, -, h⟩ := Res.bind_eq_ok.1 h
  obtain ⟨_, -, h⟩ := Res.bind_eq_ok.1 h
  obtain ⟨_, x2, h⟩ := Res.bind_eq_ok.1 h
  obtain ⟨_, -, h⟩ := Res.bind_eq_ok.1 h
  obtain ⟨_, -, h⟩ := Res.bind_eq_ok.1 h
  obtain ⟨_, -, h⟩ := Res.bind_eq_ok.1 h
  obtain ⟨_, -, h⟩ := Res.bind_eq_ok.1 h
  injection h with h
  exact ⟨hd, x1, by simpa using Res.require_eq_ok.1 x2, h.symm⟩

/-- The parts of a serialization, and who owns the end of its arena. -/
theorem serialize_parts {thr : Nat} (hthr : thr ≤ 12) {v : Val} {b : Bytes}
    (hb : serializeEvs thr (emit v) = .ok b) :
    ∃ env arena root ao vr, Finished b env arena root ao ∧ At env root vr ∧ vr.length = 16 ∧
      env.length = 16 + envCost v ∧ (arena = [] ∨ Ends env arena.length vr v) := by
  have h0 : setThreshold {} thr = .ok { thr := thr } := by
    simp [setThreshold, InlineMax, hthr]
  simp only [serializeEvs, h0, Res.ok_bind] at hb
  obtain ⟨s, h1, h2⟩ := bind_ok hb
  obtain ⟨s', vr, hd, hl, g1, g2, -, g4⟩ := run_emit_ends v _ s h1
  have hcost : s.env.length = 16 + envCost v := by
    obtain ⟨-, s'', vr'', hd, hl, g1, g2, -, g4, -⟩ := run_emit_inv v _ s h1
    simp only [List.length_nil, Nat.zero_add] at g1 g2 g4
    simp only [deliverVr, g1, writeRootVr, g2, appendEnv] at hd
    split at hd
    · cases hd
    · simp only [Res.ok_bind, Res.pure_eq] at hd
      injection hd with hd
      subst hd
      simp only [List.length_append, g4, hl]; omega
  simp only [List.length_nil] at g1 g2 g4
  simp only [deliverVr, g1, writeRootVr, g2, appendEnv] at hd
  by_cases hlen : s'.env.length > u32max
  · rw [if_pos hlen] at hd; cases hd
  · rw [if_neg hlen] at hd
    simp only [Res.ok_bind, Res.pure_eq] at hd
    injection hd with hd
    subst hd
    have hlt : s'.env.length < 2 ^ 32 := by simp [u32max] at hlen; omega
    have hu : u32 s'.env.length = s'.env.length := Nat.mod_eq_of_lt hlt
    simp only [finish, Res.pure_eq, Res.ok_bind] at h2
    split at h2
    · cases h2
    · rename_i c1
      split at h2
      · cases h2
      · rename_i c2
        have l1 : (s'.env ++ vr).length < 2 ^ 32 := by simp only [u32max] at c1; omega
        have l2 : s'.arena.length < 2 ^ 32 := by simp only [u32max] at c2; omega
        have e : u32 (s'.env ++ vr).length = (s'.env ++ vr).length := Nat.mod_eq_of_lt l1
        rw [e] at h2
        split at h2
        · cases h2
        · rename_i c3
          injection h2 with h2
          rw [hu] at h2
          refine ⟨s'.env ++ vr, s'.arena, s'.env.length, _, vr,
            ⟨h2.symm, rfl, l1, l2, by simp only [u32max] at c3; omega, hlt⟩, At.self_end _ _, hl, hcost, ?_⟩
          rcases g4 with g4 | g4
          · exact .inl (List.length_eq_zero_iff.1 g4)
          · exact .inr (g4.mono _)

/-- A proper prefix of a serialization is refused, or opens at a position presenting no value. -/
theorem no_value_cut {thr : Nat} (hthr : thr ≤ 12) {v : Val} {b p t : Bytes} (hv : v.Distinct)
    (hb : serializeEvs thr (emit v) = .ok b) (hp : b = p ++ t) (ht : t ≠ []) {r : View} (hr : initFrom p = .ok r)
    (w : Val) : ¬ reader.Agrees r w := by
  obtain ⟨env, arena, root, ao, vr, F, hat, hl, -, hE⟩ := serialize_parts hthr hb
  obtain ⟨h1, H⟩ := F.opens hat hl
  obtain ⟨hd, x1, x2, x3⟩ := initFrom_ok hr
  obtain ⟨hd', y1, y2, y3⟩ := initFrom_ok h1
  have e : hd' = hd := by
    have := le_parseHeader p t _ x1
    rw [← hp, y1] at this; injection this
  subst e
  injection y3 with _ z1 z2 z3
  rw [← z1, ← z2, ← z3] at x3
  rw [← z2] at x2
  have hbl : b.length = ao + arena.length := by
    have := H.arenaLen
    simp only [View.arenaLen] at this; omega
  have htl : 0 < t.length := List.length_pos_iff.2 ht
  have hbl' : b.length = p.length + t.length := by rw [hp, List.length_append]
  rcases hE with rfl | hE
  · simp only [List.length_nil] at hbl; omega
  · -- the prefix is the assembly of the same envelope with a shorter arena
    obtain ⟨q, q', e1, e2⟩ := H.arenaAt
    simp only at e1 e2
    have hq' : q' = [] := by
      have := congrArg List.length e1
      simp only [List.length_append] at this
      exact List.length_eq_zero_iff.1 (by omega)
    subst hq'
    have harena : p = q ++ arena.take (p.length - ao) := by
      have h3 : p = b.take p.length := by rw [hp]; simp
      rw [List.append_nil] at e1
      rw [h3, e1, List.take_append, List.take_of_length_le (by omega)]
      simp only [List.length_append, List.length_take]
      congr 2; omega
    have F' : Finished p env (arena.take (p.length - ao)) root ao := by
      refine ⟨?_, F.arenaOfs_eq, F.envLt, ?_, F.arenaOfsLt, F.rootLt⟩
      · have h4 : q = assemble env [] root ao := by
          have := F.eq
          rw [e1, List.append_nil] at this
          simp only [assemble, List.append_nil, ← List.append_assoc] at this ⊢
          exact List.append_cancel_right this
        rw [h4] at harena
        refine harena.trans ?_
        simp [assemble]
      · have := F.arenaLt
        simp only [List.length_take]; omega
    obtain ⟨k1, H'⟩ := F'.opens hat hl
    rw [x3]
    refine hE.no_value ?_ hv _ root H' rfl hat w
    simp only [List.length_take]; omega

end Zer.Zera
