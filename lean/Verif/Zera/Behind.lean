import Verif.Flex.Behind
import Verif.Prefix.Zera

/-!
# ZERA: the byte behind a string

The arena is the last part of a ZERA message. It holds the strings that are not stored inline and the blobs, in the order of
writing; whatever is put there last is followed by nothing.
-/

namespace Zer.Zera

open Zer Res

mutual
/-- Whether the arena ends with a string after `v` was written behind `a` bytes, which end with one if `f`. Blobs are aligned;
an empty one may leave the end where it was. -/
def strEnd (thr a : Nat) (f : Bool) : Val → Bool
  | .str s => if s.length ≤ min thr 12 then f else true
  | .blob s => f && decide (alignUp a 16 + s.length = a)
  | .arr xs => strEndList thr a f xs
  | .map ms => strEndEntries thr a f ms
  | _ => f
def strEndList (thr a : Nat) (f : Bool) : List Val → Bool
  | [] => f
  | x :: xs => strEndList thr (arenaAfter thr a x) (strEnd thr a f x) xs
def strEndEntries (thr a : Nat) (f : Bool) : List (Bytes × Val) → Bool
  | [] => f
  | (_, x) :: ms => strEndEntries thr (arenaAfter thr a x) (strEnd thr a f x) ms
end

/-- `Repr`, and whether a string of the value ends where the arena ends. -/
inductive Laid (env arena : Bytes) : Bytes → Val → Bool → Prop where
  | leaf {vr : Bytes} {v : Val} : Repr env arena vr v → (∀ s, v ≠ .str s) → (∀ xs, v ≠ .arr xs) → (∀ ms, v ≠ .map ms) →
      Laid env arena vr v false
  | inline (s : Bytes) : s.length ≤ 12 → Laid env arena (inlineVr s) (.str s) false
  | str (s : Bytes) (ofs : Nat) : ofs < 2 ^ 32 → s.length < 2 ^ 32 → At arena ofs s →
      Laid env arena (makeVr tString 0 0 ofs s.length 0) (.str s) (decide (ofs + s.length = arena.length))
  | arr (ps : List (Bytes × Val × Bool)) (ofs : Nat) : ofs < 2 ^ 32 →
      At env ofs (le32 ps.length ++ (ps.map Prod.fst).flatten) →
      (∀ p ∈ ps, Laid env arena p.1 p.2.1 p.2.2) →
      Laid env arena (makeVr tArray 0 0 ofs 0 0) (.arr (ps.map (·.2.1))) (ps.any (·.2.2))
  | map (ps : List (Bytes × Bytes × Val × Bool)) (ofs : Nat) : ofs < 2 ^ 32 →
      At env ofs (le32 ps.length ++ (ps.map (fun p => entry p.1 p.2.1)).flatten) →
      (∀ p ∈ ps, p.1.length < 2 ^ 16) →
      (∀ p ∈ ps, Laid env arena p.2.1 p.2.2.1 p.2.2.2) →
      Laid env arena (makeVr tObject 0 0 ofs 0 0) (.map (ps.map (fun p => (p.1, p.2.2.1)))) (ps.any (·.2.2.2))

theorem Laid.repr {env arena vr : Bytes} {v : Val} {e : Bool} (h : Laid env arena vr v e) : Repr env arena vr v := by
  induction h with
  | leaf h _ _ _ => exact h
  | inline s h => exact .strInline s h
  | str s ofs h1 h2 h3 => exact .strArena s ofs h1 h2 h3
  | arr ps ofs h1 h2 _ ih =>
    have := Repr.arr (env := env) (arena := arena) (ps.map fun p => (p.1, p.2.1)) ofs h1
      (by simpa [Function.comp_def] using h2) (by
        intro p hp
        obtain ⟨q, hq, rfl⟩ := List.mem_map.1 hp
        exact ih q hq)
    simpa [Function.comp_def] using this
  | map ps ofs h1 h2 h3 _ ih =>
    have := Repr.map (env := env) (arena := arena) (ps.map fun p => (p.1, p.2.1, p.2.2.1)) ofs h1
      (by simpa [Function.comp_def] using h2) (by
        intro p hp
        obtain ⟨q, hq, rfl⟩ := List.mem_map.1 hp
        exact h3 q hq) (by
        intro p hp
        obtain ⟨q, hq, rfl⟩ := List.mem_map.1 hp
        exact ih q hq)
    simpa [Function.comp_def] using this

theorem Laid.length {env arena vr : Bytes} {v : Val} {e : Bool} (h : Laid env arena vr v e) : vr.length = 16 := h.repr.length

theorem any_and {α : Type} (f : α → Bool) (c : Bool) : ∀ l : List α, (l.any fun a => f a && c) = (l.any f && c)
  | [] => by simp
  | a :: l => by
    rw [List.any_cons, List.any_cons, any_and f c l]
    cases f a <;> cases c <;> simp

/-- In a longer arena the end is elsewhere. -/
theorem Laid.mono {env arena vr : Bytes} {v : Val} {e : Bool} (h : Laid env arena vr v e) (x y : Bytes) :
    Laid (env ++ x) (arena ++ y) vr v (e && y.isEmpty) := by
  induction h with
  | leaf h h1 h2 h3 => exact .leaf (h.mono x y) h1 h2 h3
  | inline s h => exact .inline s h
  | str s ofs h1 h2 h3 =>
    have := Laid.str (env := env ++ x) (arena := arena ++ y) s ofs h1 h2 (h3.append_right _)
    have hb := h3.bound
    have e : (decide (ofs + s.length = arena.length) && y.isEmpty) = decide (ofs + s.length = (arena ++ y).length) := by
      cases y with
      | nil => simp
      | cons c y =>
        have : ¬ ofs + s.length = (arena ++ c :: y).length := by simp only [List.length_append, List.length_cons]; omega
        simp only [List.isEmpty_cons, Bool.and_false, decide_eq_false this]
    rw [e]; exact this
  | arr ps ofs h1 h2 _ ih =>
    have := Laid.arr (env := env ++ x) (arena := arena ++ y) (ps.map fun p => (p.1, p.2.1, p.2.2 && y.isEmpty)) ofs h1
      (by simpa [Function.comp_def] using h2.append_right x) (by
        intro p hp
        obtain ⟨q, hq, rfl⟩ := List.mem_map.1 hp
        exact ih q hq)
    simp only [List.map_map, Function.comp_def, List.any_map] at this
    rw [any_and (fun p : Bytes × Val × Bool => p.2.2)] at this
    exact this
  | map ps ofs h1 h2 h3 _ ih =>
    have := Laid.map (env := env ++ x) (arena := arena ++ y) (ps.map fun p => (p.1, p.2.1, p.2.2.1, p.2.2.2 && y.isEmpty)) ofs h1
      (by simpa [Function.comp_def] using h2.append_right x) (by
        intro p hp
        obtain ⟨q, hq, rfl⟩ := List.mem_map.1 hp
        exact h3 q hq) (by
        intro p hp
        obtain ⟨q, hq, rfl⟩ := List.mem_map.1 hp
        exact ih q hq)
    simp only [List.map_map, Function.comp_def, List.any_map] at this
    rw [any_and (fun p : Bytes × Bytes × Val × Bool => p.2.2.2)] at this
    exact this

/-! ## The writer -/

/-- What a value adds: `s'` is `s` with it written, before its reference is delivered. -/
structure Added (s s' : RS) (x y : Bytes) (after : Nat) : Prop where
  st : s'.st = s.st
  root : s'.root = s.root
  thr : s'.thr = s.thr
  env : s'.env = s.env ++ x
  arena : s'.arena = s.arena ++ y
  len : s'.arena.length = after

mutual
theorem run_emit_laid : ∀ (v : Val) (s t : RS), writer.run s (emit v) = .ok t →
    ∃ s' vr e x y, deliverVr s' vr = .ok t ∧ Added s s' x y (arenaAfter s.thr s.arena.length v) ∧
      Laid s'.env s'.arena vr v e ∧ (∀ f, strEnd s.thr s.arena.length f v = (e || (f && y.isEmpty))) ∧ ((∃ u, v = .str u) → x = [])
  | .null, s, t, h => ⟨s, makeVr tNull 0 0 0 0 0, false, [], [],
      by simpa [emit, writer, step] using h, ⟨rfl, rfl, rfl, by simp, by simp, rfl⟩,
      .leaf .null (by simp) (by simp) (by simp), fun f => by simp [strEnd], by simp⟩
  | .bool b, s, t, h => ⟨s, makeVr tBool 0 (if b then 1 else 0) 0 0 0, false, [], [],
      by simpa [emit, writer, step] using h, ⟨rfl, rfl, rfl, by simp, by simp, rfl⟩,
      .leaf (.bool b) (by simp) (by simp) (by simp), fun f => by simp [strEnd], by simp⟩
  | .int i, s, t, h => ⟨s, makeVr tI64 0 0 (lo32 i.toUInt64.toNat) (hi32 i.toUInt64.toNat) 0, false, [], [],
      by simpa [emit, writer, step] using h, ⟨rfl, rfl, rfl, by simp, by simp, rfl⟩,
      .leaf (.int i) (by simp) (by simp) (by simp), fun f => by simp [strEnd], by simp⟩
  | .uint n, s, t, h => ⟨s, makeVr tU64 0 0 (lo32 n.toNat) (hi32 n.toNat) 0, false, [], [],
      by simpa [emit, writer, step] using h, ⟨rfl, rfl, rfl, by simp, by simp, rfl⟩,
      .leaf (.uint n) (by simp) (by simp) (by simp), fun f => by simp [strEnd], by simp⟩
  | .dbl n, s, t, h => ⟨s, makeVr tF64 0 0 (lo32 n.toNat) (hi32 n.toNat) 0, false, [], [],
      by simpa [emit, writer, step] using h, ⟨rfl, rfl, rfl, by simp, by simp, rfl⟩,
      .leaf (.dbl n) (by simp) (by simp) (by simp), fun f => by simp [strEnd], by simp⟩
  | .str x, s, t, h => by
    simp only [emit, Writer.run_cons, Writer.run_nil, writer, step] at h
    obtain ⟨t', h, ht⟩ := bind_ok h
    cases ht
    by_cases hl : x.length ≤ min s.thr InlineMax
    · simp only [if_pos hl] at h
      have hl' : x.length ≤ min s.thr 12 := hl
      refine ⟨s, _, false, [], [], h, ⟨rfl, rfl, rfl, by simp, by simp, by rw [arenaAfter, if_pos hl']⟩, ?_,
        fun f => by rw [strEnd, if_pos hl']; simp, fun _ => rfl⟩
      rw [inline_bytes (by omega)]
      exact .inline x (by omega)
    · simp only [if_neg hl] at h
      have hl' : ¬ x.length ≤ min s.thr 12 := hl
      by_cases hx : x.length > u32max
      · rw [if_pos hx] at h; cases h
      · rw [if_neg hx] at h
        obtain ⟨⟨s1, o⟩, ha, hd⟩ := bind_ok h
        rw [arenaPut_iff] at ha
        split at ha
        · cases ha
        · rename_i hle
          injection ha with ha; injection ha with ha1 ha2
          subst ha1
          simp only [Nat.max_self, alignUp_one] at hle ha2
          have hx' : x.length < 2 ^ 32 := by simp [u32max] at hx; omega
          have hle' : s.arena.length < 2 ^ 32 := by simp [u32max] at hle; omega
          have e1 : u32 s.arena.length = s.arena.length := Nat.mod_eq_of_lt hle'
          subst ha2
          simp only [e1] at hd
          refine ⟨_, _, true, [], x, hd, ⟨rfl, rfl, rfl, by simp, by simp [alignUp_one], ?_⟩, ?_, fun f => ?_, fun _ => rfl⟩
          · rw [arenaAfter, if_neg hl']; simp [alignUp_one]
          · have hat : At (s.arena ++ x) s.arena.length x := At.self_end _ _
            have := Laid.str (env := s.env) (arena := s.arena ++ x) x s.arena.length hle' hx' hat
            simpa [alignUp_one] using this
          · rw [strEnd, if_neg hl']; simp
  | .blob x, s, t, h => by
    simp only [emit, Writer.run_cons, Writer.run_nil, writer, step] at h
    obtain ⟨t', h, ht⟩ := bind_ok h
    cases ht
    have hmax : max 1 ArenaBaseAlign = 16 := by decide
    have hge := alignUp_ge s.arena.length 16
    have hdv := alignUp_dvd s.arena.length (a := 16) (by decide)
    by_cases hx : x.length > u32max
    · rw [if_pos hx] at h; cases h
    · rw [if_neg hx] at h
      obtain ⟨⟨s1, o⟩, ha, hd⟩ := bind_ok h
      obtain ⟨⟨s2, o2⟩, hb, hd⟩ := bind_ok hd
      rw [arenaPut_iff, hmax] at ha
      split at ha
      · cases ha
      · rename_i hle
        injection ha with ha; injection ha with ha1 ha2
        subst ha1
        simp only [appendEnv] at hb
        split at hb
        · cases hb
        · rename_i hle2
          injection hb with hb; injection hb with hb1 hb2
          subst hb1
          have hx' : x.length < 2 ^ 32 := by simp [u32max] at hx; omega
          have hle' : alignUp s.arena.length 16 < 2 ^ 32 := by simp [u32max] at hle; omega
          have hle2' : s.env.length < 2 ^ 32 := by simp [u32max] at hle2; omega
          have e1 : u32 (alignUp s.arena.length 16) = alignUp s.arena.length 16 := Nat.mod_eq_of_lt hle'
          have e2 : u32 s.env.length = s.env.length := Nat.mod_eq_of_lt hle2'
          subst ha2
          subst hb2
          simp only [e1, e2] at hd
          refine ⟨_, _, false, shapeBytes x.length, List.replicate (alignUp s.arena.length 16 - s.arena.length) 0 ++ x, hd,
            ⟨rfl, rfl, rfl, rfl, by simp, ?_⟩, ?_, fun f => ?_, by simp⟩
          · rw [arenaAfter]; simp only [List.length_append, List.length_replicate]; omega
          · refine .leaf (.blob x _ _ hle' hx' hle2' hdv ?_ (At.self_end _ _)) (by simp) (by simp) (by simp)
            have := At.self_end (s.arena ++ List.replicate (alignUp s.arena.length 16 - s.arena.length) 0) x
            have el : (s.arena ++ List.replicate (alignUp s.arena.length 16 - s.arena.length) (0 : UInt8)).length =
              alignUp s.arena.length 16 := by simp only [List.length_append, List.length_replicate]; omega
            rwa [el] at this
          · rw [strEnd, Bool.false_or]
            congr 1
            rw [Bool.eq_iff_iff, decide_eq_true_iff, List.isEmpty_iff, List.append_eq_nil_iff]
            constructor
            · intro e
              exact ⟨by rw [show alignUp s.arena.length 16 - s.arena.length = 0 by omega]; rfl, List.length_eq_zero_iff.1 (by omega)⟩
            · rintro ⟨e, rfl⟩
              have := congrArg List.length e
              simp only [List.length_replicate, List.length_nil] at this
              simp only [List.length_nil]; omega
  | .arr xs, s, t, h => by
    simp only [emit, Writer.run_cons, Writer.run_append, Writer.run_nil, writer, step,
      Res.ok_bind] at h
    obtain ⟨s1, h1, h2⟩ := bind_ok h
    obtain ⟨t', h2, ht⟩ := bind_ok h2
    cases ht
    obtain ⟨ps, n, x, y, g0, g2, g3, g4, gt, g5, ga, gl, g6, g7⟩ :=
      run_list_laid xs { s with st := .arr (le32 0) 0 :: s.st } s1 (le32 0) 0 s.st rfl h1
    simp only [g2] at h2
    obtain ⟨p', hw, h3⟩ := bind_ok h2
    obtain ⟨⟨s2, o⟩, ha, hd⟩ := bind_ok h3
    simp only [appendEnv] at ha
    split at ha
    · cases ha
    · rename_i hle
      injection ha with ha; injection ha with ha1 ha2
      subst ha1
      refine ⟨_, _, ps.any (·.2.2), x ++ p', y, hd, ⟨rfl, g4, gt, by simp [g5], ga, by rw [arenaAfter]; exact gl⟩, ?_,
        fun f => by rw [strEnd]; exact g7 f, by simp⟩
      rw [writeU32At_zero] at hw
      injection hw with hw
      subst hw
      have hle' : s1.env.length < 2 ^ 32 := by simp [u32max] at hle; omega
      have e1 : u32 s1.env.length = s1.env.length := Nat.mod_eq_of_lt hle'
      rw [← ha2, e1, ← g0]
      have hn : le32 n = le32 ps.length := by
        rw [← g0, List.length_map] at g3; exact le32_mod (by simpa using g3)
      rw [hn]
      refine .arr ps _ hle' (At.self_end _ _) (fun q hq => ?_)
      have := (g6 q hq).mono (le32 ps.length ++ (ps.map Prod.fst).flatten) []
      simpa using this
  | .map ms, s, t, h => by
    simp only [emit, Writer.run_cons, Writer.run_append, Writer.run_nil, writer, step,
      Res.ok_bind] at h
    obtain ⟨s1, h1, h2⟩ := bind_ok h
    obtain ⟨t', h2, ht⟩ := bind_ok h2
    cases ht
    obtain ⟨ps, n, x, y, g0, gk, g2, g3, g4, gt, g5, ga, gl, g6, g7⟩ :=
      run_entries_laid ms { s with st := .map (le32 0) 0 none :: s.st } s1 (le32 0) 0 s.st rfl h1
    simp only [g2] at h2
    obtain ⟨p', hw, h3⟩ := bind_ok h2
    obtain ⟨⟨s2, o⟩, ha, hd⟩ := bind_ok h3
    simp only [appendEnv] at ha
    split at ha
    · cases ha
    · rename_i hle
      injection ha with ha; injection ha with ha1 ha2
      subst ha1
      refine ⟨_, _, ps.any (·.2.2.2), x ++ p', y, hd, ⟨rfl, g4, gt, by simp [g5], ga, by rw [arenaAfter]; exact gl⟩, ?_,
        fun f => by rw [strEnd]; exact g7 f, by simp⟩
      rw [writeU32At_zero] at hw
      injection hw with hw
      subst hw
      have hle' : s1.env.length < 2 ^ 32 := by simp [u32max] at hle; omega
      have e1 : u32 s1.env.length = s1.env.length := Nat.mod_eq_of_lt hle'
      rw [← ha2, e1, ← g0]
      have hn : le32 n = le32 ps.length := by
        rw [← g0, List.length_map] at g3; exact le32_mod (by simpa using g3)
      rw [hn]
      refine .map ps _ hle' (At.self_end _ _) gk (fun q hq => ?_)
      have := (g6 q hq).mono (le32 ps.length ++ (ps.map (fun p => entry p.1 p.2.1)).flatten) []
      simpa using this
theorem run_list_laid : ∀ (xs : List Val) (s t : RS) (p : Bytes) (n : Nat) (st : List Ctx),
    s.st = .arr p n :: st → writer.run s (emitList xs) = .ok t →
    ∃ (ps : List (Bytes × Val × Bool)) (n' : Nat) (x y : Bytes), ps.map (·.2.1) = xs ∧
      t.st = .arr (p ++ (ps.map Prod.fst).flatten) n' :: st ∧ u32 n' = u32 (n + xs.length) ∧
      t.root = s.root ∧ t.thr = s.thr ∧ t.env = s.env ++ x ∧ t.arena = s.arena ++ y ∧
      t.arena.length = arenaAfterList s.thr s.arena.length xs ∧
      (∀ q ∈ ps, Laid t.env t.arena q.1 q.2.1 q.2.2) ∧
      ∀ f, strEndList s.thr s.arena.length f xs = (ps.any (·.2.2) || (f && y.isEmpty))
  | [], s, t, p, n, st, hst, h => by
    cases h
    exact ⟨[], n, [], [], rfl, by simpa using hst, rfl, rfl, rfl, by simp, by simp, rfl, by simp, fun f => by simp [strEndList]⟩
  | v :: xs, s, t, p, n, st, hst, h => by
    rw [emitList, Writer.run_append] at h
    obtain ⟨s1, h1, h2⟩ := bind_ok h
    obtain ⟨s', vr, e, x, y, hd, A, hL, hf, -⟩ := run_emit_laid v s s1 h1
    have g1 := A.st
    rw [hst] at g1
    simp only [deliverVr, g1] at hd
    injection hd with hd
    subst hd
    obtain ⟨ps, n', x', y', f0, f2, f3, f4, ft, f5, fa, fl, f6, f7⟩ :=
      run_list_laid xs _ t (p ++ vr) (u32 (n + 1)) st rfl h2
    simp only at f4 ft f5 fa fl f7
    refine ⟨(vr, v, e && y'.isEmpty) :: ps, n', x ++ x', y ++ y', by simp [f0], by simpa using f2, ?_, f4.trans A.root,
      ft.trans A.thr, by rw [f5, A.env]; simp, by rw [fa, A.arena]; simp, ?_, ?_, fun f => ?_⟩
    · rw [f3]; simp [u32]; omega
    · rw [fl, arenaAfterList, A.len, A.thr]
    · intro q hq
      rcases List.mem_cons.1 hq with rfl | hq
      · rw [f5, fa]; exact hL.mono _ _
      · exact f6 q hq
    · rw [A.thr, A.len] at f7
      rw [strEndList, f7, hf, List.any_cons]
      cases e <;> cases f <;> cases y <;> cases y' <;> cases ps.any (fun p => p.2.2) <;> rfl
theorem run_entries_laid : ∀ (ms : List (Bytes × Val)) (s t : RS) (p : Bytes) (n : Nat) (st : List Ctx),
    s.st = .map p n none :: st → writer.run s (emitEntries ms) = .ok t →
    ∃ (ps : List (Bytes × Bytes × Val × Bool)) (n' : Nat) (x y : Bytes), ps.map (fun p => (p.1, p.2.2.1)) = ms ∧
      (∀ q ∈ ps, q.1.length < 2 ^ 16) ∧
      t.st = .map (p ++ (ps.map (fun p => entry p.1 p.2.1)).flatten) n' none :: st ∧
      u32 n' = u32 (n + ms.length) ∧ t.root = s.root ∧ t.thr = s.thr ∧ t.env = s.env ++ x ∧ t.arena = s.arena ++ y ∧
      t.arena.length = arenaAfterEntries s.thr s.arena.length ms ∧
      (∀ q ∈ ps, Laid t.env t.arena q.2.1 q.2.2.1 q.2.2.2) ∧
      ∀ f, strEndEntries s.thr s.arena.length f ms = (ps.any (·.2.2.2) || (f && y.isEmpty))
  | [], s, t, p, n, st, hst, h => by
    cases h
    exact ⟨[], n, [], [], rfl, by simp, by simpa using hst, rfl, rfl, rfl, by simp, by simp, rfl, by simp,
      fun f => by simp [strEndEntries]⟩
  | (k, v) :: ms, s, t, p, n, st, hst, h => by
    rw [emitEntries, Writer.run_cons] at h
    obtain ⟨s0, h0, h⟩ := bind_ok h
    have h0 : step s (.key k) = .ok s0 := h0
    simp only [step, hst] at h0
    by_cases hkl : k.length > u16max
    · rw [if_pos hkl] at h0; cases h0
    · rw [if_neg hkl] at h0
      injection h0 with h0
      rw [Writer.run_append] at h
      obtain ⟨s1, h1, h2⟩ := bind_ok h
      obtain ⟨s', vr, e, x, y, hd, A, hL, hf, -⟩ := run_emit_laid v s0 s1 h1
      subst h0
      have hst' := A.st
      have hroot := A.root
      have hthr := A.thr
      have henv := A.env
      have harena := A.arena
      have hlen' := A.len
      simp only at hst' hroot hthr henv harena hlen' hf
      generalize hp1 : p ++ le16 k.length ++ le16 0 ++ k = p1 at hst'
      have hlen : ¬ (p1.length + 16 > (p1 ++ List.replicate 16 (0 : UInt8)).length) := by simp
      have e1 : (p1 ++ List.replicate 16 (0 : UInt8)).take p1.length = p1 := by simp
      have e2 : (p1 ++ List.replicate 16 (0 : UInt8)).drop (p1.length + 16) = [] := by simp
      simp only [deliverVr, hst', if_neg hlen, e1, e2, List.append_nil] at hd
      injection hd with hd
      subst hd
      obtain ⟨ps, n', x', y', f0, fk, f2, f3, f4, ft, f5, fa, fl, f6, f7⟩ := run_entries_laid ms _ t _ _ st rfl h2
      simp only at f4 ft f5 fa fl f7
      refine ⟨(k, vr, v, e && y'.isEmpty) :: ps, n', x ++ x', y ++ y', by simp [f0], ?_, ?_, ?_, f4.trans hroot,
        ft.trans hthr, by rw [f5, henv]; simp, by rw [fa, harena]; simp, ?_, ?_, fun f => ?_⟩
      · intro q hq
        rcases List.mem_cons.1 hq with rfl | hq
        · simp [u16max] at hkl; simp only; omega
        · exact fk q hq
      · rw [f2, ← hp1]; simp [entry]
      · rw [f3]; simp [u32]; omega
      · rw [fl, arenaAfterEntries, hlen', hthr]
      · intro q hq
        rcases List.mem_cons.1 hq with rfl | hq
        · rw [f5, fa]; exact hL.mono _ _
        · exact f6 q hq
      · rw [hthr, hlen'] at f7
        rw [strEndEntries, f7, hf, List.any_cons]
        cases e <;> cases f <;> cases y <;> cases y' <;> cases ps.any (fun p => p.2.2.2) <;> rfl
end

/-- The parts of a serialization, and whether its arena ends with a string. -/
theorem serialize_laid {thr : Nat} (hthr : thr ≤ 12) {v : Val} {b : Bytes}
    (hb : serializeEvs thr (emit v) = .ok b) :
    ∃ env arena ao vr, Finished b (env ++ vr) arena env.length ao ∧ Laid env arena vr v (strEnd thr 0 false v) ∧
      ((∃ u, v = .str u) → env = []) := by
  have h0 : setThreshold {} thr = .ok { thr := thr } := by
    simp [setThreshold, InlineMax, hthr]
  simp only [serializeEvs, h0, Res.ok_bind] at hb
  obtain ⟨s, h1, h2⟩ := bind_ok hb
  obtain ⟨s', vr, e, x, y, hd, A, hL, hf, hstr⟩ := run_emit_laid v _ s h1
  have he : e = strEnd thr 0 false v := by
    have := hf false
    simpa using this.symm
  subst he
  have g1 := A.st
  have g2 := A.root
  simp only at g1 g2
  simp only [deliverVr, g1, writeRootVr, g2, appendEnv] at hd
  by_cases hlen : s'.env.length > u32max
  · rw [if_pos hlen] at hd; cases hd
  · rw [if_neg hlen] at hd
    simp only [Res.ok_bind, Res.pure_eq] at hd
    injection hd with hd
    subst hd
    have hlt : s'.env.length < 2 ^ 32 := by simp [u32max] at hlen; omega
    have hu : u32 s'.env.length = s'.env.length := Nat.mod_eq_of_lt hlt
    simp only [finish, Res.pure_eq, Res.ok_bind] at h2
    split at h2
    · cases h2
    · rename_i c1
      split at h2
      · cases h2
      · rename_i c2
        have l1 : (s'.env ++ vr).length < 2 ^ 32 := by simp only [u32max] at c1; omega
        have l2 : s'.arena.length < 2 ^ 32 := by simp only [u32max] at c2; omega
        have e : u32 (s'.env ++ vr).length = (s'.env ++ vr).length := Nat.mod_eq_of_lt l1
        rw [e] at h2
        split at h2
        · cases h2
        · rename_i c3
          injection h2 with h2
          rw [hu] at h2
          exact ⟨s'.env, s'.arena, _, vr, ⟨h2.symm, rfl, l1, l2, by simp only [u32max] at c3; omega, hlt⟩, hL,
            fun h => by rw [A.env, hstr h]; rfl⟩

/-! ## The reader -/

/-- The byte behind the view that `asStringView` returns, zera.hpp:306-316. -/
def View.behind (v : View) : Res UInt8 :=
  match v.stringRange with
  | .ok (p, n) => match v.buf[p + n]? with
    | some c => .ok c
    | none => .ub
  | _ => .ub

theorem View.behind_cases (r : View) : r.behind = .ub ∨ ∃ b, r.behind = .ok b := by
  unfold View.behind
  split
  · split
    · exact .inr ⟨_, rfl⟩
    · exact .inl rfl
  · exact .inl rfl

theorem behind_inline {v : View} {q : Nat} {s : Bytes} (hs : s.length ≤ 12) (h : Pos v q (inlineVr s)) (hq : q + 16 < v.buf.length) :
    ∃ c, v.behind = .ok c := by
  have h1 := inline_pos_shape h
  have ht : v.tag = .ok 4 := tag_ok h1
  have hf : v.flags = .ok 1 := flags_ok h1
  have hx : v.aux = .ok s.length := by
    have := aux_ok (h2 := [UInt8.ofNat tString, UInt8.ofNat 1]) rfl (by simpa using h1)
    rw [this, Nat.mod_eq_of_lt (by omega)]
  have hr : v.stringRange = .ok (q + 4, s.length) := by
    simp only [View.stringRange, View.requireFlagsOk, ht, hf, hx, Res.ok_bind,
      tString, View.inlineBytes, requireVr_ok h, InlineMax]
    simp [hs, Res.require]
  simp only [View.behind, hr, List.getElem?_eq_getElem (show q + 4 + s.length < v.buf.length by omega)]
  exact ⟨_, rfl⟩

theorem behind_arena {v : View} {q : Nat} {env arena s : Bytes} (H : Holds v env arena) {ofs : Nat} (ho : ofs < 2 ^ 32)
    (hs : s.length < 2 ^ 32) (ha : At arena ofs s) (h : Pos v q (makeVr tString 0 0 ofs s.length 0)) :
    (ofs + s.length ≠ arena.length → ∃ c, v.behind = .ok c) ∧ (ofs + s.length = arena.length → v.behind = .ub) := by
  have hle : ofs + s.length ≤ v.arenaLen := by rw [H.arenaLen]; exact ha.bound
  have hfl := vr_flagsOk rfl h
  have hr : v.stringRange = .ok (v.arenaOfs + ofs, s.length) := by
    simp only [View.stringRange, vr_tag h, hfl, vr_flags h, vr_a h, vr_b h,
      Res.ok_bind, Nat.mod_eq_of_lt ho, Nat.mod_eq_of_lt hs, arenaBytes_ok hle]
    simp [tString]
  have hb := H.arenaAt.bound
  have hl := H.arenaLen
  simp only [View.arenaLen] at hl
  have hb2 := ha.bound
  simp only [View.behind, hr]
  constructor
  · intro hne
    rw [List.getElem?_eq_getElem (show v.arenaOfs + ofs + s.length < v.buf.length by omega)]
    exact ⟨_, rfl⟩
  · intro e
    rw [List.getElem?_eq_none (show v.buf.length ≤ v.arenaOfs + ofs + s.length by omega)]

/-- Elements of an array. -/
theorem getIdx_laid {v : View} {env arena : Bytes} {ps : List (Bytes × Val × Bool)} {o ofs : Nat} (H : Holds v env arena)
    (hvr : v.vr = some (HeaderSize + o)) (hat : At env o (makeVr tArray 0 0 ofs 0 0)) (h1 : ofs < 2 ^ 32)
    (h2 : At env ofs (le32 ps.length ++ (ps.map Prod.fst).flatten)) (h3 : ∀ p ∈ ps, p.1.length = 16) {i : Nat} (hi : i < ps.length) :
    v.getIdx i = .ok { v with vr := some (HeaderSize + (ofs + 4 + 16 * i)) } := by
  have P := H.pos rfl hat; rw [← hvr] at P
  have hfl := vr_flagsOk rfl P
  have hlt := H.envLt
  have hsz := H.envSize
  have h16 : ∀ x ∈ ps.map Prod.fst, x.length = 16 := by
    intro x hx
    obtain ⟨p, hp, rfl⟩ := List.mem_map.1 hx
    exact h3 p hp
  have hb := h2.bound
  rw [List.length_append, le32_length, flatten16_length h16, List.length_map] at hb
  have hcnt : readU32 v.buf (HeaderSize + ofs) = .ok ps.length := by
    rw [readU32_at (H.envAt' h2.left), Nat.mod_eq_of_lt (by omega)]
  have e1 : v.envPtrAt ofs 4 = .ok (HeaderSize + ofs) := envPtrAt_ok (by omega)
  simp only [View.getIdx, vr_tag P, hfl, vr_a P, Res.ok_bind, Nat.mod_eq_of_lt h1, e1, hcnt]
  have e3 : u32 (ofs + 4 + 16 * i) = ofs + 4 + 16 * i := by simp [u32]; omega
  simp [hi, e3, envPtrAt_ok (ofs := ofs + 4 + 16 * i) (need := 16) (v := v) (by omega), tArray]

/-- Values of a map. The second envelope is the part that was there when the map was written. -/
theorem getKey_laid {v : View} {env x arena : Bytes} {ps : List (Bytes × Bytes × Val × Bool)} {o ofs : Nat} (H : Holds v (env ++ x) arena)
    (hvr : v.vr = some (HeaderSize + o)) (hat : At (env ++ x) o (makeVr tObject 0 0 ofs 0 0)) (h1 : ofs < 2 ^ 32)
    (h2 : At env ofs (le32 ps.length ++ (ps.map (fun p => entry p.1 p.2.1)).flatten)) (h3 : ∀ p ∈ ps, p.1.length < 2 ^ 16)
    (h4 : ∀ p ∈ ps, p.2.1.length = 16) {k : Bytes} (hk : k ∈ ps.map Prod.fst) :
    ∃ p ∈ ps, ∃ o', p.1 = k ∧ At (env ++ x) o' p.2.1 ∧ o' + 16 ≤ env.length ∧
      v.getKey k = .ok { v with vr := some (HeaderSize + o') } := by
  have P := H.pos rfl hat; rw [← hvr] at P
  have hfl := vr_flagsOk rfl P
  have hlt := H.envLt
  have hsz := H.envSize
  have h2' := h2.append_right x
  have hcl : ps.length ≤ (ps.map (fun p => entry p.1 p.2.1)).flatten.length := by
    have := entries_count (ps.map fun p => (p.1, p.2.1, p.2.2.1))
    simpa [Function.comp_def] using this
  have hb := h2'.bound
  rw [List.length_append, le32_length] at hb
  have hcnt : readU32 v.buf (HeaderSize + ofs) = .ok ps.length := by
    rw [readU32_at (H.envAt' h2'.left), Nat.mod_eq_of_lt (by omega)]
  have e1 : v.envPtrAt ofs 4 = .ok (HeaderSize + ofs) := envPtrAt_ok (by omega)
  have e3 : u32 (ofs + 4) = ofs + 4 := by simp [u32]; omega
  have hgk : v.getKey k = v.getKeyFrom k ps.length (ofs + 4) := by
    simp only [View.getKey, vr_tag P, hfl, vr_a P, Res.ok_bind, Nat.mod_eq_of_lt h1, e1, hcnt, e3]
    rfl
  rw [hgk]
  have hE : At env (ofs + 4) (ps.map (fun p => entry p.1 p.2.1)).flatten := by simpa using h2.right
  clear hgk hcnt hcl h2 h2' hb e1 e3 hfl P hvr hat h1
  generalize ofs + 4 = j at hE
  induction ps generalizing j with
  | nil => simp at hk
  | cons p ps ih =>
    have hE' : At env j (entry p.1 p.2.1 ++ (ps.map (fun p => entry p.1 p.2.1)).flatten) := by simpa using hE
    have hk1 := h3 p (by simp)
    have hv1 := h4 p (by simp)
    obtain ⟨hb, r1, r2, r3, r4⟩ := entry_reads H hk1 hv1 (hE'.left.append_right x)
    have hbe := hE'.left.bound
    rw [entry_length hv1] at hbe
    have e1 : u32 j = j := by simp [u32]; omega
    have e2 : u32 (j + 4) = j + 4 := by simp [u32]; omega
    have e3 : u32 (j + (4 + p.1.length + 16)) = j + (4 + p.1.length + 16) := by simp [u32]; omega
    have e4 : u32 (j + 4 + p.1.length) = j + 4 + p.1.length := by simp [u32]; omega
    have step : v.getKeyFrom k (p :: ps).length j =
        if p.1 = k then .ok { v with vr := some (HeaderSize + (j + 4 + p.1.length)) }
        else v.getKeyFrom k ps.length (j + (4 + p.1.length + 16)) := by
      simp only [List.length_cons, View.getKeyFrom, View.keyHit, e1, e2, e3, e4, r1, r2, Res.ok_bind,
        envPtrAt_ok (ofs := j) (need := 4) (v := v) (by omega),
        envPtrAt_ok (ofs := j + 4) (need := p.1.length) (v := v) (by omega),
        envPtrAt_ok (ofs := j + 4 + p.1.length) (need := 16) (v := v) (by omega),
        envPtrAt_ok (ofs := j + (4 + p.1.length + 16)) (need := 0) (v := v) (by omega)]
      by_cases hkey : p.1 = k
      · subst hkey; simp [r3]
      · by_cases hlen : p.1.length = k.length
        · rw [if_pos hlen, ← hlen, r3]; simp [hkey]
        · rw [if_neg hlen]; simp [hkey]
    rw [step]
    by_cases hkey : p.1 = k
    · rw [if_pos hkey]
      exact ⟨p, by simp, j + 4 + p.1.length, hkey, r4, by omega, rfl⟩
    · rw [if_neg hkey]
      have hk' : k ∈ ps.map Prod.fst := by
        rcases List.mem_cons.1 (by simpa using hk : k ∈ p.1 :: ps.map Prod.fst) with h | h
        · exact (hkey h.symm).elim
        · exact h
      have hr := hE'.right
      rw [entry_length hv1] at hr
      obtain ⟨q, hq, o', a1, a2, a3, a4⟩ := ih (fun q hq => h3 q (by simp [hq])) (fun q hq => h4 q (by simp [hq])) hk' _ hr
      exact ⟨q, by simp [hq], o', a1, a2, a3, a4⟩

theorem Laid.agrees {env arena x vr : Bytes} {val : Val} {e : Bool} (h : Laid env arena vr val e) {v : View} {o : Nat}
    (H : Holds v (env ++ x) arena) (hvr : v.vr = some (HeaderSize + o)) (hat : At (env ++ x) o vr) : reader.Agrees v val :=
  (agrees_of_aligned (p := True) (Repr.agreesAligned val H hvr hat (by simpa using h.repr.mono x []))).weaken (fun h => h.elim)

/-- Every string has a byte behind it, if none ends where the arena ends. `x` is the reference of the root, written last. -/
theorem Laid.allBehind {env arena vr x : Bytes} {val : Val} {e : Bool} (hx : x.length = 16) (h : Laid env arena vr val e) :
    e = false → ∀ (v : View) (o : Nat), Holds v (env ++ x) arena → v.vr = some (HeaderSize + o) → At (env ++ x) o vr →
    (∀ s, val = .str s → HeaderSize + o + 16 < v.buf.length) → reader.AllBehind View.behind v := by
  have leafs : ∀ (v : View) (w : Val), reader.Agrees v w → (∀ xs, w ≠ .arr xs) → (∀ ms, w ≠ .map ms) →
      (∀ s, w = .str s → ∃ c, v.behind = .ok c) → reader.AllBehind View.behind v := by
    intro v w hag h1 h2 h3 c y hc hy
    rcases hc.head with rfl | ⟨xs, i, d, a, _⟩ | ⟨ms, k, d, a, _⟩
    · have := hag.kind_unique hy
      cases w <;> simp [Val.kind] at this
      exact h3 _ rfl
    · have := hag.kind_unique a
      cases w <;> simp [Val.kind] at this
      exact (h1 _ rfl).elim
    · have := hag.kind_unique a
      cases w <;> simp [Val.kind] at this
      exact (h2 _ rfl).elim
  induction h with
  | @leaf vr w h h1 h2 h3 =>
    intro _ v o H hvr hat _
    exact leafs v w ((Laid.leaf h h1 h2 h3).agrees H hvr hat) h2 h3 (fun s hs => (h1 s hs).elim)
  | inline s hs =>
    intro _ v o H hvr hat hroom
    have P := H.pos (inlineVr_length hs) hat; rw [← hvr] at P
    exact leafs v _ ((Laid.inline s hs).agrees H hvr hat) (by simp) (by simp) (fun s' _ => behind_inline hs P (hroom s rfl))
  | str s ofs h1 h2 h3 =>
    intro he v o H hvr hat _
    have P := H.pos rfl hat; rw [← hvr] at P
    exact leafs v _ ((Laid.str s ofs h1 h2 h3).agrees H hvr hat) (by simp) (by simp)
      (fun s' _ => (behind_arena H h1 h2 h3 P).1 (by simpa using he))
  | arr ps ofs h1 h2 h3 ih =>
    intro he v o H hvr hat _ c y hc hy
    have hag := (Laid.arr ps ofs h1 h2 h3).agrees H hvr hat
    rcases hc.head with rfl | ⟨ys, i, d, a, hlt, e, g⟩ | ⟨ms, k, d, a, _⟩
    · have := hag.kind_unique hy; simp [Val.kind] at this
    · have hl' : ys.length = ps.length := by
        cases a with | arr _ _ hn' =>
        generalize hxs : ps.map (·.2.1) = xs at hag
        cases hag with | arr _ _ hn =>
          rw [hn] at hn'; injection hn' with hn'
          rw [← hn', ← hxs, List.length_map]
      have hi : i < ps.length := by omega
      have hmem : ps[i] ∈ ps := List.getElem_mem _
      have hx' := getIdx_laid H hvr hat h1 (h2.append_right x) (fun p hp => (h3 p hp).length) hi
      rw [show v.getIdx i = _ from e] at hx'
      injection hx' with hx'; subst hx'
      have h16 : ∀ y ∈ ps.map Prod.fst, y.length = 16 := by
        intro y hy
        obtain ⟨p, hp, rfl⟩ := List.mem_map.1 hy
        exact (h3 p hp).length
      have hat0 : At env (ofs + 4 + 16 * i) (ps[i].1) := by
        have := flatten_at h16 h2.right i (by simpa using hi)
        simpa using this
      have hbd := hat0.bound
      rw [(h3 _ hmem).length] at hbd
      have hbuf := H.envAt.bound
      simp only [List.length_append, hx] at hbuf
      refine ih _ hmem ?_ _ (ofs + 4 + 16 * i) (H.withVr _) rfl (hat0.append_right x) (fun s _ => ?_) c y g hy
      · simp only [List.any_eq_false] at he
        simpa using he _ hmem
      · show _ < v.buf.length
        omega
    · have := hag.kind_unique a; simp [Val.kind] at this
  | map ps ofs h1 h2 h3 h4 ih =>
    intro he v o H hvr hat _ c y hc hy
    have hag := (Laid.map ps ofs h1 h2 h3 h4).agrees H hvr hat
    rcases hc.head with rfl | ⟨ys, i, d, a, _⟩ | ⟨ms, k, d, a, hk, e, g⟩
    · have := hag.kind_unique hy; simp [Val.kind] at this
    · have := hag.kind_unique a; simp [Val.kind] at this
    · have hl' : ms.map Prod.fst = ps.map Prod.fst := by
        cases a with | map _ _ hn' =>
        generalize hxs : ps.map (fun p => (p.1, p.2.2.1)) = xs at hag
        cases hag with | map _ _ hn =>
          rw [hn] at hn'; injection hn' with hn'
          rw [← hn', ← hxs, List.map_map]; rfl
      obtain ⟨p, hp, o', a1, a2, a3, a4⟩ := getKey_laid H hvr hat h1 h2 h3 (fun p hp => (h4 p hp).length) (hl' ▸ hk)
      rw [show v.getKey k = _ from e] at a4
      injection a4 with a4; subst a4
      have hbuf := H.envAt.bound
      simp only [List.length_append, hx] at hbuf
      refine ih p hp ?_ _ o' (H.withVr _) rfl a2 (fun s _ => ?_) c y g hy
      · simp only [List.any_eq_false] at he
        simpa using he _ hp
      · show _ < v.buf.length
        omega

/-- A string that ends where the arena ends is visited, and has no byte behind it. -/
theorem Laid.noneBehind {env arena vr : Bytes} {val : Val} {e : Bool} (h : Laid env arena vr val e) (x : Bytes) :
    val.Distinct → ∀ (v : View) (o : Nat), Holds v (env ++ x) arena → v.vr = some (HeaderSize + o) → At (env ++ x) o vr →
    e = true → ∃ c y, reader.Visits v c ∧ reader.Agrees c (.str y) ∧ c.behind = .ub := by
  induction h with
  | leaf _ _ _ _ => intro _ v o _ _ _ he; cases he
  | inline s hs => intro _ v o _ _ _ he; cases he
  | str s ofs h1 h2 h3 =>
    intro _ v o H hvr hat he
    have P := H.pos rfl hat; rw [← hvr] at P
    exact ⟨v, s, .refl, (Laid.str s ofs h1 h2 h3).agrees H hvr hat, (behind_arena H h1 h2 h3 P).2 (by simpa using he)⟩
  | arr ps ofs h1 h2 h3 ih =>
    intro hd v o H hvr hat he
    have hag := (Laid.arr ps ofs h1 h2 h3).agrees H hvr hat
    obtain ⟨q, hq, hqe⟩ := List.any_eq_true.1 he
    obtain ⟨i, hi, rfl⟩ := List.getElem_of_mem hq
    have hx' := getIdx_laid H hvr hat h1 (h2.append_right x) (fun p hp => (h3 p hp).length) hi
    have h16 : ∀ y ∈ ps.map Prod.fst, y.length = 16 := by
      intro y hy
      obtain ⟨p, hp, rfl⟩ := List.mem_map.1 hy
      exact (h3 p hp).length
    have hat0 : At env (ofs + 4 + 16 * i) (ps[i].1) := by
      have := flatten_at h16 h2.right i (by simpa using hi)
      simpa using this
    have hd' : ps[i].2.1.Distinct :=
      (Val.distinctList_iff _).1 hd _ (List.mem_map.2 ⟨ps[i], hq, rfl⟩)
    obtain ⟨c, y, k1, k2, k3⟩ := ih _ hq hd' _ _ (H.withVr _) rfl (hat0.append_right x) hqe
    exact ⟨c, y, .trans (.elem .refl hag (by simpa using hi) hx') k1, k2, k3⟩
  | map ps ofs h1 h2 h3 h4 ih =>
    intro hd v o H hvr hat he
    have hag := (Laid.map ps ofs h1 h2 h3 h4).agrees H hvr hat
    obtain ⟨q, hq, hqe⟩ := List.any_eq_true.1 he
    have hqk : q.1 ∈ ps.map Prod.fst := List.mem_map.2 ⟨q, hq, rfl⟩
    obtain ⟨p, hp, o', a1, a2, a3, a4⟩ := getKey_laid H hvr hat h1 h2 h3 (fun p hp => (h4 p hp).length) hqk
    have hnd : (ps.map Prod.fst).Nodup := by
      have := hd.1
      simpa [Function.comp_def] using this
    have hpq : p = q := eq_of_key hnd hp hq a1
    subst hpq
    have hd' : p.2.2.1.Distinct := (Val.distinctEntries_iff _).1 hd.2 (p.1, p.2.2.1) (List.mem_map.2 ⟨p, hp, rfl⟩)
    obtain ⟨c, y, k1, k2, k3⟩ := ih p hp hd' _ _ (H.withVr _) rfl a2 hqe
    refine ⟨c, y, .trans (.entry .refl hag ?_ a4) k1, k2, k3⟩
    rw [List.map_map]
    exact List.mem_map.2 ⟨p, hp, rfl⟩

end Zer.Zera
