import Verif.Cbor.Contain

/-!
# CBOR: the writer produces definite-length encodings
-/

namespace Zer.Cbor

open MsgPack (be be_length)

mutual
/-- Number of containers nested in each other; a scalar has none. -/
def _root_.Zer.Val.nest : Val → Nat
  | .arr xs => nestList xs + 1
  | .map ms => nestEntries ms + 1
  | _ => 0
def _root_.Zer.Val.nestList : List Val → Nat
  | [] => 0
  | x :: xs => max x.nest (nestList xs)
def _root_.Zer.Val.nestEntries : List (Bytes × Val) → Nat
  | [] => 0
  | (_, v) :: ms => max v.nest (nestEntries ms)
end

/-- Every string and key satisfies `utf8`. -/
def _root_.Zer.Val.TextOk (utf8 : Bytes → Bool) : Val → Prop := Val.Each
  (fun v => match v with | .str s => utf8 s = true | _ => True) (fun k => utf8 k = true)

/-- Bytes of a double. -/
def dblBytes (d : UInt64) : Bytes := match shrink32 d.toNat with
    | some f => 0xfa :: beBytes 4 f
    | none => 0xfb :: beBytes 8 d.toNat

/-- Bytes of a signed integer. -/
def intBytes (i : Int64) : Bytes :=
  if 0 ≤ i.toInt then headBytes 0 i.toInt.toNat else headBytes 1 (-1 - i.toInt).toNat

mutual
/-- The bytes the writer produces for a value. -/
def encB : Val → Bytes
  | .null => [0xf6]
  | .bool b => [if b then 0xf5 else 0xf4]
  | .int i => intBytes i
  | .uint n => headBytes 0 n.toNat
  | .dbl d => dblBytes d
  | .str s => headBytes 3 s.length ++ s
  | .blob s => headBytes 2 s.length ++ s
  | .arr xs => headBytes 4 xs.length ++ (encL xs).flatten
  | .map ms => headBytes 5 ms.length ++ (encE ms).flatten
def encL : List Val → List Bytes
  | [] => []
  | x :: xs => encB x :: encL xs
def encE : List (Bytes × Val) → List Bytes
  | [] => []
  | (k, v) :: ms => (headBytes 3 k.length ++ k) :: encB v :: encE ms
end

/-! ## The bytes are an encoding -/

theorem of8 (x : Nat) : UInt8.ofNat (x % 256) = UInt8.ofNat x := by
  apply UInt8.toNat_inj.1; simp

theorem beBytes_one (n : Nat) : beBytes 1 n = be 1 n := by simp [beBytes, be, of8]
theorem beBytes_two (n : Nat) : beBytes 2 n = be 2 n := by simp [beBytes, be, of8]
theorem beBytes_four (n : Nat) : beBytes 4 n = be 4 n := by
  simp [beBytes, be, of8, Nat.div_div_eq_div_mul]
theorem beBytes_eight (n : Nat) : beBytes 8 n = be 8 n := by
  simp [beBytes, be, of8, Nat.div_div_eq_div_mul]

theorem headBytes_hd {m n : Nat} (h : n < 2 ^ 64) : Hd m n (headBytes m n) := by
  unfold headBytes
  split
  · exact .imm ‹_›
  · split
    · rw [beBytes_one]; exact .w1 ‹_›
    · split
      · rw [beBytes_two]; exact .w2 ‹_›
      · split
        · rw [beBytes_four]; exact .w4 ‹_›
        · rw [beBytes_eight]; exact .w8 h

theorem headBytes_pos (m n : Nat) : 1 ≤ (headBytes m n).length := by
  unfold headBytes; repeat' split
  all_goals simp

theorem dblBytes_enc (d : UInt64) : EncDbl d.toNat (dblBytes d) := by
  unfold dblBytes
  split
  · rename_i f hf
    obtain ⟨h1, h2⟩ := widen32_of_shrink32 d.toNat_lt hf
    rw [beBytes_four]; exact .f32 h2 h1
  · rw [beBytes_eight]; exact .f64

theorem intBytes_enc (i : Int64) : EncInt i.toInt (intBytes i) := by
  have h1 := i.le_toInt
  have h2 := i.toInt_lt
  unfold intBytes
  split
  · exact .inl ⟨‹_›, headBytes_hd (by omega)⟩
  · exact .inr ⟨by omega, headBytes_hd (by omega)⟩

theorem encB_pos (v : Val) : 1 ≤ (encB v).length := by
  have hi : ∀ i, 1 ≤ (intBytes i).length := by
    intro i; unfold intBytes; split <;> exact headBytes_pos _ _
  have hd : ∀ d, 1 ≤ (dblBytes d).length := by intro d; unfold dblBytes; split <;> simp
  cases v <;> simp only [encB, List.length_append]
  · simp
  · simp
  · exact hi _
  · exact headBytes_pos _ _
  · exact hd _
  · have := headBytes_pos 3 (List.length ‹Bytes›); omega
  · have := headBytes_pos 2 (List.length ‹Bytes›); omega
  · have := headBytes_pos 4 (List.length ‹List Val›); omega
  · have := headBytes_pos 5 (List.length ‹List (Bytes × Val)›); omega

theorem encL_len : ∀ xs : List Val, xs.length ≤ (encL xs).flatten.length
  | [] => by simp
  | x :: xs => by
    have := encL_len xs
    have := encB_pos x
    simp only [encL, List.length_cons, List.flatten_cons, List.length_append]; omega

theorem encE_len : ∀ ms : List (Bytes × Val), ms.length ≤ (encE ms).flatten.length
  | [] => by simp
  | (k, x) :: ms => by
    have := encE_len ms
    have := encB_pos x
    simp only [encE, List.length_cons, List.flatten_cons, List.length_append]; omega

mutual
theorem encB_enc : ∀ v : Val, (encB v).length < 2 ^ 64 → Enc false v (encB v)
  | .null, _ => rfl
  | .bool b, _ => rfl
  | .int i, _ => by simp only [Enc, encB]; exact intBytes_enc i
  | .uint n, _ => by
      have := n.toNat_lt
      simp only [Enc, encB]; exact .inl ⟨by omega, by simpa using headBytes_hd this⟩
  | .dbl d, _ => by simp only [Enc, encB]; exact dblBytes_enc d
  | .str s, h => by
      simp only [encB, List.length_append] at h
      simp only [Enc, encB]; exact .definite (headBytes_hd (by omega))
  | .blob s, h => by
      simp only [encB, List.length_append] at h
      simp only [Enc, encB]; exact .definite (headBytes_hd (by omega))
  | .arr xs, h => by
      simp only [encB, List.length_append] at h
      have := encL_len xs
      simp only [Enc, encB]
      exact ⟨_, encL_enc xs (by omega), .definite (headBytes_hd (by omega))⟩
  | .map ms, h => by
      simp only [encB, List.length_append] at h
      have := encE_len ms
      simp only [Enc, encB]
      exact ⟨_, encE_enc ms (by omega), .definite (headBytes_hd (by omega))⟩
theorem encL_enc : ∀ xs : List Val, (encL xs).flatten.length < 2 ^ 64 → EncList false xs (encL xs)
  | [], _ => by simp only [EncList, encL]
  | x :: xs, h => by
      simp only [encL, List.flatten_cons, List.length_append] at h
      simp only [EncList, encL]
      exact ⟨_, _, encB_enc x (by omega), encL_enc xs (by omega), rfl⟩
theorem encE_enc : ∀ ms : List (Bytes × Val), (encE ms).flatten.length < 2 ^ 64 →
    EncEntries false ms (encE ms)
  | [], _ => by simp only [EncEntries, encE]
  | (k, v) :: ms, h => by
      simp only [encE, List.flatten_cons, List.length_append] at h
      simp only [EncEntries, encE]
      exact ⟨_, _, _, .definite (headBytes_hd (by omega)), encB_enc v (by omega),
        encE_enc ms (by omega), rfl⟩
end

/-! ## Running the writer -/

def bumpN (n : Nat) : List Open → List Open
  | [] => []
  | o :: os => { o with count := o.count + n } :: os

section
variable {utf8 : Bytes → Bool} {maxDepth : Nat}

mutual
theorem run_emit : ∀ (v : Val) (s : WS), v.TextOk utf8 → s.stack.length + v.nest ≤ maxDepth →
    (writer utf8 maxDepth).run s (emit v) =
      .ok { out := s.out ++ encB v, stack := bump s.stack, wrote := true }
  | .null, s, _, _ => rfl
  | .bool b, s, _, _ => rfl
  | .int i, s, _, _ => rfl
  | .uint n, s, _, _ => rfl
  | .dbl d, s, _, _ => rfl
  | .str t, s, h, _ => by
      simp only [Val.TextOk, Val.Each] at h
      simp [emit, writer, step, textBytes, h, scalar, encB]
  | .blob t, s, _, _ => rfl
  | .arr xs, s, h, hd => by
      simp only [Val.nest] at hd
      have ih := run_emitList xs ⟨s.out ++ headBytes 4 xs.length,
          ⟨false, xs.length, 0⟩ :: s.stack, true⟩ ⟨false, xs.length, 0⟩ s.stack rfl h.2
        (by simp only [List.length_cons]; omega)
      simp only [emit, Writer.run_cons, Writer.run_append]
      have ho : (writer utf8 maxDepth).step s (.beginArr xs.length) = .ok ⟨s.out ++ headBytes 4 xs.length,
          ⟨false, xs.length, 0⟩ :: s.stack, true⟩ := by
        simp [writer, step, openC]; omega
      rw [ho, Res.ok_bind, ih, Res.ok_bind]
      simp [writer, step, closeC, encB]
  | .map ms, s, h, hd => by
      simp only [Val.nest] at hd
      have ih := run_emitEntries ms ⟨s.out ++ headBytes 5 ms.length,
          ⟨true, ms.length, 0⟩ :: s.stack, true⟩ ⟨true, ms.length, 0⟩ s.stack rfl h.2
        (by simp only [List.length_cons]; omega)
      simp only [emit, Writer.run_cons, Writer.run_append]
      have ho : (writer utf8 maxDepth).step s (.beginMap ms.length) = .ok ⟨s.out ++ headBytes 5 ms.length,
          ⟨true, ms.length, 0⟩ :: s.stack, true⟩ := by
        simp [writer, step, openC]; omega
      rw [ho, Res.ok_bind, ih, Res.ok_bind]
      simp [writer, step, closeC, encB]
theorem run_emitList : ∀ (xs : List Val) (s : WS) (o : Open) (os : List Open), s.stack = o :: os →
    Val.eachList (fun v => match v with | .str s => utf8 s = true | _ => True) (fun k => utf8 k = true) xs →
    s.stack.length + Val.nestList xs ≤ maxDepth →
    (writer utf8 maxDepth).run s (emitList xs) =
      .ok { out := s.out ++ (encL xs).flatten, stack := { o with count := o.count + xs.length } :: os,
            wrote := s.wrote || !xs.isEmpty }
  | [], s, o, os, hs, _, _ => by
      obtain ⟨out, st, w⟩ := s
      simp only at hs; subst hs
      simp [emitList, encL]
  | x :: xs, s, o, os, hs, h, hd => by
      simp only [Val.eachList] at h
      simp only [Val.nestList] at hd
      simp only [emitList, Writer.run_append]
      rw [run_emit x s h.1 (by omega), Res.ok_bind]
      have e : bump s.stack = { o with count := o.count + 1 } :: os := by rw [hs]; rfl
      rw [run_emitList xs _ _ _ e h.2 (by rw [e]; rw [hs] at hd; simp only [List.length_cons] at *; omega)]
      simp [encL]; omega
theorem run_emitEntries : ∀ (ms : List (Bytes × Val)) (s : WS) (o : Open) (os : List Open),
    s.stack = o :: os →
    Val.eachEntries (fun v => match v with | .str s => utf8 s = true | _ => True) (fun k => utf8 k = true) ms →
    s.stack.length + Val.nestEntries ms ≤ maxDepth →
    (writer utf8 maxDepth).run s (emitEntries ms) =
      .ok { out := s.out ++ (encE ms).flatten, stack := { o with count := o.count + 2 * ms.length } :: os,
            wrote := s.wrote || !ms.isEmpty }
  | [], s, o, os, hs, _, _ => by
      obtain ⟨out, st, w⟩ := s
      simp only at hs; subst hs
      simp [emitEntries, encE]
  | (k, x) :: ms, s, o, os, hs, h, hd => by
      simp only [Val.eachEntries] at h
      simp only [Val.nestEntries] at hd
      simp only [emitEntries, Writer.run_cons, Writer.run_append]
      have e0 : bump s.stack = { o with count := o.count + 1 } :: os := by rw [hs]; rfl
      have hk : (writer utf8 maxDepth).step s (.key k) =
          .ok { s with out := s.out ++ (headBytes 3 k.length ++ k), stack := { o with count := o.count + 1 } :: os } := by
        simp [writer, step, textBytes, h.1, e0]
      rw [hk, Res.ok_bind, run_emit x _ h.2.1 (by rw [hs] at hd; simp only [List.length_cons] at *; omega), Res.ok_bind]
      rw [run_emitEntries ms _ { o with count := o.count + 1 + 1 } os rfl h.2.2 (by
        rw [hs] at hd; simp only [List.length_cons, bump] at *; omega)]
      simp [encE]; omega
end

theorem serialize_eq {hard : Bool} {f : Nat} {v : Val} (h : v.TextOk utf8) (hd : v.nest ≤ maxDepth) :
    (proto utf8 maxDepth hard f).serialize v = .ok (encB v) := by
  show ((writer utf8 maxDepth).run {} (emit v) >>= finish) = _
  rw [run_emit v {} h (by simpa using hd)]
  simp [finish]

/-! ## What the writer refuses -/

mutual
/-- A value with text the encoder refuses, or nested too deep, raises. -/
theorem run_emit_bad : ∀ (v : Val) (s : WS), ¬ (v.TextOk utf8 ∧ s.stack.length + v.nest ≤ maxDepth) →
    s.stack.length ≤ maxDepth →
    (writer utf8 maxDepth).run s (emit v) = .err .runtime
  | .null, s, h, hs => absurd ⟨trivial, by simpa [Val.nest] using hs⟩ h
  | .bool b, s, h, hs => absurd ⟨trivial, by simpa [Val.nest] using hs⟩ h
  | .int i, s, h, hs => absurd ⟨trivial, by simpa [Val.nest] using hs⟩ h
  | .uint n, s, h, hs => absurd ⟨trivial, by simpa [Val.nest] using hs⟩ h
  | .dbl d, s, h, hs => absurd ⟨trivial, by simpa [Val.nest] using hs⟩ h
  | .str t, s, h, hs => by
      have : utf8 t = false := by
        cases hu : utf8 t
        · rfl
        · exact absurd ⟨hu, by simpa [Val.nest] using hs⟩ h
      simp [emit, writer, step, textBytes, this]
  | .blob t, s, h, hs => absurd ⟨trivial, by simpa [Val.nest] using hs⟩ h
  | .arr xs, s, h, hs => by
      simp only [emit, Writer.run_cons, Writer.run_append]
      by_cases hd : s.stack.length + 1 ≤ maxDepth
      · have ho : (writer utf8 maxDepth).step s (.beginArr xs.length) = .ok ⟨s.out ++ headBytes 4 xs.length,
          ⟨false, xs.length, 0⟩ :: s.stack, true⟩ := by
          simp [writer, step, openC]; omega
        rw [ho, Res.ok_bind, run_emitList_bad xs _ (fun hh => h ⟨⟨trivial, hh.1⟩, by
          have := hh.2; simp only [List.length_cons] at this; simp only [Val.nest]; omega⟩)
          (by simpa using hd)]
        rfl
      · have ho : (writer utf8 maxDepth).step s (.beginArr xs.length) = .err .runtime := by
          simp [writer, step, openC]; omega
        rw [ho]; rfl
  | .map ms, s, h, hs => by
      simp only [emit, Writer.run_cons, Writer.run_append]
      by_cases hd : s.stack.length + 1 ≤ maxDepth
      · have ho : (writer utf8 maxDepth).step s (.beginMap ms.length) = .ok ⟨s.out ++ headBytes 5 ms.length,
          ⟨true, ms.length, 0⟩ :: s.stack, true⟩ := by
          simp [writer, step, openC]; omega
        rw [ho, Res.ok_bind, run_emitEntries_bad ms _ (fun hh => h ⟨⟨trivial, hh.1⟩, by
          have := hh.2; simp only [List.length_cons] at this; simp only [Val.nest]; omega⟩)
          (by simpa using hd)]
        rfl
      · have ho : (writer utf8 maxDepth).step s (.beginMap ms.length) = .err .runtime := by
          simp [writer, step, openC]; omega
        rw [ho]; rfl
theorem run_emitList_bad : ∀ (xs : List Val) (s : WS),
    ¬ (Val.eachList (fun v => match v with | .str s => utf8 s = true | _ => True) (fun k => utf8 k = true) xs ∧
    s.stack.length + Val.nestList xs ≤ maxDepth) → s.stack.length ≤ maxDepth →
    (writer utf8 maxDepth).run s (emitList xs) = .err .runtime
  | [], s, h, hs => absurd ⟨trivial, by simpa [Val.nestList] using hs⟩ h
  | x :: xs, s, h, hs => by
      simp only [emitList, Writer.run_append]
      by_cases hx : x.TextOk utf8 ∧ s.stack.length + x.nest ≤ maxDepth
      · rw [run_emit x s hx.1 hx.2, Res.ok_bind]
        have hb : (bump s.stack).length = s.stack.length := by cases s.stack <;> simp [bump]
        refine run_emitList_bad xs _ (fun hh => h ⟨⟨hx.1, hh.1⟩, ?_⟩) (by simpa [hb] using hs)
        have := hh.2; simp only [hb] at this; simp only [Val.nestList]; omega
      · rw [run_emit_bad x s hx hs]; rfl
theorem run_emitEntries_bad : ∀ (ms : List (Bytes × Val)) (s : WS),
    ¬ (Val.eachEntries (fun v => match v with | .str s => utf8 s = true | _ => True) (fun k => utf8 k = true) ms ∧
    s.stack.length + Val.nestEntries ms ≤ maxDepth) → s.stack.length ≤ maxDepth →
    (writer utf8 maxDepth).run s (emitEntries ms) = .err .runtime
  | [], s, h, hs => absurd ⟨trivial, by simpa [Val.nestEntries] using hs⟩ h
  | (k, x) :: ms, s, h, hs => by
      simp only [emitEntries, Writer.run_cons, Writer.run_append]
      have hb : ∀ st : List Open, (bump st).length = st.length := by intro st; cases st <;> simp [bump]
      by_cases hk : utf8 k = true
      · have hkk : (writer utf8 maxDepth).step s (.key k) =
            .ok { s with out := s.out ++ (headBytes 3 k.length ++ k), stack := bump s.stack } := by
          simp [writer, step, textBytes, hk]
        rw [hkk, Res.ok_bind]
        by_cases hx : x.TextOk utf8 ∧ s.stack.length + x.nest ≤ maxDepth
        · rw [run_emit x _ hx.1 (by simpa [hb] using hx.2), Res.ok_bind]
          refine run_emitEntries_bad ms _ (fun hh => h ⟨⟨hk, hx.1, hh.1⟩, ?_⟩) (by simpa [hb] using hs)
          have := hh.2; simp only [hb] at this; simp only [Val.nestEntries]; omega
        · rw [run_emit_bad x _ (by simpa [hb] using hx) (by simpa [hb] using hs)]; rfl
      · have hkk : (writer utf8 maxDepth).step s (.key k) = .err .runtime := by
          simp [writer, step, textBytes, hk]
        rw [hkk]; rfl
end

theorem serialize_bad {hard : Bool} {f : Nat} {v : Val} (h : ¬ (v.TextOk utf8 ∧ v.nest ≤ maxDepth)) :
    (proto utf8 maxDepth hard f).serialize v = .err .runtime := by
  show ((writer utf8 maxDepth).run {} (emit v) >>= finish) = _
  rw [run_emit_bad v {} (by simpa using h) (by simp)]
  rfl

end

/-- The bytes of the writer are read back. -/
theorem encB_agrees {hard : Bool} {f : Nat} {v : Val} (hl : (encB v).length < 2 ^ 64)
    (hf : (encB v).length ≤ f) (hs : v.Small) (hh : hard = true → v.NoEmpty) :
    (reader hard f).Agrees ⟨encB v, 0⟩ v := by
  have ha : At (encB v) 0 (encB v) := ⟨[], [], by simp, rfl⟩
  exact Enc.agrees (ind := false) hl hf v (encB_enc v hl) ha hs (fun h => .inr (hh h))

end Zer.Cbor
