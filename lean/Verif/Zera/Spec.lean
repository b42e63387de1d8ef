import Verif.Zera.Repr

/-!
# The ZERA format as documented

`Message` and `Ref` restate `include/zerialize/protocols/ZERA.md` (cited as `ZERA.md`), independently of the code: which
bytes stand for which value. With `strict`, unused fields, reserved fields and padding are zero and blobs are aligned, as the
document recommends; without it they are arbitrary. Typed arrays of other element types than `u8` have no counterpart in
`Val` and are left out.
-/

namespace Zer.Zera

/-- A number in `k` bytes, little-endian, ZERA.md "Buffer Layout". -/
def num : Nat → Nat → Bytes
  | 0, _ => []
  | k + 1, n => UInt8.ofNat (n % 256) :: num k (n / 256)

/-- The number `n` is stored in the `k` bytes at `p`. -/
def Num (x : Bytes) (p k n : Nat) : Prop := n < 256 ^ k ∧ At x p (num k n)

/-- The 16 bytes of a reference and their fields, ZERA.md "`ValueRef16` (16 bytes)". -/
structure ValueRef (env : Bytes) (p tag flags aux a b c : Nat) : Prop where
  tag : Num env p 1 tag
  flags : Num env (p + 1) 1 flags
  aux : Num env (p + 2) 2 aux
  a : Num env (p + 4) 4 a
  b : Num env (p + 8) 4 b
  c : Num env (p + 12) 4 c

mutual
/-- The reference at `p` in the envelope stands for the value, ZERA.md "Tags" to "Typed arrays and blobs". -/
inductive Ref (strict : Prop) (env arena : Bytes) : Nat → Val → Prop
  | null {p f x a b c} : ValueRef env p 0 f x a b c → (strict → f = 0 ∧ x = 0 ∧ a = 0 ∧ b = 0 ∧ c = 0) → Ref strict env arena p .null
  | bool {p a b c} {v : Bool} : ValueRef env p 1 0 (if v then 1 else 0) a b c → (strict → a = 0 ∧ b = 0 ∧ c = 0) →
      Ref strict env arena p (.bool v)
  | int {p x a b c} {i : Int64} : ValueRef env p 2 0 x a b c → i.toUInt64.toNat = a + 2 ^ 32 * b → (strict → x = 0 ∧ c = 0) →
      Ref strict env arena p (.int i)
  | uint {p x a b c} {n : UInt64} : ValueRef env p 8 0 x a b c → n.toNat = a + 2 ^ 32 * b → (strict → x = 0 ∧ c = 0) →
      Ref strict env arena p (.uint n)
  | dbl {p x a b c} {d : UInt64} : ValueRef env p 3 0 x a b c → d.toNat = a + 2 ^ 32 * b → (strict → x = 0 ∧ c = 0) →
      Ref strict env arena p (.dbl d)
  | strInline {p a b c} {s : Bytes} : ValueRef env p 4 1 s.length a b c → s.length ≤ 12 → At env (p + 4) s →
      (strict → At env (p + 4) (s ++ List.replicate (12 - s.length) 0)) → Ref strict env arena p (.str s)
  | strArena {p x a c} {s : Bytes} : ValueRef env p 4 0 x a s.length c → At arena a s → (strict → x = 0 ∧ c = 0) →
      Ref strict env arena p (.str s)
  | arr {p x a b c} {vs : List Val} : ValueRef env p 5 0 x a b c → Num env a 4 vs.length → Elems strict env arena (a + 4) vs →
      (strict → x = 0 ∧ b = 0 ∧ c = 0) → Ref strict env arena p (.arr vs)
  | obj {p x a b c} {ms : List (Bytes × Val)} : ValueRef env p 6 0 x a b c → Num env a 4 ms.length → Members strict env arena (a + 4) ms →
      (strict → x = 0 ∧ b = 0 ∧ c = 0) → Ref strict env arena p (.map ms)
  | blob {p a c} {s : Bytes} : ValueRef env p 7 0 2 a s.length c → Num env c 4 1 → Num env (c + 4) 8 s.length → At arena a s →
      (strict → a % 16 = 0) → Ref strict env arena p (.blob s)
/-- `ValueRef16 elems[count]` (contiguous), ZERA.md "Arrays". -/
inductive Elems (strict : Prop) (env arena : Bytes) : Nat → List Val → Prop
  | nil {p} : Elems strict env arena p []
  | cons {p v vs} : Ref strict env arena p v → Elems strict env arena (p + 16) vs → Elems strict env arena p (v :: vs)
/-- Entries back-to-back, ZERA.md "Objects". -/
inductive Members (strict : Prop) (env arena : Bytes) : Nat → List (Bytes × Val) → Prop
  | nil {p} : Members strict env arena p []
  | cons {p r v ms} {k : Bytes} : Num env p 2 k.length → Num env (p + 2) 2 r → (strict → r = 0) → At env (p + 4) k →
      Ref strict env arena (p + 4 + k.length) v → Members strict env arena (p + 4 + k.length + 16) ms →
      Members strict env arena p ((k, v) :: ms)
end

/-- A complete message, ZERA.md "Buffer Layout (v1)" and "Header (20 bytes)". -/
structure Message (strict : Prop) (buf : Bytes) (v : Val) (root envSize arenaOfs : Nat) : Prop where
  magic : Num buf 0 4 0x564E455A
  version : Num buf 4 2 1
  flags : Num buf 6 2 1
  hdrRoot : Num buf 8 4 root
  hdrEnv : Num buf 12 4 envSize
  hdrArena : Num buf 16 4 arenaOfs
  aligned : arenaOfs % 16 = 0
  apart : 20 + envSize ≤ arenaOfs
  inside : arenaOfs ≤ buf.length
  value : Ref strict ((buf.drop 20).take envSize) (buf.drop arenaOfs) root v
  padding : strict → At buf (20 + envSize) (List.replicate (arenaOfs - (20 + envSize)) 0)

/-- The bytes are a message that stands for the value. -/
def IsMessage (strict : Prop) (buf : Bytes) (v : Val) : Prop := ∃ root envSize arenaOfs, Message strict buf v root envSize arenaOfs

/-! ## Fields as the reader sees them -/

theorem num_length : ∀ (k n : Nat), (num k n).length = k
  | 0, _ => rfl
  | k + 1, n => by simp [num, num_length k]

theorem num1 (n : Nat) : num 1 n = [UInt8.ofNat n] := by
  simp only [num, List.cons.injEq, and_true]
  apply UInt8.toNat_inj.1; simp

theorem num2 (n : Nat) : num 2 n = le16 n := by
  simp only [num, le16, List.cons.injEq, and_true]
  constructor <;> apply UInt8.toNat_inj.1 <;> rw [ofNat_and_toNat] <;> simp [Nat.shiftRight_eq_div_pow]

theorem num4 (n : Nat) : num 4 n = le32 n := by
  simp only [num, le32, List.cons.injEq, and_true]
  refine ⟨?_, ?_, ?_, ?_⟩ <;> apply UInt8.toNat_inj.1 <;> rw [ofNat_and_toNat] <;>
    simp [Nat.shiftRight_eq_div_pow, Nat.div_div_eq_div_mul]

theorem num8 (n : Nat) : num 8 n = le32 n ++ le32 (n / 2 ^ 32) := by
  rw [← num4, ← num4]
  simp [num, Nat.div_div_eq_div_mul]

theorem Num.bound {x : Bytes} {p k n : Nat} (h : Num x p k n) : p + k ≤ x.length := by
  have := h.2.bound
  rwa [num_length] at this

theorem Num.readU16 {x : Bytes} {p n : Nat} (h : Num x p 2 n) : readU16 x p = .ok n := by
  have := h.2
  rw [num2] at this
  rw [readU16_at this, Nat.mod_eq_of_lt h.1]

theorem Num.readU32 {x : Bytes} {p n : Nat} (h : Num x p 4 n) : readU32 x p = .ok n := by
  have := h.2
  rw [num4] at this
  rw [readU32_at this, Nat.mod_eq_of_lt h.1]

theorem Num.byteAt {x : Bytes} {p n : Nat} (h : Num x p 1 n) : byteAt x p = .ok n := by
  have h2 := h.2
  rw [num1] at h2
  have := h2.byteAt (i := 0) (by simp)
  have hn : n < 256 := h.1
  simpa [Nat.mod_eq_of_lt hn] using this

theorem Num.readU64 {x : Bytes} {p n : Nat} (h : Num x p 8 n) : readU64 x p = .ok n := by
  have h2 := h.2
  have h1 : n < 2 ^ 64 := h.1
  rw [num8] at h2
  have a := readU32_at h2.left
  have b := readU32_at h2.right
  rw [le32_length] at b
  rw [readU64_of_halves a b (Nat.mod_lt _ (by decide))]
  congr 1; omega

theorem Num.trans {b x : Bytes} {o p k n : Nat} (h : At b o x) (hn : Num x p k n) : Num b (o + p) k n := ⟨hn.1, h.trans hn.2⟩

section
variable {v : View} {env arena : Bytes} {q tag flags aux a b c : Nat}

theorem ValueRef.bound (h : ValueRef env q tag flags aux a b c) : q + 16 ≤ env.length := by
  have := h.c.bound; omega

/-- The reader is at the reference at `q` of the envelope. -/
structure Seen (v : View) (env arena : Bytes) (q : Nat) : Prop where
  holds : Holds v env arena
  at_ : v.vr = some (HeaderSize + q)

variable (S : Seen v env arena q) (h : ValueRef env q tag flags aux a b c)
include S h

theorem sees_vr : v.requireVr = .ok (HeaderSize + q) := by
  have h1 := h.bound
  have h2 := S.holds.envSize
  simp only [View.requireVr, S.at_]
  have : (decide (HeaderSize ≤ HeaderSize + q) && decide (HeaderSize + q + 16 ≤ HeaderSize + v.envSize)) = true := by
    simp; omega
  rw [this]; rfl

theorem sees_tag : v.tag = .ok tag := by
  simp only [View.tag, sees_vr S h, Res.ok_bind]
  exact (h.tag.trans S.holds.envAt).byteAt

theorem sees_flags : v.flags = .ok flags := by
  simp only [View.flags, sees_vr S h, Res.ok_bind]
  have := (h.flags.trans S.holds.envAt).byteAt
  rwa [← Nat.add_assoc] at this

theorem sees_aux : v.aux = .ok aux := by
  simp only [View.aux, sees_vr S h, Res.ok_bind]
  have := (h.aux.trans S.holds.envAt).readU16
  rwa [← Nat.add_assoc] at this

theorem sees_a : v.a = .ok a := by
  simp only [View.a, sees_vr S h, Res.ok_bind]
  have := (h.a.trans S.holds.envAt).readU32
  rwa [← Nat.add_assoc] at this

theorem sees_b : v.b = .ok b := by
  simp only [View.b, sees_vr S h, Res.ok_bind]
  have := (h.b.trans S.holds.envAt).readU32
  rwa [← Nat.add_assoc] at this

theorem sees_c : v.c = .ok c := by
  simp only [View.c, sees_vr S h, Res.ok_bind]
  have := (h.c.trans S.holds.envAt).readU32
  rwa [← Nat.add_assoc] at this

theorem sees_bits : v.bits = .ok (a + 2 ^ 32 * b) := by
  simp only [View.bits, sees_a S h, sees_b S h, Res.ok_bind, Res.pure_eq]
  rw [or_shift_add h.a.1, Nat.mul_comm]

theorem sees_flagsOk (hf : flags = 0) : v.requireFlagsOk = .ok () := by
  subst hf
  simp only [View.requireFlagsOk, sees_tag S h, sees_flags S h, Res.ok_bind]
  split <;> rfl

theorem sees_shows : reader.Shows v (decide (tag = 0)) (decide (tag = 1)) (decide (tag = 2) || decide (tag = 8))
      (decide (tag = 3)) (decide (tag = 4)) (decide (tag = 7) && decide (aux = 2)) (decide (tag = 6))
      (decide (tag = 5)) := shows_of_tag (sees_tag S h) (sees_aux S h)

end

/-! ## What the reader presents -/

section
variable {st : Prop} {env arena : Bytes}

theorem Ref.bound {p : Nat} {v : Val} (h : Ref st env arena p v) : p + 16 ≤ env.length := by
  cases h <;> exact ValueRef.bound ‹_›

theorem Elems.bound : ∀ {vs : List Val} {p : Nat}, p ≤ env.length → Elems st env arena p vs → p + 16 * vs.length ≤ env.length
  | [], p, hp, _ => by simpa using hp
  | v :: vs, p, _, .cons h1 h2 => by
    have := Elems.bound h1.bound h2
    simp only [List.length_cons]; omega

theorem Elems.get : ∀ {vs : List Val} {p : Nat}, Elems st env arena p vs → ∀ i (h : i < vs.length), Ref st env arena (p + 16 * i) vs[i]
  | v :: vs, p, .cons h1 h2, 0, _ => by simpa using h1
  | v :: vs, p, .cons h1 h2, i + 1, h => by
    have := Elems.get h2 i (by simpa using h)
    rw [show p + 16 * (i + 1) = p + 16 + 16 * i by omega]
    simpa using this

variable {v : View}

theorem Seen.moved {q o : Nat} (S : Seen v env arena q) : Seen { v with vr := some (HeaderSize + o) } env arena o :=
  ⟨S.holds.withVr _, rfl⟩

theorem members_keysFrom (H : Holds v env arena) : ∀ (ms : List (Bytes × Val)) (o : Nat),
    Members st env arena o ms → v.keysFrom ms.length (HeaderSize + o) = .ok (ms.map Prod.fst)
  | [], o, _ => by simp [View.keysFrom]
  | (k, w) :: ms, o, .cons h1 h2 h3 h4 h5 h6 => by
    have hb := h5.bound
    have hk : k.length < 2 ^ 16 := h1.1
    have hlt := H.envLt
    rw [← H.envSize] at hlt hb
    have r1 := (h1.trans H.envAt).readU16
    have r3 := (H.envAt.trans h4).sliceAt
    rw [← Nat.add_assoc] at r3
    have e1 : u32 (HeaderSize + o - HeaderSize) = o := by simp [u32]; omega
    have e2 : u32 (o + u32 (4 + k.length + 16)) = o + 4 + k.length + 16 := by
      simp [u32]; omega
    have ih := members_keysFrom H ms _ h6
    simp only [List.length_cons, View.keysFrom, View.keyDeref, View.keyNext, r1, Res.ok_bind, e1, e2,
      envPtrAt_ok (ofs := o) (need := 4 + k.length + 16) (v := v) (by omega), r3,
      envPtrAt_ok (ofs := o + 4 + k.length + 16) (need := 0) (v := v) (by omega), ih]
    simp

theorem members_containsFrom (H : Holds v env arena) (key : Bytes) : ∀ (ms : List (Bytes × Val)) (o : Nat),
    Members st env arena o ms → v.containsFrom key ms.length o = .ok (decide (key ∈ ms.map Prod.fst))
  | [], o, _ => by simp [View.containsFrom]
  | (k, w) :: ms, o, .cons h1 h2 h3 h4 h5 h6 => by
    have hb := h5.bound
    have hk : k.length < 2 ^ 16 := h1.1
    have hlt := H.envLt
    rw [← H.envSize] at hlt hb
    have r1 := (h1.trans H.envAt).readU16
    have r2 := (h2.trans H.envAt).readU16
    have r3 := (H.envAt.trans h4).sliceAt
    rw [← Nat.add_assoc] at r2
    have e1 : u32 o = o := by simp [u32]; omega
    have e2 : u32 (o + 4) = o + 4 := by simp [u32]; omega
    have e0 : o + (4 + k.length + 16) = o + 4 + k.length + 16 := by omega
    have e3 : u32 (o + 4 + k.length + 16) = o + 4 + k.length + 16 := by simp [u32]; omega
    have ih := members_containsFrom H key ms _ h6
    simp only [List.length_cons, View.containsFrom, View.keyHit, e0, e1, e2, e3, r1, r2, Res.ok_bind,
      envPtrAt_ok (ofs := o) (need := 4) (v := v) (by omega),
      envPtrAt_ok (ofs := o + 4) (need := k.length) (v := v) (by omega),
      envPtrAt_ok (ofs := o + 4 + k.length + 16) (need := 0) (v := v) (by omega)]
    by_cases hkey : k = key
    · subst hkey; simp [r3]
    · have hkey' : ¬ key = k := fun e => hkey e.symm
      by_cases hlen : k.length = key.length
      · rw [if_pos hlen, ← hlen, r3]
        simp [hkey, ih, hkey']
      · rw [if_neg hlen]
        simp [ih, hkey']

theorem members_getKeyFrom (H : Holds v env arena) (key : Bytes) : ∀ (ms : List (Bytes × Val)) (o : Nat),
    Members st env arena o ms →
      (key ∉ ms.map Prod.fst ∧ v.getKeyFrom key ms.length o = .err .deser) ∨
      (∃ w o', (key, w) ∈ ms ∧ Ref st env arena o' w ∧ firstVal ms key = some w ∧
        v.getKeyFrom key ms.length o = .ok { v with vr := some (HeaderSize + o') })
  | [], o, _ => by simp [View.getKeyFrom]
  | (k, w) :: ms, o, .cons h1 h2 h3 h4 h5 h6 => by
    have hb := h5.bound
    have hk : k.length < 2 ^ 16 := h1.1
    have hlt := H.envLt
    rw [← H.envSize] at hlt hb
    have r1 := (h1.trans H.envAt).readU16
    have r2 := (h2.trans H.envAt).readU16
    have r3 := (H.envAt.trans h4).sliceAt
    rw [← Nat.add_assoc] at r2
    have e1 : u32 o = o := by simp [u32]; omega
    have e2 : u32 (o + 4) = o + 4 := by simp [u32]; omega
    have e0 : o + (4 + k.length + 16) = o + 4 + k.length + 16 := by omega
    have e3 : u32 (o + 4 + k.length + 16) = o + 4 + k.length + 16 := by simp [u32]; omega
    have e4 : u32 (o + 4 + k.length) = o + 4 + k.length := by simp [u32]; omega
    have step : v.getKeyFrom key ((k, w) :: ms).length o =
        if k = key then .ok { v with vr := some (HeaderSize + (o + 4 + k.length)) }
        else v.getKeyFrom key ms.length (o + 4 + k.length + 16) := by
      simp only [List.length_cons, View.getKeyFrom, View.keyHit, e0, e1, e2, e3, e4, r1, r2, Res.ok_bind,
        envPtrAt_ok (ofs := o) (need := 4) (v := v) (by omega),
        envPtrAt_ok (ofs := o + 4) (need := k.length) (v := v) (by omega),
        envPtrAt_ok (ofs := o + 4 + k.length) (need := 16) (v := v) (by omega),
        envPtrAt_ok (ofs := o + 4 + k.length + 16) (need := 0) (v := v) (by omega)]
      by_cases hkey : k = key
      · subst hkey; simp [r3]
      · by_cases hlen : k.length = key.length
        · rw [if_pos hlen, ← hlen, r3]; simp [hkey]
        · rw [if_neg hlen]; simp [hkey]
    by_cases hkey : k = key
    · right
      subst hkey
      refine ⟨w, o + 4 + k.length, by simp, h5, ?_, ?_⟩
      · simp [firstVal]
      · rw [step, if_pos rfl]
    · rw [step, if_neg hkey]
      rcases members_getKeyFrom H key ms _ h6 with ⟨hn, he⟩ | ⟨w', o', a1, a2, a3, a4⟩
      · left
        refine ⟨?_, he⟩
        have hkey' : ¬ key = k := fun e => hkey e.symm
        simp only [List.map_cons, List.mem_cons, hkey', false_or]
        exact hn
      · right
        refine ⟨w', o', by simp [a1], a2, ?_, a4⟩
        simp only [firstVal, if_neg hkey]
        exact a3

theorem ofNat_toNat64 {n : UInt64} {m : Nat} (h : n.toNat = m) : UInt64.ofNat m = n := by
  subst h; exact UInt64.ofNat_toNat

/-- A reader at a reference that stands for a value presents it. -/
theorem Ref.agrees : ∀ (val : Val) {v : View} {q : Nat}, Seen v env arena q → Ref st env arena q val →
    reader.AgreesStrictly v val := by
  intro val
  induction val using Val.ind with
  | null =>
    intro v q S hr
    cases hr with
    | null h _ => exact .null (sees_shows S h)
  | bool b =>
    intro v q S hr
    cases hr with
    | bool h _ =>
      refine .bool (sees_shows S h) ?_
      simp only [reader, View.asBool, sees_tag S h, sees_flagsOk S h rfl, sees_aux S h, Res.ok_bind]
      cases b <;> rfl
  | int i =>
    intro v q S hr
    cases hr with
    | int h e _ =>
      refine .int ⟨sees_shows S h, ?_, ?_⟩ ?_; rotate_right
      · intro _; simp only [reader, View.isInt, View.isUInt, sees_tag S h, Res.ok_bind]; exact ⟨rfl, rfl⟩
      · intro _
        refine ⟨i, ?_, rfl⟩
        simp only [reader, View.asInt64, sees_tag S h, sees_flagsOk S h rfl, sees_bits S h, Res.ok_bind, ofNat_toNat64 e]
        simp [tI64, tU64]
      · intro h'
        simp only [reader, View.isUInt, sees_tag S h, Res.ok_bind] at h'
        cases h'
  | uint n =>
    intro v q S hr
    cases hr with
    | uint h e _ =>
      refine .uint ⟨sees_shows S h, ?_, ?_⟩ ?_; rotate_right
      · intro _; simp only [reader, View.isInt, View.isUInt, sees_tag S h, Res.ok_bind]; exact ⟨rfl, rfl⟩
      · intro h'
        simp only [reader, View.isInt, sees_tag S h, Res.ok_bind] at h'
        cases h'
      · intro _
        refine ⟨n, ?_, rfl⟩
        simp only [reader, View.asUInt64, sees_tag S h, sees_flagsOk S h rfl, sees_bits S h, Res.ok_bind, ofNat_toNat64 e]
        simp [tI64, tU64]
  | dbl d =>
    intro v q S hr
    cases hr with
    | dbl h e _ =>
      refine .dbl (sees_shows S h) ?_
      simp only [reader, View.asDouble, sees_tag S h, sees_flagsOk S h rfl, sees_bits S h, Res.ok_bind, ofNat_toNat64 e]
      simp [tF64]
  | str s =>
    intro v q S hr
    cases hr with
    | strInline h hs hb _ =>
      have : v.asStringView = .ok s := by
        have hb' := (S.holds.envAt.trans hb).sliceAt
        rw [← Nat.add_assoc] at hb'
        simp only [View.asStringView, View.stringRange, View.requireFlagsOk, sees_tag S h, sees_flags S h, sees_aux S h, Res.ok_bind,
          tString, View.inlineBytes, sees_vr S h, InlineMax]
        simp [hs, hb', Res.require]
      exact .str (sees_shows S h) this this
    | strArena h ha _ =>
      have : v.asStringView = .ok s := by
        have hb := (S.holds.arenaAt.trans ha).sliceAt
        have hle := ha.bound
        rw [← S.holds.arenaLen] at hle
        simp only [View.asStringView, View.stringRange, sees_tag S h, sees_flagsOk S h rfl, sees_flags S h, sees_a S h, sees_b S h,
          Res.ok_bind, arenaBytes_ok hle]
        simp [tString, hb]
      exact .str (sees_shows S h) this this
  | blob s =>
    intro v q S hr
    cases hr with
    | @blob _ a c _ h h1 h2 ha _ =>
      refine .blob (sees_shows S h) ?_ (fun _ => rfl)
      have hb := (S.holds.arenaAt.trans ha).sliceAt
      have hle := ha.bound
      rw [← S.holds.arenaLen] at hle
      have hbd := h2.bound
      rw [← S.holds.envSize] at hbd
      have r1 := (h1.trans S.holds.envAt).readU32
      have r2 := (h2.trans S.holds.envAt).readU64
      rw [← Nat.add_assoc] at r2
      have hisb : v.isBlob = .ok true := by
        simp only [View.isBlob, sees_tag S h, sees_aux S h, Res.ok_bind]; rfl
      have e1 : v.envPtrAt c 4 = .ok (HeaderSize + c) := envPtrAt_ok (by omega)
      have e2 : v.envPtrAt c 12 = .ok (HeaderSize + c) := envPtrAt_ok (by omega)
      simp only [reader, View.asBlob, View.blobRange, hisb, sees_flagsOk S h rfl, sees_a S h, sees_b S h, sees_c S h, Res.ok_bind,
        e1, r1, r2]
      simp [RankMax, e2, arenaBytes_ok hle, hb]
  | arr xs ih =>
    intro v q S hr
    cases hr with
    | @arr _ x a b c _ h hn he _ =>
      have hlt := S.holds.envLt
      have hbd := he.bound hn.bound
      rw [← S.holds.envSize] at hlt hbd
      have hcnt := (hn.trans S.holds.envAt).readU32
      have e1 : v.envPtrAt a 4 = .ok (HeaderSize + a) := envPtrAt_ok (by omega)
      have e2 : v.envPtrAt a (4 + 16 * xs.length) = .ok (HeaderSize + a) := envPtrAt_ok (by omega)
      have hfl := sees_flagsOk S h rfl
      have hidx : ∀ i, v.getIdx i = if i < xs.length then
          .ok { v with vr := some (HeaderSize + (a + 4 + 16 * i)) } else .err .deser := by
        intro i
        simp only [View.getIdx, sees_tag S h, hfl, sees_a S h, Res.ok_bind, e1, hcnt]
        by_cases hi : i < xs.length
        · have e3 : u32 (a + 4 + 16 * i) = a + 4 + 16 * i := by simp [u32]; omega
          simp [hi, e3, envPtrAt_ok (ofs := a + 4 + 16 * i) (need := 16) (v := v) (by omega), tArray]
        · simp [hi, tArray]
      refine .arr (fun i => { v with vr := some (HeaderSize + (a + 4 + 16 * i)) }) (sees_shows S h) ?_ ?_ ?_ ?_
      · simp only [reader, View.arraySize, sees_tag S h, hfl, sees_a S h, Res.ok_bind, e1, hcnt, e2]
        simp [tArray]
      · intro i hi
        simp only [reader, hidx, if_pos hi]
      · intro i hi
        simp only [reader, hidx, if_neg (Nat.not_lt.2 hi)]
      · intro i hi
        exact ih _ (List.getElem_mem hi) S.moved (he.get i hi)
  | map ms ih =>
    intro v q S hr
    cases hr with
    | @obj _ x a b c _ h hn he _ =>
      have H := S.holds
      have hlt := S.holds.envLt
      have hbd := hn.bound
      rw [← S.holds.envSize] at hlt hbd
      have hcnt := (hn.trans S.holds.envAt).readU32
      have hfl := sees_flagsOk S h rfl
      have e1 : v.envPtrAt a 4 = .ok (HeaderSize + a) := envPtrAt_ok (by omega)
      have e3 : u32 (a + 4) = a + 4 := by simp [u32]; omega
      have e2 : v.envPtrAt (a + 4) 0 = .ok (HeaderSize + (a + 4)) := envPtrAt_ok (by omega)
      have hmk : v.mapKeys = .ok (ms.map Prod.fst) := by
        simp only [View.mapKeys, sees_tag S h, hfl, sees_a S h, Res.ok_bind, e1, hcnt, e3, e2]
        rw [members_keysFrom H ms _ he]; rfl
      have hct : ∀ k, v.contains k = .ok (decide (k ∈ ms.map Prod.fst)) := by
        intro k
        have : v.isMap = .ok true := by simp only [View.isMap, sees_tag S h, Res.ok_bind]; rfl
        simp only [View.contains, this, hfl, sees_a S h, Res.ok_bind, e1, hcnt, e3]
        rw [members_containsFrom H k ms _ he]; rfl
      have hgk : ∀ k, v.getKey k = v.getKeyFrom k ms.length (a + 4) := by
        intro k
        simp only [View.getKey, sees_tag S h, hfl, sees_a S h, Res.ok_bind, e1, hcnt, e3]
        rfl
      refine .map (fun k => match v.getKey k with | .ok w => w | _ => v) (sees_shows S h) hmk hct ?_ ?_ ?_
      · intro k hk
        simp only [reader, hgk]
        rcases members_getKeyFrom H k ms _ he with ⟨hn, _⟩ | ⟨w, o', a1, a2, a3, a4⟩
        · exact absurd hk hn
        · simp [a4]
      · intro k hk
        simp only [reader, hgk]
        rcases members_getKeyFrom H k ms _ he with ⟨_, he⟩ | ⟨w, o', a1, a2, a3, a4⟩
        · exact he
        · exact absurd (List.mem_map.2 ⟨(k, w), a1, rfl⟩) hk
      · intro k val hval
        rcases members_getKeyFrom H k ms _ he with ⟨hn, _⟩ | ⟨w, o', a1, a2, a3, a4⟩
        · exact absurd (firstVal_isSome.2 ⟨val, hval⟩) hn
        · simp only [hgk, a4]
          rw [a3] at hval
          injection hval with hval
          subst hval
          exact ih (k, w) a1 S.moved a2

end

theorem at_drop {b : Bytes} {o : Nat} (h : o ≤ b.length) : At b o (b.drop o) :=
  ⟨b.take o, [], by simp, by simp [h]⟩

theorem at_take {b : Bytes} {o n : Nat} (h : o ≤ b.length) : At b o ((b.drop o).take n) :=
  ⟨b.take o, (b.drop o).drop n, by rw [List.take_append_drop, List.take_append_drop], by simp [h]⟩

/-- A message that stands for a value is opened. -/
theorem Message.opens {st : Prop} {buf : Bytes} {v : Val} {root es ao : Nat} (M : Message st buf v root es ao) :
    initFrom buf = .ok ⟨buf, es, ao, some (HeaderSize + root)⟩ ∧
      Seen ⟨buf, es, ao, some (HeaderSize + root)⟩ ((buf.drop 20).take es) (buf.drop ao) root := by
  have hb := M.value.bound
  have hin := M.inside
  have hap := M.apart
  have hao : ao < 2 ^ 32 := M.hdrArena.1
  have hlen : ((buf.drop 20).take es).length = es := by
    rw [List.length_take, List.length_drop]; omega
  rw [hlen] at hb
  have e : u32 (20 + es) = 20 + es := by simp [u32]; omega
  have e2 : u64 (es + 18446744073709551600) = es - 16 := by simp only [u64]; omega
  refine ⟨?_, ⟨⟨at_take (show 20 ≤ buf.length by omega), at_drop hin, hlen.symm, ?_, by omega, M.aligned⟩, rfl⟩⟩
  · simp only [initFrom, parseHeader, M.magic.readU32, M.version.readU16, M.flags.readU16, M.hdrRoot.readU32, M.hdrEnv.readU32,
      M.hdrArena.readU32, Res.ok_bind, Res.pure_eq]
    simp [HeaderSize, e, e2, show 20 ≤ buf.length by omega, hap, hin, M.aligned, Magic, Version, ArenaBaseAlign, show es ≤ buf.length by omega, show root < es by omega,
      show root ≤ es - 16 by omega]
  · simp [View.arenaLen]

end Zer.Zera
