import Verif.MsgPack.Exact
import Verif.Cbor.Contain
import Verif.Cbor.Term

/-!
# CBOR: whatever the reader presents is an encoding

`enc_of_agrees`: a position that presents a value is the start of an encoding of the value that RFC 8949 permits.
-/

namespace Zer.Cbor

open MsgPack (be be_length be_of_bytes byte_eq)

/-! ## Heads -/

theorem at_of_byte {v : Bytes} {p n : Nat} (h : byteAt v p = .ok n) : ∃ x : UInt8, n = x.toNat ∧ At v p [x] := by
  have hp := byteAt_lt h
  rw [byteAt_ok hp] at h
  injection h with h
  refine ⟨v[p], h.symm, ?_⟩
  have hs : At v p ((v.drop p).take 1) := At.of_slice (by omega)
  rw [List.drop_eq_getElem_cons hp] at hs
  exact hs

theorem at_cons {v : Bytes} {p : Nat} {x : UInt8} {t : Bytes} (h1 : At v p [x]) (h2 : At v (p + 1) t) : At v p (x :: t) :=
  At.split.2 ⟨h1, h2⟩

theorem getBe_inv {v : Bytes} {p k x : Nat} (hk : 0 < k) (h : getBe v p k 0 = .ok x) : x < 256 ^ k ∧ At v p (be k x) := by
  have hl : p + k ≤ v.length := by rcases getBe_le h with e | e <;> omega
  have hs : At v p ((v.drop p).take k) := At.of_slice hl
  obtain ⟨n, hn, e⟩ := be_of_bytes k ((v.drop p).take k) (by simp; omega)
  rw [e] at hs
  rw [getBe_be hs hn] at h
  injection h with h
  subst h
  exact ⟨hn, hs⟩

theorem ini_eq {x : UInt8} {a : Nat} (h : x.toNat % 32 = a) : x = UInt8.ofNat (x.toNat / 32 * 32 + a) :=
  byte_eq (by omega)

/-- A head that was read is one of the heads of the format. -/
theorem hd_inv {v : Bytes} {p : Nat} {h : Head} (hr : readHead false v p = .ok h) (hm : h.major ≤ 6) :
    (h.indef = false → ∃ b, Hd h.major h.val b ∧ At v p b ∧ b.length = h.hlen) ∧
    (h.indef = true → At v p [indefHd h.major] ∧ h.hlen = 1) := by
  obtain ⟨_, -, hr⟩ := Res.bind_eq_ok.1 hr
  obtain ⟨b, hb, hr⟩ := Res.bind_eq_ok.1 hr
  obtain ⟨x, rfl, hx⟩ := at_of_byte hb
  dsimp only at hr
  split at hr
  · exfalso
    split at hr
    · injection hr with hr; subst hr; simp at hm
    split at hr
    · injection hr with hr; subst hr; simp at hm
    split at hr
    · injection hr with hr; subst hr; simp at hm
    split at hr
    · obtain ⟨_, _, hr⟩ := Res.bind_eq_ok.1 hr; injection hr with hr; subst hr; simp at hm
    split at hr <;> (injection hr with hr; subst hr; simp at hm)
  split at hr
  · rename_i ha
    injection hr with hr; subst hr
    refine ⟨fun _ => ⟨[x], ?_, hx, rfl⟩, fun e => by cases e⟩
    have := Hd.imm (m := x.toNat / 32) ha
    rwa [← ini_eq rfl] at this
  split at hr
  · rename_i ha
    obtain ⟨_, _, hr⟩ := Res.bind_eq_ok.1 hr
    obtain ⟨n, hn, hr⟩ := Res.bind_eq_ok.1 hr
    injection hr with hr; subst hr
    obtain ⟨y, rfl, hy⟩ := at_of_byte hn
    have hl := UInt8.toNat_lt y
    have e : be 1 y.toNat = [y] := by simp [be]
    refine ⟨fun _ => ⟨x :: be 1 y.toNat, ?_, e ▸ at_cons hx hy, by simp⟩, fun e => by cases e⟩
    have := Hd.w1 (m := x.toNat / 32) hl
    rwa [← ini_eq ha] at this
  split at hr
  · rename_i ha
    obtain ⟨_, _, hr⟩ := Res.bind_eq_ok.1 hr
    obtain ⟨n, hn, hr⟩ := Res.bind_eq_ok.1 hr
    injection hr with hr; subst hr
    obtain ⟨hl, hy⟩ := getBe_inv (by omega) hn
    refine ⟨fun _ => ⟨x :: be 2 n, ?_, at_cons hx hy, by simp⟩, fun e => by cases e⟩
    have := Hd.w2 (m := x.toNat / 32) hl
    rwa [← ini_eq ha] at this
  split at hr
  · rename_i ha
    obtain ⟨_, _, hr⟩ := Res.bind_eq_ok.1 hr
    obtain ⟨n, hn, hr⟩ := Res.bind_eq_ok.1 hr
    injection hr with hr; subst hr
    obtain ⟨hl, hy⟩ := getBe_inv (by omega) hn
    refine ⟨fun _ => ⟨x :: be 4 n, ?_, at_cons hx hy, by simp⟩, fun e => by cases e⟩
    have := Hd.w4 (m := x.toNat / 32) hl
    rwa [← ini_eq ha] at this
  split at hr
  · rename_i ha
    obtain ⟨_, _, hr⟩ := Res.bind_eq_ok.1 hr
    obtain ⟨n, hn, hr⟩ := Res.bind_eq_ok.1 hr
    injection hr with hr; subst hr
    obtain ⟨hl, hy⟩ := getBe_inv (by omega) hn
    refine ⟨fun _ => ⟨x :: be 8 n, ?_, at_cons hx hy, by simp⟩, fun e => by cases e⟩
    have := Hd.w8 (m := x.toNat / 32) hl
    rwa [← ini_eq ha] at this
  split at hr
  · rename_i ha
    injection hr with hr; subst hr
    refine ⟨fun e => (by cases e), fun _ => ⟨?_, rfl⟩⟩
    rw [indefHd, ← ini_eq ha]
    exact hx
  · rw [if_neg (by simp)] at hr; cases hr

/-- A head of major type 7 is one of its bytes. -/
theorem simple_inv {v : Bytes} {p : Nat} {h : Head} (hr : readHead false v p = .ok h) (hm : h.major = 7) :
    At v p [UInt8.ofNat (7 * 32 + h.addl)] ∧ (h.addl ≠ 24 → h.hlen = 1) := by
  obtain ⟨_, -, hr⟩ := Res.bind_eq_ok.1 hr
  obtain ⟨b, hb, hr⟩ := Res.bind_eq_ok.1 hr
  obtain ⟨x, rfl, hx⟩ := at_of_byte hb
  dsimp only at hr
  have hx7 : x.toNat / 32 = 7 → At v p [UInt8.ofNat (7 * 32 + x.toNat % 32)] := fun e => by
    have := ini_eq (x := x) rfl
    rw [e] at this
    rw [← this]
    exact hx
  split at hr
  · rename_i h7
    have hx7 := hx7 h7
    split at hr
    · injection hr with hr; subst hr; exact ⟨hx7, fun _ => rfl⟩
    split at hr
    · injection hr with hr; subst hr; exact ⟨hx7, fun _ => rfl⟩
    split at hr
    · injection hr with hr; subst hr; exact ⟨hx7, fun _ => rfl⟩
    split at hr
    · rename_i h24
      obtain ⟨_, _, hr⟩ := Res.bind_eq_ok.1 hr; injection hr with hr; subst hr; exact ⟨hx7, fun e => absurd h24 e⟩
    split at hr <;> (injection hr with hr; subst hr; exact ⟨hx7, fun _ => rfl⟩)
  rename_i h7
  exfalso
  have hlt := UInt8.toNat_lt x
  split at hr
  · injection hr with hr; subst hr; exact h7 hm
  split at hr
  · obtain ⟨_, _, hr⟩ := Res.bind_eq_ok.1 hr
    obtain ⟨n, hn, hr⟩ := Res.bind_eq_ok.1 hr
    injection hr with hr; subst hr; exact h7 hm
  split at hr
  · obtain ⟨_, _, hr⟩ := Res.bind_eq_ok.1 hr
    obtain ⟨n, hn, hr⟩ := Res.bind_eq_ok.1 hr
    injection hr with hr; subst hr; exact h7 hm
  split at hr
  · obtain ⟨_, _, hr⟩ := Res.bind_eq_ok.1 hr
    obtain ⟨n, hn, hr⟩ := Res.bind_eq_ok.1 hr
    injection hr with hr; subst hr; exact h7 hm
  split at hr
  · obtain ⟨_, _, hr⟩ := Res.bind_eq_ok.1 hr
    obtain ⟨n, hn, hr⟩ := Res.bind_eq_ok.1 hr
    injection hr with hr; subst hr; exact h7 hm
  split at hr
  · injection hr with hr; subst hr; exact h7 hm
  · rw [if_neg (by simp)] at hr; cases hr

/-- An indefinite head has no number. -/
theorem indef_val {v : Bytes} {p : Nat} {h : Head} (hr : readHead false v p = .ok h) (hm : h.major ≤ 6) (hi : h.indef = true) : h.val = 0 := by
  have := indef_read hm false (t := []) ((hd_inv hr hm).2 hi).1
  rw [hr] at this
  injection this with this
  rw [this]

/-! ## Strings -/

theorem range_inv {hard : Bool} {v : Bytes} {q n : Nat} {s : Bytes} (h : View.range hard v q n = .ok s) : At v q s ∧ s.length = n := by
  unfold View.range at h
  split at h
  · cases h
  unfold sliceAt at h
  split at h
  · rename_i hl
    injection h with h
    subst h
    exact ⟨At.of_slice hl, by simp; omega⟩
  · cases h

theorem gather_inv {hard : Bool} {v : Bytes} (hv : v.length < 2 ^ 64) {m : Nat} (hm : m ≤ 6) : ∀ {f q s}, View.gather hard v m f q = .ok s →
    ∃ b, Chunks m s b ∧ At v q (b ++ [0xff])
  | 0, _, _, h => by cases h
  | f + 1, q, s, h => by
    unfold View.gather at h
    obtain ⟨_, -, h⟩ := Res.bind_eq_ok.1 h
    obtain ⟨y, hy, h⟩ := Res.bind_eq_ok.1 h
    obtain ⟨x, rfl, hx⟩ := at_of_byte hy
    split at h
    · rename_i e
      injection h with h
      subst h
      rw [byte_eq e] at hx
      exact ⟨[], .nil, hx⟩
    · obtain ⟨ch, hr, h⟩ := Res.bind_eq_ok.1 h
      obtain ⟨_, hc, h⟩ := Res.bind_eq_ok.1 h
      dsimp only at h
      obtain ⟨_, -, h⟩ := Res.bind_eq_ok.1 h
      obtain ⟨s1, h1, h⟩ := Res.bind_eq_ok.1 h
      obtain ⟨s2, h2, h⟩ := Res.bind_eq_ok.1 h
      injection h with h
      subst h
      have hc := Res.require_eq_ok.1 hc
      simp only [Bool.and_eq_true, decide_eq_true_eq, Bool.not_eq_true'] at hc
      obtain ⟨rfl, hi⟩ := hc
      obtain ⟨hd, H, ha, hl⟩ := (hd_inv hr hm).1 hi
      obtain ⟨a1, l1⟩ := range_inv h1
      have hb := a1.bound
      rw [u64_of_lt (by omega)] at h2
      obtain ⟨b, g1, g2⟩ := gather_inv hv hm h2
      refine ⟨(hd ++ s1) ++ b, .cons (by rw [l1]; exact H) g1, ?_⟩
      rw [List.append_assoc]
      refine At.split.2 ⟨At.split.2 ⟨ha, by rw [hl]; exact a1⟩, ?_⟩
      rw [List.length_append, hl, l1, ← Nat.add_assoc]
      exact g2

theorem text_inv {hard : Bool} {v : Bytes} (hv : v.length < 2 ^ 64) {p f : Nat} {h : Head} {s : Bytes} (hr : readHead false v p = .ok h)
    (hm : h.major ≤ 6) (hs : (if h.indef then View.gather hard v h.major f (p + h.hlen) else View.definite hard v h (p + h.hlen)) = .ok s) :
    ∃ c, Text true h.major s c ∧ At v p c := by
  split at hs
  · rename_i hi
    obtain ⟨ha, hl⟩ := (hd_inv hr hm).2 hi
    rw [hl] at hs
    obtain ⟨b, h1, h2⟩ := gather_inv hv hm hs
    exact ⟨_, .chunked rfl h1, at_cons ha h2⟩
  · rename_i hi
    obtain ⟨b, H, ha, hl⟩ := (hd_inv hr hm).1 (by simpa using hi)
    obtain ⟨_, -, hs⟩ := Res.bind_eq_ok.1 hs
    obtain ⟨h1, h2⟩ := range_inv hs
    exact ⟨_, .definite (by rw [h2]; exact H), At.split.2 ⟨ha, by rw [hl]; exact h1⟩⟩

theorem asString_inv {hard : Bool} {v : Bytes} (hv : v.length < 2 ^ 64) {p f : Nat} {s : Bytes} (h : View.asString hard f ⟨v, p⟩ = .ok s) :
    ∃ c, Text true 3 s c ∧ At v p c := by
  obtain ⟨hd, hr, h⟩ := Res.bind_eq_ok.1 h
  obtain ⟨_, hm, h⟩ := Res.bind_eq_ok.1 h
  have hm : hd.major = 3 := by simpa [Res.require_eq_ok] using hm
  have := text_inv (hard := hard) (f := f) (s := s) hv hr (by omega) (by rw [hm]; exact h)
  rwa [hm] at this

theorem asBlobVec_inv {hard : Bool} {v : Bytes} (hv : v.length < 2 ^ 64) {p f : Nat} {s : Bytes} (h : View.asBlobVec hard f ⟨v, p⟩ = .ok s) :
    ∃ c, Text true 2 s c ∧ At v p c := by
  obtain ⟨hd, hr, h⟩ := Res.bind_eq_ok.1 h
  obtain ⟨_, hm, h⟩ := Res.bind_eq_ok.1 h
  have hm : hd.major = 2 := by simpa [Res.require_eq_ok] using hm
  have := text_inv (hard := hard) (f := f) (s := s) hv hr (by omega) (by rw [hm]; exact h)
  rwa [hm] at this

theorem asBlob_vec {hard : Bool} {r : View} {f : Nat} {s : Bytes} (h : View.asBlob hard r = .ok s) : View.asBlobVec hard f r = .ok s := by
  obtain ⟨hd, hr, h⟩ := Res.bind_eq_ok.1 h
  obtain ⟨_, hm, h⟩ := Res.bind_eq_ok.1 h
  obtain ⟨_, hi, h⟩ := Res.bind_eq_ok.1 h
  have hi := Res.require_eq_ok.1 hi
  simp only [Bool.not_eq_true'] at hi
  unfold View.asBlobVec
  rw [hr, Res.ok_bind, hm, Res.ok_bind, hi]
  exact h

theorem keyDeref_of_asString {hard : Bool} {f : Nat} {v : Bytes} {q : Nat} {k : Bytes} (h : View.asString hard f ⟨v, q⟩ = .ok k) :
    View.keyDeref hard f v q = .ok k := by
  have h' := keyAt_of_asString h
  obtain ⟨hd, h1, h2⟩ := Res.bind_eq_ok.1 h'
  unfold View.keyDeref
  rw [le_readHead_raw _ _ _ h1, Res.ok_bind]
  exact h2

/-! ## The dialect

The reader takes two bytes that the format reserves for integers (RFC 8949, section 3: additional information 31 is not
well-formed with major types 0 and 1). `EncL` is the format with these two. -/

/-- Integers of the dialect. -/
inductive EncIntL (z : Int) : Bytes → Prop where
  | std {b : Bytes} : EncInt z b → EncIntL z b
  | zero : z = 0 → EncIntL z [0x1f]
  | minusOne : z = -1 → EncIntL z [0x3f]

mutual
/-- `EncL v b`: `b` encodes `v` in the dialect; lengths definite or not. -/
def EncL : Val → Bytes → Prop
  | .null, b => b = [0xf6]
  | .bool x, b => b = [if x then 0xf5 else 0xf4]
  | .int i, b => EncIntL i.toInt b
  | .uint n, b => EncIntL n.toNat b
  | .dbl d, b => EncDbl d.toNat b
  | .str s, b => Text true 3 s b
  | .blob s, b => Text true 2 s b
  | .arr xs, b => ∃ cs, EncLList xs cs ∧ Group true 4 xs.length cs.flatten b
  | .map ms, b => ∃ cs, EncLEntries ms cs ∧ Group true 5 ms.length cs.flatten b
def EncLList : List Val → List Bytes → Prop
  | [], cs => cs = []
  | x :: xs, cs => ∃ c cs', EncL x c ∧ EncLList xs cs' ∧ cs = c :: cs'
def EncLEntries : List (Bytes × Val) → List Bytes → Prop
  | [], cs => cs = []
  | (k, v) :: ms, cs => ∃ ck c cs', Text true 3 k ck ∧ EncL v c ∧ EncLEntries ms cs' ∧ cs = ck :: c :: cs'
end

/-- One item of the dialect. -/
inductive ItemL : Bytes → Prop where
  | num {m n : Nat} {h : Bytes} : m ≤ 1 → Hd m n h → ItemL h
  | res {m : Nat} : m ≤ 1 → ItemL [indefHd m]
  | str {ind : Bool} {m : Nat} {s b : Bytes} : m = 2 ∨ m = 3 → Text ind m s b → ItemL b
  | arr {ind : Bool} {cs : List Bytes} {b : Bytes} : (∀ c ∈ cs, ItemL c) →
      Group ind 4 cs.length cs.flatten b → ItemL b
  | map {ind : Bool} {n : Nat} {cs : List Bytes} {b : Bytes} : cs.length = 2 * n →
      (∀ c ∈ cs, ItemL c) → Group ind 5 n cs.flatten b → ItemL b
  | simple {n : Nat} : n < 24 → ItemL [UInt8.ofNat (7 * 32 + n)]
  | flt {x : UInt8} {p : Bytes} :
      x = 0xf9 ∧ p.length = 2 ∨ x = 0xfa ∧ p.length = 4 ∨ x = 0xfb ∧ p.length = 8 → ItemL (x :: p)

theorem ItemL.first {b : Bytes} (h : ItemL b) : ∃ x t, b = x :: t ∧ x.toNat < 0xff := by
  cases h with
  | num hm hh => exact (Item.num hm hh).first
  | @res m hm => exact ⟨_, _, rfl, indefHd_lt (show m ≤ 6 by omega)⟩
  | str hm hh => exact (Item.str hm hh).first
  | arr _ hg => exact hg.first (by omega)
  | map _ _ hg => exact hg.first (by omega)
  | simple hn => exact (Item.simple hn).first
  | flt hx => exact (Item.flt hx).first

theorem ItemL.pos {b : Bytes} (h : ItemL b) : 1 ≤ b.length := by
  obtain ⟨x, t, rfl, _⟩ := h.first; simp

theorem untilBreak_atL {rec : Nat → Res Nat} {v : Bytes} (raw : Bool) {k : Nat} (hk : 0 < k) :
    ∀ {n : Nat} {cs : List Bytes} {p f : Nat}, cs.length = k * n → n < f →
    (∀ c ∈ cs, ItemL c) → (∀ c ∈ cs, ∀ q, At v q c → rec q = .ok (q + c.length)) →
    At v p (cs.flatten ++ [0xff]) →
    untilBreak raw v rec k f p = .ok (p + cs.flatten.length + 1)
  | 0, cs, p, f, hn, hf, _, _, ha => by
    obtain ⟨f, rfl⟩ : ∃ g, f = g + 1 := ⟨f - 1, by omega⟩
    have : cs = [] := List.length_eq_zero_iff.1 (by simpa using hn)
    subst this
    have ha' : At v p [0xff] := by simpa using ha
    simp [untilBreak, decide_eq_true (at_lt ha'), at_byte ha']
  | n + 1, cs, p, f, hn, hf, hi, hr, ha => by
    obtain ⟨f, rfl⟩ : ∃ g, f = g + 1 := ⟨f - 1, by omega⟩
    obtain ⟨a, b, rfl, hka, hkb⟩ := split_k hn
    have ha' : At v p (a.flatten ++ (b.flatten ++ [0xff])) := by simpa using ha
    obtain ⟨c, a', rfl⟩ : ∃ c a', a = c :: a' := by
      cases a with
      | nil => simp at hka; omega
      | cons c a' => exact ⟨c, a', rfl⟩
    obtain ⟨x, u, hx, hx'⟩ := (hi c (by simp)).first
    have hxa : At v p (x :: (u ++ a'.flatten)) := by
      have := ha'.left; simp only [List.flatten_cons, hx] at this; simpa using this
    have h1 : items rec k p = .ok (p + (c :: a').flatten.length) := by
      rw [← hka]; exact items_at (fun d hd => hr d (by simp only [List.mem_append]; exact .inl hd)) ha'.left
    simp only [untilBreak, decide_eq_true (at_lt hxa), ensure_true, Res.ok_bind, at_byte hxa,
      if_neg (show x.toNat ≠ 0xff by omega), h1]
    rw [untilBreak_atL raw hk hkb (by omega) (fun d hd => hi d (by simp only [List.mem_append]; exact .inr hd))
      (fun d hd => hr d (by simp only [List.mem_append]; exact .inr hd)) ha'.right]
    simp only [List.flatten_append, List.length_append]; congr 1; omega

/-- Skipping passes exactly one item of the dialect. -/
theorem ItemL.skip {b : Bytes} (h : ItemL b) (raw : Bool) {v : Bytes} (hv : v.length < 2 ^ 64)
    {p : Nat} (ha : At v p b) {f : Nat} (hf : b.length ≤ f) : skip raw v f p = .ok (p + b.length) := by
  induction h generalizing p f with
  | @num m n h hm hh =>
    obtain ⟨f, rfl⟩ : ∃ g, f = g + 1 := ⟨f - 1, by have := hh.pos; omega⟩
    obtain ⟨a, hr⟩ := hh.read (by omega) raw ha
    simp [Cbor.skip, hr, hm]
  | @res m hm =>
    simp only [List.length_cons, List.length_nil] at hf
    obtain ⟨f, rfl⟩ : ∃ g, f = g + 1 := ⟨f - 1, by omega⟩
    have hr := indef_read (show m ≤ 6 by omega) raw ha
    simp [Cbor.skip, hr, hm]
  | @str ind m s b hm hh =>
    have hb := ha.bound
    cases hh with
    | @definite h hh =>
      obtain ⟨f, rfl⟩ : ∃ g, f = g + 1 := ⟨f - 1, by have := hh.pos; simp at hf; omega⟩
      obtain ⟨a, hr⟩ := hh.read (by omega) raw ha.left
      simp only [List.length_append] at hb
      have e : u64 (p + h.length + s.length) = p + h.length + s.length := u64_of_lt (by omega)
      simp only [Cbor.skip, hr, Res.ok_bind, if_neg (show ¬ m ≤ 1 by omega),
        if_pos (show m ≤ 3 by omega), Bool.false_eq_true, if_false, e,
        decide_eq_true (show p + h.length + s.length ≤ v.length by omega), ensure_true, Res.pure_eq,
        List.length_append]
      congr 1; omega
    | @chunked b _ hc =>
      simp only [List.length_cons, List.length_append, List.length_nil] at hb hf
      obtain ⟨f, rfl⟩ : ∃ g, f = g + 1 := ⟨f - 1, by omega⟩
      have hr := indef_read (show m ≤ 6 by omega) raw ha
      simp only [Cbor.skip, hr, Res.ok_bind, if_neg (show ¬ m ≤ 1 by omega),
        if_pos (show m ≤ 3 by omega), if_true]
      rw [hc.skip hm raw hv (at_tail ha) (by omega)]
      simp only [List.length_cons, List.length_append, List.length_nil]; congr 1; omega
  | @arr ind cs b hi hg ih =>
    have hb := ha.bound
    cases hg with
    | @definite h hh =>
      have hp := hh.pos
      simp only [List.length_append] at hf
      obtain ⟨f, rfl⟩ : ∃ g, f = g + 1 := ⟨f - 1, by omega⟩
      obtain ⟨a, hr⟩ := hh.read (by omega) raw ha.left
      simp only [Cbor.skip, hr, Res.ok_bind, if_neg (show ¬ 4 ≤ 1 by omega),
        if_neg (show ¬ 4 ≤ 3 by omega), if_true, Bool.false_eq_true, if_false]
      rw [items_at (v := v) (fun c hc q hq => ih c hc hq (by have := mem_flatten_le hc; omega)) ha.right]
      simp only [List.length_append]; congr 1; omega
    | indef _ =>
      simp only [List.length_cons, List.length_append, List.length_nil] at hb hf
      obtain ⟨f, rfl⟩ : ∃ g, f = g + 1 := ⟨f - 1, by omega⟩
      have hr := indef_read (show 4 ≤ 6 by omega) raw ha
      have hge := flatten_ge (fun c hc => (hi c hc).pos)
      simp only [Cbor.skip, hr, Res.ok_bind, if_neg (show ¬ 4 ≤ 1 by omega),
        if_neg (show ¬ 4 ≤ 3 by omega), if_true]
      rw [untilBreak_atL raw (k := 1) (by omega) (n := cs.length) (by omega) (by omega) hi
        (fun c hc q hq => ih c hc hq (by have := mem_flatten_le hc; omega)) (at_tail ha)]
      simp only [List.length_cons, List.length_append, List.length_nil]; congr 1; omega
  | @map ind n cs b hn hi hg ih =>
    have hb := ha.bound
    cases hg with
    | @definite h hh =>
      have hp := hh.pos
      simp only [List.length_append] at hf
      obtain ⟨f, rfl⟩ : ∃ g, f = g + 1 := ⟨f - 1, by omega⟩
      obtain ⟨a, hr⟩ := hh.read (by omega) raw ha.left
      simp only [Cbor.skip, hr, Res.ok_bind, if_neg (show ¬ 5 ≤ 1 by omega),
        if_neg (show ¬ 5 ≤ 3 by omega), if_neg (show ¬ 5 = 4 by omega), if_true,
        Bool.false_eq_true, if_false, ← hn]
      rw [items_at (v := v) (fun c hc q hq => ih c hc hq (by have := mem_flatten_le hc; omega)) ha.right]
      simp only [List.length_append]; congr 1; omega
    | indef _ =>
      simp only [List.length_cons, List.length_append, List.length_nil] at hb hf
      obtain ⟨f, rfl⟩ : ∃ g, f = g + 1 := ⟨f - 1, by omega⟩
      have hr := indef_read (show 5 ≤ 6 by omega) raw ha
      have hge := flatten_ge (fun c hc => (hi c hc).pos)
      simp only [Cbor.skip, hr, Res.ok_bind, if_neg (show ¬ 5 ≤ 1 by omega),
        if_neg (show ¬ 5 ≤ 3 by omega), if_neg (show ¬ 5 = 4 by omega), if_true]
      rw [untilBreak_atL raw (k := 2) (by omega) (n := n) hn (by omega) hi
        (fun c hc q hq => ih c hc hq (by have := mem_flatten_le hc; omega)) (at_tail ha)]
      simp only [List.length_cons, List.length_append, List.length_nil]; congr 1; omega
  | @simple n hn =>
    simp only [List.length_cons, List.length_nil] at hf
    obtain ⟨f, rfl⟩ : ∃ g, f = g + 1 := ⟨f - 1, by omega⟩
    have hr := simple_read hn raw ha
    simp [Cbor.skip, hr, show n ≠ 25 by omega, show n ≠ 26 by omega, show n ≠ 27 by omega,
      show n ≠ 24 by omega]
  | @flt x t hx =>
    simp only [List.length_cons] at hf
    obtain ⟨f, rfl⟩ : ∃ g, f = g + 1 := ⟨f - 1, by omega⟩
    have hr := flt_read raw hx ha
    have hb := ha.bound
    simp only [List.length_cons] at hb
    rcases hx with ⟨rfl, hl⟩ | ⟨rfl, hl⟩ | ⟨rfl, hl⟩
    · simp [Cbor.skip, hr, decide_eq_true (show p + 1 + 2 ≤ v.length by omega), hl]
    · simp [Cbor.skip, hr, decide_eq_true (show p + 1 + 4 ≤ v.length by omega), hl]
    · simp [Cbor.skip, hr, decide_eq_true (show p + 1 + 8 ≤ v.length by omega), hl]

theorem EncIntL.item {z : Int} {b : Bytes} (h : EncIntL z b) : ItemL b := by
  cases h with
  | std h =>
    rcases h with ⟨_, h⟩ | ⟨_, h⟩
    · exact .num (by omega) h
    · exact .num (by omega) h
  | zero => exact ItemL.res (m := 0) (by omega)
  | minusOne => exact ItemL.res (m := 1) (by omega)

mutual
theorem EncL.item : ∀ (v : Val) {b : Bytes}, EncL v b → ItemL b
  | .null, b, h => by
      simp only [EncL] at h; subst h; exact ItemL.simple (n := 22) (by omega)
  | .bool x, b, h => by
      simp only [EncL] at h; subst h
      cases x
      · exact ItemL.simple (n := 20) (by omega)
      · exact ItemL.simple (n := 21) (by omega)
  | .int i, b, h => by
      simp only [EncL] at h
      exact h.item
  | .uint n, b, h => by
      simp only [EncL] at h
      exact h.item
  | .dbl d, b, h => by
      simp only [EncL] at h
      cases h with
      | f64 => exact .flt (by simp)
      | f32 => exact .flt (by simp)
      | f16 => exact .flt (by simp)
  | .str s, b, h => by simp only [EncL] at h; exact .str (.inr rfl) h
  | .blob s, b, h => by simp only [EncL] at h; exact .str (.inl rfl) h
  | .arr xs, b, h => by
      simp only [EncL] at h
      obtain ⟨cs, hc, hg⟩ := h
      obtain ⟨h1, h2⟩ := EncLList.item xs hc
      exact .arr h2 (h1 ▸ hg)
  | .map ms, b, h => by
      simp only [EncL] at h
      obtain ⟨cs, hc, hg⟩ := h
      obtain ⟨h1, h2⟩ := EncLEntries.item ms hc
      exact .map h1 h2 hg
theorem EncLList.item : ∀ (xs : List Val) {cs : List Bytes}, EncLList xs cs →
    cs.length = xs.length ∧ ∀ c ∈ cs, ItemL c
  | [], cs, h => by simp only [EncLList] at h; subst h; simp
  | x :: xs, cs, h => by
      simp only [EncLList] at h
      obtain ⟨c, cs', hc, hcs, rfl⟩ := h
      obtain ⟨h1, h2⟩ := EncLList.item xs hcs
      refine ⟨by simp [h1], ?_⟩
      intro c' hc'
      rcases List.mem_cons.1 hc' with rfl | hc'
      · exact EncL.item x hc
      · exact h2 c' hc'
theorem EncLEntries.item : ∀ (ms : List (Bytes × Val)) {cs : List Bytes},
    EncLEntries ms cs → cs.length = 2 * ms.length ∧ ∀ c ∈ cs, ItemL c
  | [], cs, h => by simp only [EncLEntries] at h; subst h; simp
  | (k, v) :: ms, cs, h => by
      simp only [EncLEntries] at h
      obtain ⟨ck, c, cs', H, hc, hcs, rfl⟩ := h
      obtain ⟨h1, h2⟩ := EncLEntries.item ms hcs
      refine ⟨by simp [h1]; omega, ?_⟩
      intro c' hc'
      rcases List.mem_cons.1 hc' with rfl | hc'
      · exact .str (.inr rfl) H
      · rcases List.mem_cons.1 hc' with rfl | hc'
        · exact EncL.item v hc
        · exact h2 c' hc'
end

/-! ## Numbers -/

theorem showsInt_inv {ind hard : Bool} {f : Nat} {v : Bytes} {p : Nat} {z : Int} (h : (readerI ind hard f).ShowsInt ⟨v, p⟩ z) :
    ∃ c, EncIntL z c ∧ At v p c := by
  obtain ⟨hs, h1, h2⟩ := h
  obtain ⟨i, u, hi, hu, e⟩ := hs.2.2.1
  have hi : View.isInt ⟨v, p⟩ = .ok i := by cases ind <;> exact hi
  have hu : View.isUInt ⟨v, p⟩ = .ok u := by cases ind <;> exact hu
  have h1 : View.isInt ⟨v, p⟩ = .ok true → ∃ y, View.asInt64 ⟨v, p⟩ = .ok y ∧ y.toInt = z := by cases ind <;> exact h1
  have h2 : View.isUInt ⟨v, p⟩ = .ok true → ∃ y, View.asUInt64 ⟨v, p⟩ = .ok y ∧ (y.toNat : Int) = z := by cases ind <;> exact h2
  obtain ⟨hd, hr, hi'⟩ := Res.bind_eq_ok.1 hi
  have hu' := hu
  unfold View.isUInt at hu'
  rw [hr, Res.ok_bind] at hu'
  injection hi' with hi'
  injection hu' with hu'
  have hr' : readHead false v p = .ok hd := hr
  have hni : hd.indef = false ∨ hd.indef = true := by cases hd.indef <;> simp
  by_cases hm : hd.major = 0
  · obtain ⟨y, hy, rfl⟩ := h2 (by rw [hu, ← hu', hm]; rfl)
    unfold View.asUInt64 at hy
    rw [hr, Res.ok_bind] at hy
    obtain ⟨_, -, hy⟩ := Res.bind_eq_ok.1 hy
    injection hy with hy
    subst hy
    rcases hni with hni | hni
    · obtain ⟨b, H, ha, -⟩ := (hd_inv hr' (by omega)).1 hni
      rw [u64_toNat H.lt]
      exact ⟨b, .std (.inl ⟨by omega, by rw [hm] at H; simpa using H⟩), ha⟩
    · obtain ⟨ha, -⟩ := (hd_inv hr' (by omega)).2 hni
      rw [indef_val hr' (by omega) hni]
      rw [hm] at ha
      exact ⟨_, .zero rfl, ha⟩
  · have hm1 : hd.major = 1 := by
      simp only [hm, decide_false] at hu'
      subst hu'
      simp only [Bool.or_false] at e
      rw [e] at hi'
      have := of_decide_eq_true hi'
      omega
    obtain ⟨y, hy, rfl⟩ := h1 (by rw [hi, ← hi', hm1]; rfl)
    unfold View.asInt64 at hy
    rw [hr, Res.ok_bind] at hy
    obtain ⟨_, -, hy⟩ := Res.bind_eq_ok.1 hy
    rw [if_neg hm] at hy
    obtain ⟨_, hle, hy⟩ := Res.bind_eq_ok.1 hy
    injection hy with hy
    subst hy
    have hle := Res.require_eq_ok.1 hle
    simp only [decide_eq_true_eq] at hle
    rw [i64_toInt (by omega) (by omega)]
    rcases hni with hni | hni
    · obtain ⟨b, H, ha, -⟩ := (hd_inv hr' (by omega)).1 hni
      refine ⟨b, .std (.inr ⟨by omega, ?_⟩), ha⟩
      rw [hm1] at H
      have e : (-1 - (-1 - (hd.val : Int))).toNat = hd.val := by omega
      rw [e]; exact H
    · obtain ⟨ha, -⟩ := (hd_inv hr' (by omega)).2 hni
      rw [indef_val hr' (by omega) hni]
      rw [hm1] at ha
      exact ⟨_, .minusOne rfl, ha⟩

theorem decodeF16_lt (x : Nat) : decodeF16 x < 2 ^ 64 := by
  unfold decodeF16
  generalize decide (x / 2 ^ 15 % 2 = 1) = neg
  generalize he : x / 2 ^ 10 % 2 ^ 5 = e
  generalize hm : x % 2 ^ 10 = m
  have hs : (if neg then 2 ^ 63 else 0) ≤ 2 ^ 63 := by cases neg <;> simp
  have he' : e < 2 ^ 5 := by omega
  by_cases h1 : e = 0
  · rw [if_pos h1]
    by_cases h2 : m = 0
    · rw [if_pos h2]; omega
    · rw [if_neg h2]
      have := log2_lt_of (n := m) (k := 10) (by omega) (by omega)
      exact mkDouble_lt neg m 1050 (by omega) (by omega) (by omega)
  · rw [if_neg h1]
    by_cases h2 : e = 31
    · rw [if_pos h2]
      by_cases h3 : m = 0
      · rw [if_neg (by simpa using h3)]; omega
      · rw [if_pos h3]; omega
    · rw [if_neg h2]
      have hl : Nat.log2 (1024 + m) = 10 := log2_eq_of (by omega) (by omega)
      exact mkDouble_lt neg _ _ (by omega) (by omega) (by omega)

theorem asDouble_inv {v : Bytes} {p : Nat} {d : UInt64} (h : View.asDouble ⟨v, p⟩ = .ok d) : ∃ c, EncDbl d.toNat c ∧ At v p c := by
  obtain ⟨hd, hr, h⟩ := Res.bind_eq_ok.1 h
  obtain ⟨fl, hfl, h⟩ := Res.bind_eq_ok.1 h
  obtain ⟨_, hq, h⟩ := Res.bind_eq_ok.1 h
  unfold View.isFloat at hfl
  rw [hr, Res.ok_bind] at hfl
  injection hfl with hfl
  have hq := Res.require_eq_ok.1 hq
  rw [← hfl, decide_eq_true_eq] at hq
  have hr' : readHead false v p = .ok hd := hr
  obtain ⟨ha, hl⟩ := simple_inv hr' hq.1
  have hl := hl (by omega)
  dsimp only at h
  rw [hl] at h
  split at h
  · rename_i h25
    obtain ⟨x, hx, h⟩ := Res.bind_eq_ok.1 h
    obtain ⟨y, hy, h⟩ := Res.bind_eq_ok.1 h
    injection h with h
    subst h
    have hg : getBe v (p + 1) 2 0 = .ok (x * 256 + y) := by
      simp only [getBe, hx, hy, Res.ok_bind, Res.pure_eq, Nat.zero_mul, Nat.zero_add]
    obtain ⟨hlt, hb⟩ := getBe_inv (by omega) hg
    rw [h25] at ha
    rw [u64_toNat (decodeF16_lt _)]
    exact ⟨_, .f16 hlt rfl, at_cons ha hb⟩
  split at h
  · rename_i h26
    obtain ⟨x, hx, h⟩ := Res.bind_eq_ok.1 h
    injection h with h
    subst h
    obtain ⟨hlt, hb⟩ := getBe_inv (by omega) hx
    rw [h26] at ha
    rw [u64_toNat (widen32_lt _)]
    exact ⟨_, .f32 hlt rfl, at_cons ha hb⟩
  · obtain ⟨x, hx, h⟩ := Res.bind_eq_ok.1 h
    injection h with h
    subst h
    obtain ⟨hlt, hb⟩ := getBe_inv (by omega) hx
    rw [show hd.addl = 27 by omega] at ha
    rw [u64_toNat hlt]
    exact ⟨_, .f64, at_cons ha hb⟩

/-! ## Containers -/

section
variable {v : Bytes} (hv : v.length < 2 ^ 63) {f : Nat} (hf : v.length < f)
include hv hf

theorem skip_encL {x : Val} {c : Bytes} (h : EncL x c) {q : Nat} (ha : At v q c) (raw : Bool) : skip raw v f q = .ok (q + c.length) := by
  have := ha.bound
  exact (EncL.item x h).skip raw (by omega) ha (by omega)

theorem skip_textL {s c : Bytes} (h : Text true 3 s c) {q : Nat} (ha : At v q c) (raw : Bool) : skip raw v f q = .ok (q + c.length) := by
  have := ha.bound
  exact (ItemL.str (.inr rfl) h).skip raw (by omega) ha (by omega)

theorem encLList_of_items : ∀ (xs : List Val) (q : Nat), q ≤ v.length →
    (∀ i (hi : i < xs.length), ∃ o c, items (skip false v f) i q = .ok o ∧ At v o c ∧ EncL xs[i] c) →
    ∃ cs, EncLList xs cs ∧ At v q cs.flatten
  | [], q, hq, _ => ⟨[], by simp [EncLList], ⟨v.take q, v.drop q, by simp, by simp; omega⟩⟩
  | x :: xs, q, hq, h => by
    obtain ⟨o, c, h1, h2, h3⟩ := h 0 (by simp)
    injection h1 with h1
    subst h1
    have hs := skip_encL hv hf (x := x) h3 h2 false
    have hb := h2.bound
    obtain ⟨cs, g1, g2⟩ := encLList_of_items xs (q + c.length) hb (by
      intro i hi
      obtain ⟨o, c', k1, k2, k3⟩ := h (i + 1) (by simpa using hi)
      simp only [items, hs, Res.ok_bind] at k1
      exact ⟨o, c', k1, k2, k3⟩)
    exact ⟨c :: cs, by simp only [EncLList]; exact ⟨c, cs, h3, g1, rfl⟩, At.split.2 ⟨h2, g2⟩⟩

theorem encLList_of_break : ∀ (xs : List Val) (i q g g' : Nat), View.countB f v g q = .ok xs.length →
    (∀ j (hj : j < xs.length), ∃ o c, View.getIdxB f v (i + j) g' i q = .ok ⟨v, o⟩ ∧ At v o c ∧ EncL xs[j] c) →
    ∃ cs, EncLList xs cs ∧ At v q (cs.flatten ++ [0xff])
  | xs, i, q, 0, g', hc, _ => by cases hc
  | [], i, q, g + 1, g', hc, _ => by
    simp only [View.countB] at hc
    obtain ⟨_, -, hc⟩ := Res.bind_eq_ok.1 hc
    obtain ⟨y, hy, hc⟩ := Res.bind_eq_ok.1 hc
    obtain ⟨b, rfl, hb⟩ := at_of_byte hy
    split at hc
    · rename_i e
      rw [byte_eq e] at hb
      exact ⟨[], by simp [EncLList], hb⟩
    · obtain ⟨_, -, hc⟩ := Res.bind_eq_ok.1 hc
      obtain ⟨_, -, hc⟩ := Res.bind_eq_ok.1 hc
      injection hc with hc
      simp at hc
  | x :: xs, i, q, g + 1, g', hc, h => by
    simp only [View.countB] at hc
    obtain ⟨_, hq, hc⟩ := Res.bind_eq_ok.1 hc
    obtain ⟨y, hy, hc⟩ := Res.bind_eq_ok.1 hc
    split at hc
    · injection hc with hc; simp at hc
    rename_i hne
    obtain ⟨q1, h1, hc⟩ := Res.bind_eq_ok.1 hc
    obtain ⟨n, h2, hc⟩ := Res.bind_eq_ok.1 hc
    injection hc with hc
    simp only [List.length_cons, Nat.add_right_cancel_iff] at hc
    subst hc
    obtain ⟨o, c, k1, k2, k3⟩ := h 0 (by simp)
    cases g' with
    | zero => cases k1
    | succ g' =>
      simp only [View.getIdxB, hq, hy, Res.ok_bind, if_neg hne, Nat.add_zero, if_true, Res.pure_eq, Res.ok.injEq, View.mk.injEq,
        true_and] at k1
      subst k1
      have hs := skip_encL hv hf (x := x) k3 k2 false
      rw [hs] at h1
      injection h1 with h1
      subst h1
      obtain ⟨cs, g1, g2⟩ := encLList_of_break xs (i + 1) (q + c.length) g g' h2 (by
        intro j hj
        obtain ⟨o, c', m1, m2, m3⟩ := h (j + 1) (by simpa using hj)
        simp only [View.getIdxB, hq, hy, Res.ok_bind, if_neg hne, if_neg (show ¬ i = i + (j + 1) by omega), hs] at m1
        rw [show i + (j + 1) = i + 1 + j by omega] at m1
        exact ⟨o, c', m1, m2, m3⟩)
      exact ⟨c :: cs, by simp only [EncLList]; exact ⟨c, cs, k3, g1, rfl⟩, by
        rw [List.flatten_cons, List.append_assoc]; exact At.split.2 ⟨k2, g2⟩⟩
end

/-- The keys of a map, as listed or as seen before an exception. -/
def keysRun (ind hard : Bool) (f : Nat) (v : Bytes) (indef : Bool) (stop g q n : Nat) : Res (List Bytes) :=
  if ind then keysSeenFrom hard f v indef stop g q n else View.keysFrom hard f v indef stop g q n

theorem keysRun_nil {ind hard : Bool} {f : Nat} {v : Bytes} {indef : Bool} {stop g q n : Nat} {k : Bytes}
    (h : keysRun ind hard f v indef stop g q n = .ok []) (hk : View.keyDeref hard f v q = .ok k) : q = stop := by
  unfold keysRun at h
  cases g with
  | zero => cases ind <;> cases h
  | succ g =>
    by_cases e : q = stop
    · exact e
    · exfalso
      cases ind
      · simp only [Bool.false_eq_true, if_false, View.keysFrom, if_neg e, hk, Res.ok_bind] at h
        obtain ⟨_, _, h⟩ := Res.bind_eq_ok.1 h
        obtain ⟨_, _, h⟩ := Res.bind_eq_ok.1 h
        injection h with h; cases h
      · simp only [if_true, keysSeenFrom, if_neg e, hk, Res.ok_bind] at h
        obtain ⟨_, _, h⟩ := Res.bind_eq_ok.1 h
        obtain ⟨_, _, h⟩ := Res.bind_eq_ok.1 h
        injection h with h; cases h

theorem keysRun_cons {ind hard : Bool} {f : Nat} {v : Bytes} {indef : Bool} {stop g q n : Nat} {k : Bytes} {ks : List Bytes}
    (h : keysRun ind hard f v indef stop g q n = .ok (k :: ks)) : q ≠ stop ∧ View.keyDeref hard f v q = .ok k ∧
      ∃ g' q' n', View.keyNext f v indef q n = .ok (q', n') ∧ keysRun ind hard f v indef stop g' q' n' = .ok ks := by
  unfold keysRun at h
  cases g with
  | zero => cases ind <;> cases h
  | succ g =>
    cases ind
    · simp only [Bool.false_eq_true, if_false, View.keysFrom] at h
      split at h
      · injection h with h; cases h
      rename_i e
      obtain ⟨k', h1, h⟩ := Res.bind_eq_ok.1 h
      obtain ⟨⟨q', n'⟩, h2, h⟩ := Res.bind_eq_ok.1 h
      obtain ⟨ks', h3, h⟩ := Res.bind_eq_ok.1 h
      injection h with h
      simp only [List.cons.injEq] at h
      obtain ⟨rfl, rfl⟩ := h
      exact ⟨e, h1, g, q', n', h2, h3⟩
    · simp only [if_true, keysSeenFrom] at h
      split at h
      · injection h with h; cases h
      rename_i e
      cases hkd : View.keyDeref hard f v q with
      | err e => rw [hkd] at h; injection h with h; cases h
      | ub => rw [hkd] at h; cases h
      | diverge => rw [hkd] at h; cases h
      | ok k' =>
        simp only [hkd, Res.ok_bind] at h
        obtain ⟨⟨q', n'⟩, h2, h⟩ := Res.bind_eq_ok.1 h
        obtain ⟨ks', h3, h⟩ := Res.bind_eq_ok.1 h
        injection h with h
        simp only [List.cons.injEq] at h
        obtain ⟨rfl, rfl⟩ := h
        exact ⟨e, rfl, g, q', n', h2, h3⟩

theorem getIdxB_view {f : Nat} {v : Bytes} {idx : Nat} : ∀ (g i q : Nat) {c : View}, View.getIdxB f v idx g i q = .ok c → ∃ o, c = ⟨v, o⟩
  | 0, _, _, _, h => by cases h
  | g + 1, i, q, c, h => by
    simp only [View.getIdxB] at h
    obtain ⟨_, -, h⟩ := Res.bind_eq_ok.1 h
    obtain ⟨y, -, h⟩ := Res.bind_eq_ok.1 h
    split at h
    · cases h
    split at h
    · injection h with h; exact ⟨q, h.symm⟩
    · obtain ⟨q1, -, h⟩ := Res.bind_eq_ok.1 h
      exact getIdxB_view g _ _ h

theorem getKeyN_view {hard : Bool} {f : Nat} {v key : Bytes} : ∀ (n q : Nat) {c : View}, View.getKeyN hard f v key n q = .ok c → ∃ o, c = ⟨v, o⟩
  | 0, _, _, h => by cases h
  | n + 1, q, c, h => by
    simp only [View.getKeyN] at h
    obtain ⟨_, -, h⟩ := Res.bind_eq_ok.1 h
    obtain ⟨y, -, h⟩ := Res.bind_eq_ok.1 h
    split at h
    · injection h with h; exact ⟨y, h.symm⟩
    · obtain ⟨q1, -, h⟩ := Res.bind_eq_ok.1 h
      exact getKeyN_view n _ h

theorem getKeyB_view {hard : Bool} {f : Nat} {v key : Bytes} : ∀ (g q : Nat) {c : View}, View.getKeyB hard f v key g q = .ok c → ∃ o, c = ⟨v, o⟩
  | 0, _, _, h => by cases h
  | g + 1, q, c, h => by
    simp only [View.getKeyB] at h
    obtain ⟨_, -, h⟩ := Res.bind_eq_ok.1 h
    obtain ⟨_, -, h⟩ := Res.bind_eq_ok.1 h
    split at h
    · cases h
    obtain ⟨_, -, h⟩ := Res.bind_eq_ok.1 h
    obtain ⟨y, -, h⟩ := Res.bind_eq_ok.1 h
    split at h
    · injection h with h; exact ⟨y, h.symm⟩
    · obtain ⟨q1, -, h⟩ := Res.bind_eq_ok.1 h
      exact getKeyB_view g _ h

theorem exists_absent (ks : List Bytes) : ∃ key, key ∉ ks := by
  have : ∀ ks : List Bytes, ∃ n, ∀ k ∈ ks, k.length < n := by
    intro ks
    induction ks with
    | nil => exact ⟨0, by simp⟩
    | cons k ks ih =>
      obtain ⟨n, h⟩ := ih
      refine ⟨max n (k.length + 1), fun k' hk' => ?_⟩
      rcases List.mem_cons.1 hk' with rfl | hk'
      · omega
      · have := h k' hk'; omega
  obtain ⟨n, h⟩ := this ks
  exact ⟨List.replicate n 0, fun hk => by have := h _ hk; simp at this⟩

theorem Text.any {ind : Bool} {m : Nat} {s b : Bytes} (h : Text ind m s b) : Text true m s b := by
  cases h with
  | definite h => exact .definite h
  | chunked _ h => exact .chunked rfl h

theorem Group.any {ind : Bool} {m n : Nat} {c b : Bytes} (h : Group ind m n c b) : Group true m n c b := by
  cases h with
  | definite h => exact .definite h
  | indef _ => exact .indef rfl

section
variable {v : Bytes} (hn : NoHugeAll v) (hv : v.length < 2 ^ 63) {f : Nat} (hf : v.length < f) {ind hard : Bool}
include hn hv hf

theorem encLEntries_of_count {stop : Nat} {key : Bytes} : ∀ (ms : List (Bytes × Val)) (n q g : Nat), q ≤ v.length →
    (ms.map Prod.fst).Nodup → items (skip true v f) (2 * n) q = .ok stop →
    keysRun ind hard f v false stop g q n = .ok (ms.map Prod.fst) → View.containsN hard f v key n q = .ok false →
    (∀ k x, (k, x) ∈ ms → ∃ o c, View.getKeyN hard f v k n q = .ok ⟨v, o⟩ ∧ At v o c ∧ EncL x c) →
    n = ms.length ∧ ∃ cs, EncLEntries ms cs ∧ At v q cs.flatten
  | [], n, q, g, hq, _, hs, hk, hc, _ => by
    refine ⟨?_, [], by simp [EncLEntries], ⟨v.take q, v.drop q, by simp, by simp; omega⟩⟩
    cases n with
    | zero => rfl
    | succ n =>
      exfalso
      simp only [View.containsN] at hc
      obtain ⟨k, h1, -⟩ := Res.bind_eq_ok.1 hc
      have e := keysRun_nil hk (keyDeref_of_asString (asString_of_keyAt h1))
      have := ((items_adv (fun q _ => skip_adv hn hv f q (by omega)) (2 * (n + 1)) q (Nat.zero_le _)).2 _ hs).2 (by omega)
      omega
  | (k, x) :: ms, n, q, g, hq, hnd, hs, hk, hc, hg => by
    simp only [List.map_cons, List.nodup_cons] at hnd
    obtain ⟨hne, hkd, g', q', n', hnx, hk'⟩ := keysRun_cons hk
    cases n with
    | zero =>
      simp only [items, Res.pure_eq, Res.ok.injEq] at hs
      exact absurd hs hne
    | succ n =>
      obtain ⟨o, c, h1, h2, h3⟩ := hg k x (by simp)
      simp only [View.getKeyN] at h1
      obtain ⟨k1, hks, h1⟩ := Res.bind_eq_ok.1 h1
      have e : k1 = k := by
        have := keyDeref_of_asString hks
        rw [hkd] at this
        injection this with this
        exact this.symm
      subst e
      obtain ⟨ck, T, ha⟩ := asString_inv (by omega) hks
      have sk : ∀ raw, skip raw v f q = .ok (q + ck.length) := skip_textL hv hf T ha
      rw [sk, Res.ok_bind, if_pos rfl] at h1
      injection h1 with h1
      simp only [View.mk.injEq, true_and] at h1
      subst h1
      have sv : ∀ raw, skip raw v f (q + ck.length) = .ok (q + ck.length + c.length) := skip_encL hv hf h3 h2
      have hb := h2.bound
      simp only [View.keyNext, Bool.false_eq_true, if_false, if_neg (Nat.succ_ne_zero n), sk, sv, Res.ok_bind, Res.pure_eq,
        Nat.add_sub_cancel, Res.ok.injEq, Prod.mk.injEq] at hnx
      obtain ⟨rfl, rfl⟩ := hnx
      rw [show 2 * (n + 1) = 2 * n + 1 + 1 by omega] at hs
      simp only [items, sk, sv, Res.ok_bind] at hs
      simp only [View.containsN, keyAt_of_asString hks, sk, sv, Res.ok_bind] at hc
      split at hc
      · injection hc with hc; cases hc
      obtain ⟨e, cs, g1, g2⟩ := encLEntries_of_count ms n _ g' hb hnd.2 hs hk' hc (by
        intro k' y hy
        obtain ⟨o, c', m1, m2, m3⟩ := hg k' y (by simp [hy])
        have hne : ¬ k1 = k' := fun e => hnd.1 (e ▸ List.mem_map_of_mem (f := Prod.fst) hy)
        simp only [View.getKeyN, hks, sk, sv, Res.ok_bind, if_neg hne] at m1
        exact ⟨o, c', m1, m2, m3⟩)
      refine ⟨by simp [e], ck :: c :: cs, by simp only [EncLEntries]; exact ⟨ck, c, cs, T, h3, g1, rfl⟩, ?_⟩
      exact At.split.2 ⟨ha, At.split.2 ⟨h2, g2⟩⟩

theorem encLEntries_of_break {stop : Nat} {key : Bytes} : ∀ (ms : List (Bytes × Val)) (q g g1 g2 g3 n : Nat),
    v.length - q < g1 → (ms.map Prod.fst).Nodup → untilBreak true v (skip true v f) 2 g1 q = .ok stop →
    keysRun ind hard f v true stop g q n = .ok (ms.map Prod.fst) → View.containsB hard f v key g2 q = .ok false →
    (∀ k x, (k, x) ∈ ms → ∃ o c, View.getKeyB hard f v k g3 q = .ok ⟨v, o⟩ ∧ At v o c ∧ EncL x c) →
    ∃ cs, EncLEntries ms cs ∧ At v q (cs.flatten ++ [0xff])
  | [], q, g, g1, g2, g3, n, hl, _, hs, hk, hc, _ => by
    cases g2 with
    | zero => cases hc
    | succ g2 =>
      simp only [View.containsB] at hc
      obtain ⟨_, -, hc⟩ := Res.bind_eq_ok.1 hc
      obtain ⟨y, hy, hc⟩ := Res.bind_eq_ok.1 hc
      obtain ⟨b, rfl, hb⟩ := at_of_byte hy
      split at hc
      · rename_i e
        rw [byte_eq e] at hb
        exact ⟨[], by simp [EncLEntries], hb⟩
      · exfalso
        obtain ⟨k, h1, -⟩ := Res.bind_eq_ok.1 hc
        have e := keysRun_nil hk (keyDeref_of_asString h1)
        have := (untilBreak_adv (raw := true) (v := v) (rec := skip true v f) (q0 := 0) (k := 2) (by omega)
          (fun q _ => skip_adv hn hv f q (by omega)) g1 q hl (Nat.zero_le _)).2 _ hs
        omega
  | (k, x) :: ms, q, g, g1, g2, g3, n, hl, hnd, hs, hk, hc, hg => by
    simp only [List.map_cons, List.nodup_cons] at hnd
    obtain ⟨hne, hkd, g', q', n', hnx, hk'⟩ := keysRun_cons hk
    obtain ⟨o, c, h1, h2, h3⟩ := hg k x (by simp)
    cases g3 with
    | zero => cases h1
    | succ g3 =>
      simp only [View.getKeyB] at h1
      obtain ⟨_, hq, h1⟩ := Res.bind_eq_ok.1 h1
      obtain ⟨y, hy, h1⟩ := Res.bind_eq_ok.1 h1
      split at h1
      · cases h1
      rename_i hy'
      obtain ⟨k1, hks, h1⟩ := Res.bind_eq_ok.1 h1
      have e : k1 = k := by
        have := keyDeref_of_asString hks
        rw [hkd] at this
        injection this with this
        exact this.symm
      subst e
      obtain ⟨ck, T, ha⟩ := asString_inv (by omega) hks
      have sk : ∀ raw, skip raw v f q = .ok (q + ck.length) := skip_textL hv hf T ha
      rw [sk, Res.ok_bind, if_pos rfl] at h1
      injection h1 with h1
      simp only [View.mk.injEq, true_and] at h1
      subst h1
      have sv : ∀ raw, skip raw v f (q + ck.length) = .ok (q + ck.length + c.length) := skip_encL hv hf h3 h2
      have hb := h2.bound
      have hp := (EncL.item x h3).pos
      simp only [View.keyNext, if_true, hy, if_neg hy', sk, sv, Res.ok_bind, Res.pure_eq,
        Res.ok.injEq, Prod.mk.injEq] at hnx
      obtain ⟨rfl, rfl⟩ := hnx
      cases g1 with
      | zero => cases hs
      | succ g1 =>
        simp only [untilBreak, ensure, if_true, hy, if_neg hy', items, sk, sv, Res.ok_bind, Res.pure_eq] at hs
        cases g2 with
        | zero => cases hc
        | succ g2 =>
          simp only [View.containsB, hq, hy, if_neg hy', hks, sk, sv, Res.ok_bind] at hc
          split at hc
          · injection hc with hc; cases hc
          obtain ⟨cs, m1, m2⟩ := encLEntries_of_break ms (q + ck.length + c.length) g' g1 g2 g3 _ (by omega) hnd.2 hs hk' hc (by
            intro k' y hy2
            obtain ⟨o, c', m1, m2, m3⟩ := hg k' y (by simp [hy2])
            have hne : ¬ k1 = k' := fun e => hnd.1 (e ▸ List.mem_map_of_mem (f := Prod.fst) hy2)
            simp only [View.getKeyB, hq, hy, if_neg hy', hks, sk, sv, Res.ok_bind, if_neg hne] at m1
            exact ⟨o, c', m1, m2, m3⟩)
          refine ⟨ck :: c :: cs, by simp only [EncLEntries]; exact ⟨ck, c, cs, T, h3, m1, rfl⟩, ?_⟩
          rw [List.flatten_cons, List.append_assoc, List.flatten_cons, List.append_assoc]
          exact At.split.2 ⟨ha, At.split.2 ⟨h2, m2⟩⟩

/-- A position that presents a value is the start of one of its encodings. -/
theorem enc_of_agrees : ∀ (x : Val), x.Distinct → ∀ (p : Nat), (readerI ind hard f).Agrees ⟨v, p⟩ x → ∃ c, At v p c ∧ EncL x c := by
  intro x
  induction x using Val.ind with
  | null =>
    intro _ p h
    cases h with
    | null hs =>
      have h1 : View.isNull ⟨v, p⟩ = .ok true := by have := hs.1; cases ind <;> exact this
      obtain ⟨hd, hr, h1⟩ := Res.bind_eq_ok.1 h1
      injection h1 with h1
      simp only [decide_eq_true_eq] at h1
      have ha := (simple_inv hr h1.1).1
      rw [h1.2] at ha
      exact ⟨_, ha, by simp only [EncL]; rfl⟩
  | bool b =>
    intro _ p h
    cases h with
    | bool hs hb =>
      have h1 : View.asBool ⟨v, p⟩ = .ok b := by cases ind <;> exact hb
      obtain ⟨hd, hr, h1⟩ := Res.bind_eq_ok.1 h1
      obtain ⟨_, hq, h1⟩ := Res.bind_eq_ok.1 h1
      have hq := Res.require_eq_ok.1 hq
      simp only [decide_eq_true_eq] at hq
      injection h1 with h1
      have ha := (simple_inv hr hq.1).1
      rcases hq.2 with h2 | h2
      · rw [h2] at ha h1
        subst h1
        exact ⟨_, ha, by simp only [EncL]; rfl⟩
      · rw [h2] at ha h1
        subst h1
        exact ⟨_, ha, by simp only [EncL]; rfl⟩
  | int i =>
    intro _ p h
    cases h with
    | int hs _ =>
      obtain ⟨c, h1, h2⟩ := showsInt_inv hs
      exact ⟨c, h2, by simp only [EncL]; exact h1⟩
  | uint n =>
    intro _ p h
    cases h with
    | uint hs _ =>
      obtain ⟨c, h1, h2⟩ := showsInt_inv hs
      exact ⟨c, h2, by simp only [EncL]; exact h1⟩
  | dbl d =>
    intro _ p h
    cases h with
    | dbl hs hb =>
      obtain ⟨c, h1, h2⟩ := asDouble_inv (v := v) (p := p) (d := d) (by cases ind <;> exact hb)
      exact ⟨c, h2, by simp only [EncL]; exact h1⟩
  | str s =>
    intro _ p h
    cases h with
    | str hs ha _ =>
      obtain ⟨c, h1, h2⟩ := asString_inv (hard := hard) (v := v) (by omega) (p := p) (f := f) (s := s) (by cases ind <;> exact ha)
      exact ⟨c, h2, by simp only [EncL]; exact h1⟩
  | blob s =>
    intro _ p h
    cases h with
    | blob hs ha _ =>
      have ha : View.asBlobVec hard f ⟨v, p⟩ = .ok s := by
        cases ind
        · exact asBlob_vec ha
        · exact ha
      obtain ⟨c, h1, h2⟩ := asBlobVec_inv (by omega) ha
      exact ⟨c, h2, by simp only [EncL]; exact h1⟩
  | arr xs ih =>
    intro hd p h
    cases h with
    | arr child hs hn' hg _ hc =>
      have hn' : View.arraySize f ⟨v, p⟩ = .ok xs.length := by cases ind <;> exact hn'
      have hg : ∀ i, i < xs.length → View.getIdx f ⟨v, p⟩ i = .ok (child i) := by cases ind <;> exact hg
      obtain ⟨h, hr, hn'⟩ := Res.bind_eq_ok.1 hn'
      obtain ⟨_, hq, hn'⟩ := Res.bind_eq_ok.1 hn'
      have hm : h.major = 4 := by simpa [Res.require_eq_ok] using hq
      have hr' : readHead false v p = .ok h := hr
      have hch : ∀ i (hi : i < xs.length) o, child i = ⟨v, o⟩ → ∃ c, At v o c ∧ EncL xs[i] c := fun i hi o e =>
        ih xs[i] (List.getElem_mem hi) ((Val.distinctList_iff xs).1 hd _ (List.getElem_mem hi)) o (e ▸ hc i hi)
      have hni : h.indef = false ∨ h.indef = true := by cases h.indef <;> simp
      rcases hni with hni | hni
      · simp only [hni, Bool.false_eq_true, if_false, Res.pure_eq, Res.ok.injEq] at hn'
        obtain ⟨b, H, ha, hl⟩ := (hd_inv hr' (by omega)).1 hni
        have hb := ha.bound
        obtain ⟨cs, g1, g2⟩ := encLList_of_items hv hf xs (p + h.hlen) (by omega) (by
          intro i hi
          have hgi := hg i hi
          unfold View.getIdx at hgi
          rw [hr, Res.ok_bind, hq, Res.ok_bind] at hgi
          simp only [hni, Bool.false_eq_true, if_false] at hgi
          obtain ⟨_, -, hgi⟩ := Res.bind_eq_ok.1 hgi
          obtain ⟨o, ho, hgi⟩ := Res.bind_eq_ok.1 hgi
          injection hgi with hgi
          obtain ⟨c, k1, k2⟩ := hch i hi o hgi.symm
          exact ⟨o, c, ho, k1, k2⟩)
        rw [hn', hm] at H
        refine ⟨b ++ cs.flatten, At.split.2 ⟨ha, by rw [hl]; exact g2⟩, ?_⟩
        simp only [EncL]
        exact ⟨cs, g1, .definite H⟩
      · simp only [hni, if_true] at hn'
        obtain ⟨ha, hl⟩ := (hd_inv hr' (by omega)).2 hni
        rw [hl] at hn'
        obtain ⟨cs, g1, g2⟩ := encLList_of_break hv hf xs 0 (p + 1) f f hn' (by
          intro i hi
          have hgi := hg i hi
          unfold View.getIdx at hgi
          rw [hr, Res.ok_bind, hq, Res.ok_bind] at hgi
          simp only [hni, if_true, hl] at hgi
          obtain ⟨o, ho⟩ := getIdxB_view _ _ _ hgi
          obtain ⟨c, k1, k2⟩ := hch i hi o ho
          exact ⟨o, c, by rw [Nat.zero_add, hgi, ho], k1, k2⟩)
        rw [hm] at ha
        refine ⟨_, at_cons ha g2, ?_⟩
        simp only [EncL]
        exact ⟨cs, g1, .indef rfl⟩
  | map ms ih =>
    intro hd p h
    cases h with
    | map child hs hk hct hg _ hc =>
      have hct : ∀ k, View.contains hard f ⟨v, p⟩ k = .ok (decide (k ∈ ms.map Prod.fst)) := by cases ind <;> exact hct
      have hg : ∀ k, k ∈ ms.map Prod.fst → View.getKey hard f ⟨v, p⟩ k = .ok (child k) := by cases ind <;> exact hg
      obtain ⟨key, hkey⟩ : ∃ key, key ∉ ms.map Prod.fst := exists_absent _
      have hct := hct key
      rw [decide_eq_false hkey] at hct
      obtain ⟨h, hr, hct⟩ := Res.bind_eq_ok.1 hct
      have hr' : readHead false v p = .ok h := hr
      have hmap : View.isMap ⟨v, p⟩ = .ok true := by have := hs.2.2.2.2.2.2.1; cases ind <;> exact this
      have hm : h.major = 5 := by
        unfold View.isMap at hmap
        rw [hr, Res.ok_bind] at hmap
        injection hmap with hmap
        simpa using hmap
      rw [if_pos hm] at hct
      dsimp only at hct
      have hrr : readHead true v p = .ok h := le_readHead_raw _ _ _ hr'
      obtain ⟨stop, hst, hk⟩ : ∃ stop, View.keysEnd f v p = .ok stop ∧
          keysRun ind hard f v h.indef stop f (p + h.hlen) (if h.indef then 0 else h.val) = .ok (ms.map Prod.fst) := by
        cases ind
        · have hk : View.mapKeys hard f ⟨v, p⟩ = .ok (ms.map Prod.fst) := hk
          unfold View.mapKeys at hk
          rw [hr, Res.ok_bind, hm] at hk
          simp only [decide_true, Res.require_true, Res.ok_bind, hrr] at hk
          obtain ⟨stop, h1, h2⟩ := Res.bind_eq_ok.1 hk
          exact ⟨stop, h1, h2⟩
        · have hk : keysSeen hard f ⟨v, p⟩ = .ok (ms.map Prod.fst) := hk
          unfold keysSeen at hk
          rw [hr, Res.ok_bind, hm] at hk
          simp only [decide_true, Res.require_true, Res.ok_bind, hrr] at hk
          obtain ⟨stop, h1, h2⟩ := Res.bind_eq_ok.1 hk
          exact ⟨stop, h1, h2⟩
      unfold View.keysEnd at hst
      rw [hrr, Res.ok_bind] at hst
      dsimp only at hst
      have hch : ∀ k y, (k, y) ∈ ms → ∀ o, child k = ⟨v, o⟩ → ∃ c, At v o c ∧ EncL y c := fun k y hy o e =>
        ih (k, y) hy ((Val.distinctEntries_iff ms).1 hd.2 _ hy) o (e ▸ hc k y (firstVal_of_nodup hd.1 hy))
      have hni : h.indef = false ∨ h.indef = true := by cases h.indef <;> simp
      rcases hni with hni | hni
      · simp only [hni, Bool.false_eq_true, if_false] at hct hk hst
        obtain ⟨b, H, ha, hl⟩ := (hd_inv hr' (by omega)).1 hni
        have hb := ha.bound
        obtain ⟨e, cs, g1, g2⟩ := encLEntries_of_count hn hv hf ms _ (p + h.hlen) _ (by omega) hd.1 hst hk hct (by
          intro k y hy
          have hgk := hg k (List.mem_map_of_mem (f := Prod.fst) hy)
          unfold View.getKey at hgk
          rw [hr, Res.ok_bind, hm] at hgk
          simp only [decide_true, Res.require_true, Res.ok_bind, hni, Bool.false_eq_true, if_false] at hgk
          obtain ⟨o, ho⟩ := getKeyN_view _ _ hgk
          obtain ⟨c, k1, k2⟩ := hch k y hy o ho
          exact ⟨o, c, by rw [hgk, ho], k1, k2⟩)
        rw [e, hm] at H
        refine ⟨b ++ cs.flatten, At.split.2 ⟨ha, by rw [hl]; exact g2⟩, ?_⟩
        simp only [EncL]
        exact ⟨cs, g1, .definite H⟩
      · simp only [hni, if_true] at hct hk hst
        obtain ⟨ha, hl⟩ := (hd_inv hr' (by omega)).2 hni
        rw [hl] at hct hk hst
        obtain ⟨cs, g1, g2⟩ := encLEntries_of_break hn hv hf ms (p + 1) f f f f 0 (by omega) hd.1 hst hk hct (by
          intro k y hy
          have hgk := hg k (List.mem_map_of_mem (f := Prod.fst) hy)
          unfold View.getKey at hgk
          rw [hr, Res.ok_bind, hm] at hgk
          simp only [decide_true, Res.require_true, Res.ok_bind, hni, if_true, hl] at hgk
          obtain ⟨o, ho⟩ := getKeyB_view _ _ hgk
          obtain ⟨c, k1, k2⟩ := hch k y hy o ho
          exact ⟨o, c, by rw [hgk, ho], k1, k2⟩)
        rw [hm] at ha
        refine ⟨_, at_cons ha g2, ?_⟩
        simp only [EncL]
        exact ⟨cs, g1, .indef rfl⟩

end

/-! ## The dialect and the format -/

mutual
theorem EncL.of_enc {ind : Bool} : ∀ (v : Val) {b : Bytes}, Enc ind v b → EncL v b
  | .null, b, h => by simpa only [Enc, EncL] using h
  | .bool x, b, h => by simpa only [Enc, EncL] using h
  | .int i, b, h => by simp only [Enc] at h; simp only [EncL]; exact .std h
  | .uint n, b, h => by simp only [Enc] at h; simp only [EncL]; exact .std h
  | .dbl d, b, h => by simpa only [Enc, EncL] using h
  | .str s, b, h => by simp only [Enc] at h; simp only [EncL]; exact h.any
  | .blob s, b, h => by simp only [Enc] at h; simp only [EncL]; exact h.any
  | .arr xs, b, h => by
    simp only [Enc] at h
    obtain ⟨cs, h1, h2⟩ := h
    simp only [EncL]
    exact ⟨cs, EncLList.of_enc xs h1, h2.any⟩
  | .map ms, b, h => by
    simp only [Enc] at h
    obtain ⟨cs, h1, h2⟩ := h
    simp only [EncL]
    exact ⟨cs, EncLEntries.of_enc ms h1, h2.any⟩
theorem EncLList.of_enc {ind : Bool} : ∀ (xs : List Val) {cs : List Bytes}, EncList ind xs cs → EncLList xs cs
  | [], cs, h => by simpa only [EncList, EncLList] using h
  | x :: xs, cs, h => by
    simp only [EncList] at h
    obtain ⟨c, cs', h1, h2, rfl⟩ := h
    simp only [EncLList]
    exact ⟨c, cs', EncL.of_enc x h1, EncLList.of_enc xs h2, rfl⟩
theorem EncLEntries.of_enc {ind : Bool} : ∀ (ms : List (Bytes × Val)) {cs : List Bytes}, EncEntries ind ms cs → EncLEntries ms cs
  | [], cs, h => by simpa only [EncEntries, EncLEntries] using h
  | (k, v) :: ms, cs, h => by
    simp only [EncEntries] at h
    obtain ⟨ck, c, cs', h0, h1, h2, rfl⟩ := h
    simp only [EncLEntries]
    exact ⟨ck, c, cs', h0.any, EncL.of_enc v h1, EncLEntries.of_enc ms h2, rfl⟩
end

/-- Neither of the two reserved bytes. -/
def Plain (b : Bytes) : Prop := (0x1f : UInt8) ∉ b ∧ (0x3f : UInt8) ∉ b

theorem Plain.sub {b c : Bytes} (h : Plain b) (hs : ∀ x ∈ c, x ∈ b) : Plain c := ⟨fun e => h.1 (hs _ e), fun e => h.2 (hs _ e)⟩

theorem EncIntL.enc {z : Int} {b : Bytes} (h : EncIntL z b) (hp : Plain b) : EncInt z b := by
  cases h with
  | std h => exact h
  | zero => exact absurd (by simp) hp.1
  | minusOne => exact absurd (by simp) hp.2

theorem Group.content {ind : Bool} {m n : Nat} {c b : Bytes} (h : Group ind m n c b) : ∀ x ∈ c, x ∈ b := by
  cases h with
  | definite => intro x hx; simp [hx]
  | indef => intro x hx; simp [hx]

mutual
theorem EncL.enc : ∀ (v : Val) {b : Bytes}, EncL v b → Plain b → Enc true v b
  | .null, b, h, _ => by simpa only [Enc, EncL] using h
  | .bool x, b, h, _ => by simpa only [Enc, EncL] using h
  | .int i, b, h, hp => by simp only [EncL] at h; simp only [Enc]; exact h.enc hp
  | .uint n, b, h, hp => by simp only [EncL] at h; simp only [Enc]; exact h.enc hp
  | .dbl d, b, h, _ => by simpa only [Enc, EncL] using h
  | .str s, b, h, _ => by simpa only [Enc, EncL] using h
  | .blob s, b, h, _ => by simpa only [Enc, EncL] using h
  | .arr xs, b, h, hp => by
    simp only [EncL] at h
    obtain ⟨cs, h1, h2⟩ := h
    simp only [Enc]
    exact ⟨cs, EncLList.enc xs h1 (hp.sub h2.content), h2⟩
  | .map ms, b, h, hp => by
    simp only [EncL] at h
    obtain ⟨cs, h1, h2⟩ := h
    simp only [Enc]
    exact ⟨cs, EncLEntries.enc ms h1 (hp.sub h2.content), h2⟩
theorem EncLList.enc : ∀ (xs : List Val) {cs : List Bytes}, EncLList xs cs → Plain cs.flatten → EncList true xs cs
  | [], cs, h, _ => by simpa only [EncList, EncLList] using h
  | x :: xs, cs, h, hp => by
    simp only [EncLList] at h
    obtain ⟨c, cs', h1, h2, rfl⟩ := h
    simp only [EncList]
    exact ⟨c, cs', EncL.enc x h1 (hp.sub (by simp +contextual)), EncLList.enc xs h2 (hp.sub (by simp +contextual)), rfl⟩
theorem EncLEntries.enc : ∀ (ms : List (Bytes × Val)) {cs : List Bytes}, EncLEntries ms cs → Plain cs.flatten → EncEntries true ms cs
  | [], cs, h, _ => by simpa only [EncEntries, EncLEntries] using h
  | (k, v) :: ms, cs, h, hp => by
    simp only [EncLEntries] at h
    obtain ⟨ck, c, cs', h0, h1, h2, rfl⟩ := h
    simp only [EncEntries]
    exact ⟨ck, c, cs', h0, EncL.enc v h1 (hp.sub (by simp +contextual)), EncLEntries.enc ms h2 (hp.sub (by simp +contextual)), rfl⟩
end

end Zer.Cbor
