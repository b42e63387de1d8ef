import Verif.Cbor.Model
import Verif.Cbor.Format
import Verif.MsgPack.Skip

/-!
# CBOR: heads and skipping
-/

namespace Zer.Cbor

open MsgPack (be be_length)

/-! ## Bytes -/

theorem at_byte {v : Bytes} {p : Nat} {x : UInt8} {t : Bytes} (h : At v p (x :: t)) :
    byteAt v p = .ok x.toNat := by
  have := h.byteAt (i := 0) (by simp)
  simpa using this

theorem at_tail {v : Bytes} {p : Nat} {x : UInt8} {t : Bytes} (h : At v p (x :: t)) :
    At v (p + 1) t := by
  have : At v p ([x] ++ t) := h
  exact this.right

theorem at_lt {v : Bytes} {p : Nat} {x : UInt8} {t : Bytes} (h : At v p (x :: t)) :
    p < v.length := by
  have := h.bound; simp at this; omega

/-- The number a byte string denotes. -/
def num (acc : Nat) (bs : Bytes) : Nat := bs.foldl (fun a x => a * 256 + x.toNat) acc

theorem getBe_at : ∀ {bs : Bytes} {v : Bytes} {p acc : Nat}, At v p bs →
    getBe v p bs.length acc = .ok (num acc bs)
  | [], _, _, _, _ => rfl
  | x :: t, v, p, acc, h => by
    simp only [List.length_cons, getBe, at_byte h, Res.ok_bind]
    rw [getBe_at (at_tail h)]; rfl

theorem num_be (k n : Nat) : num 0 (be k n) = n % 256 ^ k := by
  induction k generalizing n with
  | zero => simp [be, num, Nat.mod_one]
  | succ k ih =>
    have e : num 0 (be (k + 1) n) = num 0 (be k (n / 256)) * 256 + n % 256 := by
      simp [be, num, List.foldl_append]
    rw [e, ih, Nat.pow_succ, Nat.mul_comm (256 ^ k) 256, Nat.mod_mul]
    omega

theorem getBe_be {v : Bytes} {p k n : Nat} (h : At v p (be k n)) (hn : n < 256 ^ k) :
    getBe v p k 0 = .ok n := by
  have := getBe_at (acc := 0) h
  rw [be_length, num_be, Nat.mod_eq_of_lt hn] at this
  exact this

@[simp] theorem ensure_true (raw : Bool) : ensure raw true = .ok () := by cases raw <;> rfl

theorem ensure_of {raw c : Bool} (h : c = true) : ensure raw c = .ok () := by subst h; simp

theorem ini_toNat {m a : Nat} (hm : m ≤ 7) (ha : a < 32) :
    (UInt8.ofNat (m * 32 + a)).toNat = m * 32 + a := by
  simp only [UInt8.toNat_ofNat']; omega

theorem ini_div {m a : Nat} (hm : m ≤ 7) (ha : a < 32) :
    (UInt8.ofNat (m * 32 + a)).toNat / 32 = m := by rw [ini_toNat hm ha]; omega

theorem ini_mod {m a : Nat} (hm : m ≤ 7) (ha : a < 32) :
    (UInt8.ofNat (m * 32 + a)).toNat % 32 = a := by rw [ini_toNat hm ha]; omega

/-! ## Heads -/

theorem Hd.pos {m n : Nat} {h : Bytes} (hh : Hd m n h) : 1 ≤ h.length := by
  cases hh <;> simp

theorem Hd.lt {m n : Nat} {h : Bytes} (hh : Hd m n h) : n < 2 ^ 64 := by
  cases hh <;> omega

theorem Hd.read {m n : Nat} {h : Bytes} (hh : Hd m n h) (hm : m ≤ 6) (raw : Bool) {v : Bytes}
    {p : Nat} (ha : At v p h) :
    ∃ a, readHead raw v p = .ok ⟨m, a, n, h.length, false⟩ := by
  have h7 : m ≠ 7 := by omega
  have hb := ha.bound
  cases hh with
  | imm hn =>
    have := at_lt ha
    refine ⟨n, ?_⟩
    simp only [readHead, decide_eq_true this, ensure_true, Res.ok_bind, at_byte ha,
      ini_div (show m ≤ 7 by omega) (show n < 32 by omega),
      ini_mod (show m ≤ 7 by omega) (show n < 32 by omega), if_neg h7, if_pos hn]
    rfl
  | w1 hn =>
    have := at_lt ha
    refine ⟨24, ?_⟩
    have hx : byteAt v (p + 1) = .ok n := by
      have := getBe_be (at_tail ha) (show n < 256 ^ 1 by omega)
      simpa [getBe] using this
    simp only [List.length_cons, be_length] at hb
    simp only [readHead, decide_eq_true this, ensure_true, Res.ok_bind, at_byte ha,
      ini_div (show m ≤ 7 by omega) (show 24 < 32 by omega),
      ini_mod (show m ≤ 7 by omega) (show 24 < 32 by omega), if_neg h7, Nat.lt_irrefl, if_false,
      if_true, decide_eq_true (show p + 2 ≤ v.length by omega), hx]
    rfl
  | w2 hn =>
    have := at_lt ha
    refine ⟨25, ?_⟩
    have hx := getBe_be (at_tail ha) (show n < 256 ^ 2 by omega)
    simp only [List.length_cons, be_length] at hb
    simp only [readHead, decide_eq_true this, ensure_true, Res.ok_bind, at_byte ha,
      ini_div (show m ≤ 7 by omega) (show 25 < 32 by omega),
      ini_mod (show m ≤ 7 by omega) (show 25 < 32 by omega), if_neg h7,
      if_neg (show ¬ (25 < 24) by omega), if_neg (show ¬ (25 = 24) by omega),
      if_true, decide_eq_true (show p + 3 ≤ v.length by omega), hx]
    rfl
  | w4 hn =>
    have := at_lt ha
    refine ⟨26, ?_⟩
    have hx := getBe_be (at_tail ha) (show n < 256 ^ 4 by omega)
    simp only [List.length_cons, be_length] at hb
    simp only [readHead, decide_eq_true this, ensure_true, Res.ok_bind, at_byte ha,
      ini_div (show m ≤ 7 by omega) (show 26 < 32 by omega),
      ini_mod (show m ≤ 7 by omega) (show 26 < 32 by omega), if_neg h7,
      if_neg (show ¬ (26 < 24) by omega), if_neg (show ¬ (26 = 24) by omega),
      if_neg (show ¬ (26 = 25) by omega),
      if_true, decide_eq_true (show p + 5 ≤ v.length by omega), hx]
    rfl
  | w8 hn =>
    have := at_lt ha
    refine ⟨27, ?_⟩
    have hx := getBe_be (at_tail ha) (show n < 256 ^ 8 by omega)
    simp only [List.length_cons, be_length] at hb
    simp only [readHead, decide_eq_true this, ensure_true, Res.ok_bind, at_byte ha,
      ini_div (show m ≤ 7 by omega) (show 27 < 32 by omega),
      ini_mod (show m ≤ 7 by omega) (show 27 < 32 by omega), if_neg h7,
      if_neg (show ¬ (27 < 24) by omega), if_neg (show ¬ (27 = 24) by omega),
      if_neg (show ¬ (27 = 25) by omega), if_neg (show ¬ (27 = 26) by omega),
      if_true, decide_eq_true (show p + 9 ≤ v.length by omega), hx]
    rfl

theorem indef_read {m : Nat} (hm : m ≤ 6) (raw : Bool) {v t : Bytes} {p : Nat}
    (ha : At v p (indefHd m :: t)) : readHead raw v p = .ok ⟨m, 31, 0, 1, true⟩ := by
  have := at_lt ha
  simp only [readHead, decide_eq_true this, ensure_true, Res.ok_bind, at_byte ha, indefHd,
      ini_div (show m ≤ 7 by omega) (show 31 < 32 by omega),
      ini_mod (show m ≤ 7 by omega) (show 31 < 32 by omega), if_neg (show m ≠ 7 by omega),
      if_neg (show ¬ (31 < 24) by omega), if_neg (show ¬ (31 = 24) by omega),
      if_neg (show ¬ (31 = 25) by omega), if_neg (show ¬ (31 = 26) by omega),
      if_neg (show ¬ (31 = 27) by omega), if_true]
  rfl

theorem simple_read {n : Nat} (hn : n < 24) (raw : Bool) {v t : Bytes} {p : Nat}
    (ha : At v p (UInt8.ofNat (7 * 32 + n) :: t)) : readHead raw v p = .ok ⟨7, n, 0, 1, false⟩ := by
  have := at_lt ha
  simp only [readHead, decide_eq_true this, ensure_true, Res.ok_bind, at_byte ha,
      ini_div (show 7 ≤ 7 by omega) (show n < 32 by omega),
      ini_mod (show 7 ≤ 7 by omega) (show n < 32 by omega), if_true,
      if_neg (show ¬ (n = 24) by omega), if_neg (show ¬ (n = 31) by omega),
      if_neg (show ¬ (n = 25) by omega), if_neg (show ¬ (n = 26) by omega),
      if_neg (show ¬ (n = 27) by omega)]
  rfl

theorem flt_read {x : UInt8} {k : Nat} (raw : Bool) {v t : Bytes} {p : Nat}
    (hx : x = 0xf9 ∧ k = 2 ∨ x = 0xfa ∧ k = 4 ∨ x = 0xfb ∧ k = 8)
    (ha : At v p (x :: t)) : readHead raw v p = .ok ⟨7, x.toNat % 32, k, 1, false⟩ := by
  have := at_lt ha
  rcases hx with ⟨rfl, rfl⟩ | ⟨rfl, rfl⟩ | ⟨rfl, rfl⟩ <;>
    simp [readHead, decide_eq_true this, at_byte ha]

/-- The first byte of a head is not the break byte. -/
theorem Hd.first {m n : Nat} {h : Bytes} (hh : Hd m n h) (hm : m ≤ 6) :
    ∃ x t, h = x :: t ∧ x.toNat < 0xff := by
  cases hh with
  | imm hn => exact ⟨_, _, rfl, by rw [ini_toNat (by omega) (by omega)]; omega⟩
  | _ => exact ⟨_, _, rfl, by rw [ini_toNat (by omega) (by omega)]; omega⟩

theorem indefHd_lt {m : Nat} (hm : m ≤ 6) : (indefHd m).toNat < 0xff := by
  rw [indefHd, ini_toNat (by omega) (by omega)]; omega

/-! ## Strings -/

theorem Text.first {ind : Bool} {m : Nat} {s b : Bytes} (h : Text ind m s b) (hm : m ≤ 6) :
    ∃ x t, b = x :: t ∧ x.toNat < 0xff := by
  cases h with
  | definite hh => obtain ⟨x, t, rfl, hx⟩ := hh.first hm; exact ⟨x, _, rfl, hx⟩
  | chunked => exact ⟨_, _, rfl, indefHd_lt hm⟩

theorem Group.first {ind : Bool} {m n : Nat} {c b : Bytes} (h : Group ind m n c b) (hm : m ≤ 6) :
    ∃ x t, b = x :: t ∧ x.toNat < 0xff := by
  cases h with
  | definite hh => obtain ⟨x, t, rfl, hx⟩ := hh.first hm; exact ⟨x, _, rfl, hx⟩
  | indef => exact ⟨_, _, rfl, indefHd_lt hm⟩

theorem Item.first {b : Bytes} (h : Item b) : ∃ x t, b = x :: t ∧ x.toNat < 0xff := by
  cases h with
  | num hm hh => exact hh.first (by omega)
  | str hm hh => exact hh.first (by omega)
  | arr _ hh => exact hh.first (by omega)
  | map _ _ hh => exact hh.first (by omega)
  | tag hh _ => obtain ⟨x, t, rfl, hx⟩ := hh.first (by omega); exact ⟨x, _, rfl, hx⟩
  | simple hn => exact ⟨_, _, rfl, by rw [ini_toNat (by omega) (by omega)]; omega⟩
  | flt h => rcases h with ⟨rfl, _⟩ | ⟨rfl, _⟩ | ⟨rfl, _⟩ <;> exact ⟨_, _, rfl, by decide⟩

theorem Item.pos {b : Bytes} (h : Item b) : 1 ≤ b.length := by
  obtain ⟨x, t, rfl, _⟩ := h.first; simp

theorem u64_of_lt {n : Nat} (h : n < 2 ^ 64) : u64 n = n := Nat.mod_eq_of_lt h

theorem Chunks.skip {m : Nat} (hm : m = 2 ∨ m = 3) {s b : Bytes} (hc : Chunks m s b) (raw : Bool)
    {v : Bytes} (hv : v.length < 2 ^ 64) {p : Nat} (ha : At v p (b ++ [0xff])) {f : Nat}
    (hf : b.length < f) : chunks raw v m f p = .ok (p + b.length + 1) := by
  induction hc generalizing p f with
  | nil =>
    obtain ⟨f, rfl⟩ : ∃ g, f = g + 1 := ⟨f - 1, by omega⟩
    have ha' : At v p [0xff] := ha
    simp [chunks, decide_eq_true (at_lt ha'), at_byte ha']
  | @cons h s t b hh hc ih =>
    obtain ⟨f, rfl⟩ : ∃ g, f = g + 1 := ⟨f - 1, by omega⟩
    have ha' : At v p ((h ++ s) ++ (b ++ [0xff])) := by simpa using ha
    have hb := ha'.bound
    simp only [List.length_append, List.length_singleton] at hb hf
    obtain ⟨a, hr⟩ := hh.read (by omega) raw ha'.left.left
    obtain ⟨x, u, hx, hx'⟩ := hh.first (by omega)
    have hxa : At v p (x :: (u ++ s)) := by have := ha'.left; rw [hx] at this; simpa using this
    have e : u64 (p + (h.length + s.length)) = p + (h ++ s).length := by
      rw [List.length_append]; exact u64_of_lt (by omega)
    have := hh.pos
    simp only [chunks, decide_eq_true (at_lt hxa), ensure_true, Res.ok_bind, at_byte hxa,
      if_neg (show x.toNat ≠ 0xff by omega), hr, decide_true, Bool.not_false, e]
    rw [ih ha'.right (by omega)]
    simp only [List.length_append]; congr 1; omega

/-! ## Loops over items -/

theorem items_at {rec : Nat → Res Nat} {v : Bytes} : ∀ {cs : List Bytes} {p : Nat},
    (∀ c ∈ cs, ∀ q, At v q c → rec q = .ok (q + c.length)) → At v p cs.flatten →
    items rec cs.length p = .ok (p + cs.flatten.length)
  | [], _, _, _ => rfl
  | c :: cs, p, hr, ha => by
    simp only [List.flatten_cons] at ha
    simp only [List.length_cons, items, hr c (by simp) p ha.left, Res.ok_bind]
    rw [items_at (fun d hd => hr d (by simp [hd])) ha.right]
    simp only [List.flatten_cons, List.length_append]; congr 1; omega

theorem items_add {rec : Nat → Res Nat} : ∀ (m n : Nat) (q : Nat),
    items rec (m + n) q = (items rec m q >>= fun q => items rec n q)
  | 0, n, q => by simp [items]
  | m + 1, n, q => by
    rw [show m + 1 + n = (m + n) + 1 by omega]
    simp only [items, bind_assoc]
    congr 1; funext q; exact items_add m n q

/-- Splitting off the first `k` of `k * (n+1)` items. -/
theorem split_k {k n : Nat} {cs : List Bytes} (h : cs.length = k * (n + 1)) :
    ∃ a b, cs = a ++ b ∧ a.length = k ∧ b.length = k * n := by
  refine ⟨cs.take k, cs.drop k, (List.take_append_drop k cs).symm, ?_, ?_⟩ <;>
    simp [h, Nat.mul_add]

theorem flatten_ge {cs : List Bytes} (h : ∀ c ∈ cs, 1 ≤ c.length) : cs.length ≤ cs.flatten.length := by
  induction cs with
  | nil => simp
  | cons c cs ih =>
    have := h c (by simp)
    have := ih (fun d hd => h d (by simp [hd]))
    simp only [List.length_cons, List.flatten_cons, List.length_append]; omega

theorem untilBreak_at {rec : Nat → Res Nat} {v : Bytes} (raw : Bool) {k : Nat} (hk : 0 < k) :
    ∀ {n : Nat} {cs : List Bytes} {p f : Nat}, cs.length = k * n → n < f →
    (∀ c ∈ cs, Item c) → (∀ c ∈ cs, ∀ q, At v q c → rec q = .ok (q + c.length)) →
    At v p (cs.flatten ++ [0xff]) →
    untilBreak raw v rec k f p = .ok (p + cs.flatten.length + 1)
  | 0, cs, p, f, hn, hf, _, _, ha => by
    obtain ⟨f, rfl⟩ : ∃ g, f = g + 1 := ⟨f - 1, by omega⟩
    have : cs = [] := List.length_eq_zero_iff.1 (by simpa using hn)
    subst this
    have ha' : At v p [0xff] := by simpa using ha
    simp [untilBreak, decide_eq_true (at_lt ha'), at_byte ha']
  | n + 1, cs, p, f, hn, hf, hi, hr, ha => by
    obtain ⟨f, rfl⟩ : ∃ g, f = g + 1 := ⟨f - 1, by omega⟩
    obtain ⟨a, b, rfl, hka, hkb⟩ := split_k hn
    have ha' : At v p (a.flatten ++ (b.flatten ++ [0xff])) := by simpa using ha
    obtain ⟨c, a', rfl⟩ : ∃ c a', a = c :: a' := by
      cases a with
      | nil => simp at hka; omega
      | cons c a' => exact ⟨c, a', rfl⟩
    obtain ⟨x, u, hx, hx'⟩ := (hi c (by simp)).first
    have hxa : At v p (x :: (u ++ a'.flatten)) := by
      have := ha'.left; simp only [List.flatten_cons, hx] at this; simpa using this
    have h1 : items rec k p = .ok (p + (c :: a').flatten.length) := by
      rw [← hka]; exact items_at (fun d hd => hr d (by simp only [List.mem_append]; exact .inl hd)) ha'.left
    simp only [untilBreak, decide_eq_true (at_lt hxa), ensure_true, Res.ok_bind, at_byte hxa,
      if_neg (show x.toNat ≠ 0xff by omega), h1]
    rw [untilBreak_at raw hk hkb (by omega) (fun d hd => hi d (by simp only [List.mem_append]; exact .inr hd))
      (fun d hd => hr d (by simp only [List.mem_append]; exact .inr hd)) ha'.right]
    simp only [List.flatten_append, List.length_append]; congr 1; omega

theorem mem_flatten_le {cs : List Bytes} {c : Bytes} (h : c ∈ cs) : c.length ≤ cs.flatten.length := by
  induction cs with
  | nil => cases h
  | cons d cs ih =>
    simp only [List.flatten_cons, List.length_append]
    rcases List.mem_cons.1 h with rfl | h
    · omega
    · have := ih h; omega

/-- Skipping passes exactly one item; the checked and the unchecked copy agree. -/
theorem Item.skip {b : Bytes} (h : Item b) (raw : Bool) {v : Bytes} (hv : v.length < 2 ^ 64)
    {p : Nat} (ha : At v p b) {f : Nat} (hf : b.length ≤ f) : skip raw v f p = .ok (p + b.length) := by
  induction h generalizing p f with
  | @num m n h hm hh =>
    obtain ⟨f, rfl⟩ : ∃ g, f = g + 1 := ⟨f - 1, by have := hh.pos; omega⟩
    obtain ⟨a, hr⟩ := hh.read (by omega) raw ha
    simp [Cbor.skip, hr, hm]
  | @str ind m s b hm hh =>
    have hb := ha.bound
    cases hh with
    | @definite h hh =>
      obtain ⟨f, rfl⟩ : ∃ g, f = g + 1 := ⟨f - 1, by have := hh.pos; simp at hf; omega⟩
      obtain ⟨a, hr⟩ := hh.read (by omega) raw ha.left
      simp only [List.length_append] at hb
      have e : u64 (p + h.length + s.length) = p + h.length + s.length := u64_of_lt (by omega)
      simp only [Cbor.skip, hr, Res.ok_bind, if_neg (show ¬ m ≤ 1 by omega),
        if_pos (show m ≤ 3 by omega), Bool.false_eq_true, if_false, e,
        decide_eq_true (show p + h.length + s.length ≤ v.length by omega), ensure_true, Res.pure_eq,
        List.length_append]
      congr 1; omega
    | @chunked b _ hc =>
      simp only [List.length_cons, List.length_append, List.length_nil] at hb hf
      obtain ⟨f, rfl⟩ : ∃ g, f = g + 1 := ⟨f - 1, by omega⟩
      have hr := indef_read (show m ≤ 6 by omega) raw ha
      simp only [Cbor.skip, hr, Res.ok_bind, if_neg (show ¬ m ≤ 1 by omega),
        if_pos (show m ≤ 3 by omega), if_true]
      rw [hc.skip hm raw hv (at_tail ha) (by omega)]
      simp only [List.length_cons, List.length_append, List.length_nil]; congr 1; omega
  | @arr ind cs b hi hg ih =>
    have hb := ha.bound
    cases hg with
    | @definite h hh =>
      have hp := hh.pos
      simp only [List.length_append] at hf
      obtain ⟨f, rfl⟩ : ∃ g, f = g + 1 := ⟨f - 1, by omega⟩
      obtain ⟨a, hr⟩ := hh.read (by omega) raw ha.left
      simp only [Cbor.skip, hr, Res.ok_bind, if_neg (show ¬ 4 ≤ 1 by omega),
        if_neg (show ¬ 4 ≤ 3 by omega), if_true, Bool.false_eq_true, if_false]
      rw [items_at (v := v) (fun c hc q hq => ih c hc hq (by have := mem_flatten_le hc; omega)) ha.right]
      simp only [List.length_append]; congr 1; omega
    | indef _ =>
      simp only [List.length_cons, List.length_append, List.length_nil] at hb hf
      obtain ⟨f, rfl⟩ : ∃ g, f = g + 1 := ⟨f - 1, by omega⟩
      have hr := indef_read (show 4 ≤ 6 by omega) raw ha
      have hge := flatten_ge (fun c hc => (hi c hc).pos)
      simp only [Cbor.skip, hr, Res.ok_bind, if_neg (show ¬ 4 ≤ 1 by omega),
        if_neg (show ¬ 4 ≤ 3 by omega), if_true]
      rw [untilBreak_at raw (k := 1) (by omega) (n := cs.length) (by omega) (by omega) hi
        (fun c hc q hq => ih c hc hq (by have := mem_flatten_le hc; omega)) (at_tail ha)]
      simp only [List.length_cons, List.length_append, List.length_nil]; congr 1; omega
  | @map ind n cs b hn hi hg ih =>
    have hb := ha.bound
    cases hg with
    | @definite h hh =>
      have hp := hh.pos
      simp only [List.length_append] at hf
      obtain ⟨f, rfl⟩ : ∃ g, f = g + 1 := ⟨f - 1, by omega⟩
      obtain ⟨a, hr⟩ := hh.read (by omega) raw ha.left
      simp only [Cbor.skip, hr, Res.ok_bind, if_neg (show ¬ 5 ≤ 1 by omega),
        if_neg (show ¬ 5 ≤ 3 by omega), if_neg (show ¬ 5 = 4 by omega), if_true,
        Bool.false_eq_true, if_false, ← hn]
      rw [items_at (v := v) (fun c hc q hq => ih c hc hq (by have := mem_flatten_le hc; omega)) ha.right]
      simp only [List.length_append]; congr 1; omega
    | indef _ =>
      simp only [List.length_cons, List.length_append, List.length_nil] at hb hf
      obtain ⟨f, rfl⟩ : ∃ g, f = g + 1 := ⟨f - 1, by omega⟩
      have hr := indef_read (show 5 ≤ 6 by omega) raw ha
      have hge := flatten_ge (fun c hc => (hi c hc).pos)
      simp only [Cbor.skip, hr, Res.ok_bind, if_neg (show ¬ 5 ≤ 1 by omega),
        if_neg (show ¬ 5 ≤ 3 by omega), if_neg (show ¬ 5 = 4 by omega), if_true]
      rw [untilBreak_at raw (k := 2) (by omega) (n := n) hn (by omega) hi
        (fun c hc q hq => ih c hc hq (by have := mem_flatten_le hc; omega)) (at_tail ha)]
      simp only [List.length_cons, List.length_append, List.length_nil]; congr 1; omega
  | @tag n h c hh hc ih =>
    have hp := hh.pos
    simp only [List.length_append] at hf
    obtain ⟨f, rfl⟩ : ∃ g, f = g + 1 := ⟨f - 1, by omega⟩
    obtain ⟨a, hr⟩ := hh.read (by omega) raw ha.left
    simp only [Cbor.skip, hr, Res.ok_bind, if_neg (show ¬ 6 ≤ 1 by omega),
        if_neg (show ¬ 6 ≤ 3 by omega), if_neg (show ¬ 6 = 4 by omega),
        if_neg (show ¬ 6 = 5 by omega), if_true]
    rw [ih ha.right (by omega)]
    simp only [List.length_append, Nat.add_assoc]
  | @simple n hn =>
    simp only [List.length_cons, List.length_nil] at hf
    obtain ⟨f, rfl⟩ : ∃ g, f = g + 1 := ⟨f - 1, by omega⟩
    have hr := simple_read hn raw ha
    simp [Cbor.skip, hr, show n ≠ 25 by omega, show n ≠ 26 by omega, show n ≠ 27 by omega,
      show n ≠ 24 by omega]
  | @flt x t hx =>
    simp only [List.length_cons] at hf
    obtain ⟨f, rfl⟩ : ∃ g, f = g + 1 := ⟨f - 1, by omega⟩
    have hr := flt_read raw hx ha
    have hb := ha.bound
    simp only [List.length_cons] at hb
    rcases hx with ⟨rfl, hl⟩ | ⟨rfl, hl⟩ | ⟨rfl, hl⟩
    · simp [Cbor.skip, hr, decide_eq_true (show p + 1 + 2 ≤ v.length by omega), hl]
    · simp [Cbor.skip, hr, decide_eq_true (show p + 1 + 4 ≤ v.length by omega), hl]
    · simp [Cbor.skip, hr, decide_eq_true (show p + 1 + 8 ≤ v.length by omega), hl]

end Zer.Cbor
