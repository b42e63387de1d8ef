import Verif.Base64.Model

/-!
# Base64: specification after RFC 4648 and relation to the model
-/

namespace Zer.Base64

/-! ## Specification -/

/-- The letter of a six-bit number, RFC 4648 table 1: A-Z, a-z, 0-9, +, /. -/
def letter (d : Nat) : UInt8 :=
  if d < 26 then UInt8.ofNat (0x41 + d)
  else if d < 52 then UInt8.ofNat (0x61 + (d - 26))
  else if d < 62 then UInt8.ofNat (0x30 + (d - 52))
  else if d = 62 then 0x2b else 0x2f

/-- RFC 4648 section 4: 24-bit groups as four letters; a last group of one or two bytes is filled
with zero bits and padded. -/
def rfc : Bytes → Bytes
  | a :: b :: c :: t =>
    let n := a.toNat * 65536 + b.toNat * 256 + c.toNat
    letter (n / 262144) :: letter (n / 4096 % 64) :: letter (n / 64 % 64) :: letter (n % 64) :: rfc t
  | [a, b] =>
    let n := a.toNat * 65536 + b.toNat * 256
    [letter (n / 262144), letter (n / 4096 % 64), letter (n / 64 % 64), 0x3d]
  | [a] =>
    let n := a.toNat * 65536
    [letter (n / 262144), letter (n / 4096 % 64), 0x3d, 0x3d]
  | [] => []

/-- The six-bit number of a letter. -/
def value (c : UInt8) : Option Nat :=
  let n := c.toNat
  if 0x41 ≤ n ∧ n ≤ 0x5a then some (n - 0x41)
  else if 0x61 ≤ n ∧ n ≤ 0x7a then some (n - 0x61 + 26)
  else if 0x30 ≤ n ∧ n ≤ 0x39 then some (n - 0x30 + 52)
  else if n = 0x2b then some 62
  else if n = 0x2f then some 63
  else none

/-- The bytes spelled by six-bit numbers, most significant bit first; bits that do not fill a byte
are dropped. -/
def bytesOf : List Nat → Bytes
  | d0 :: d1 :: d2 :: d3 :: t =>
    let n := d0 * 262144 + d1 * 4096 + d2 * 64 + d3
    UInt8.ofNat (n / 65536) :: UInt8.ofNat (n / 256) :: UInt8.ofNat n :: bytesOf t
  | [d0, d1, d2] =>
    let n := d0 * 262144 + d1 * 4096 + d2 * 64
    [UInt8.ofNat (n / 65536), UInt8.ofNat (n / 256)]
  | [d0, d1] => [UInt8.ofNat ((d0 * 262144 + d1 * 4096) / 65536)]
  | [_] => []
  | [] => []

/-- The six-bit numbers of the letters before the first '='. -/
def digits : Bytes → Option (List Nat)
  | [] => some []
  | c :: cs => if c = 0x3d then some [] else
    match value c, digits cs with
    | some d, some ds => some (d :: ds)
    | _, _ => none

/-! ## Tables -/

theorem charAt_letter {d : Nat} (h : d < 64) : charAt d = letter d := by
  have : ∀ d : Fin 64, charAt d.1 = letter d.1 := by decide +kernel
  exact this ⟨d, h⟩

theorem lookup_value (c : UInt8) : lookup.getD c.toNat 64 = (value c).getD 64 := by
  have : ∀ c : Fin 256, lookup.getD c.1 64 = (value (UInt8.ofNat c.1)).getD 64 := by decide +kernel
  have h := this ⟨c.toNat, UInt8.toNat_lt c⟩
  simpa using h

theorem value_lt {c : UInt8} {d : Nat} (h : value c = some d) : d < 64 := by
  unfold value at h
  simp only at h
  repeat' split at h
  all_goals first | (injection h with h; omega) | cases h

theorem value_letter {d : Nat} (h : d < 64) : value (letter d) = some d := by
  have : ∀ d : Fin 64, value (letter d.1) = some d.1 := by decide +kernel
  exact this ⟨d, h⟩

theorem letter_ne_pad {d : Nat} (h : d < 64) : letter d ≠ 0x3d := by
  have : ∀ d : Fin 64, letter d.1 ≠ 0x3d := by decide +kernel
  exact this ⟨d, h⟩

theorem letter_value {c : UInt8} {d : Nat} (h : value c = some d) : letter d = c := by
  have : ∀ c : Fin 256, ∀ d, value (UInt8.ofNat c.1) = some d → letter d = UInt8.ofNat c.1 := by
    have : ∀ c : Fin 256, (value (UInt8.ofNat c.1)).all (fun d => letter d = UInt8.ofNat c.1) = true := by
      decide +kernel
    intro c d hd
    have h := this c
    rw [hd] at h
    simpa using h
  have h2 := this ⟨c.toNat, UInt8.toNat_lt c⟩ d (by simpa using h)
  simpa using h2

/-! ## Bit arithmetic -/

theorem shl_or {v b k : Nat} (hk : k ≤ 32) (hb : b < 2 ^ k) :
    ((v <<< k) % 2 ^ 32) ||| b = (v % 2 ^ (32 - k)) * 2 ^ k + b := by
  have h1 : (v <<< k) % 2 ^ 32 = (v % 2 ^ (32 - k)) <<< k := by
    rw [Nat.shiftLeft_eq, Nat.shiftLeft_eq]
    have : (2 : Nat) ^ 32 = 2 ^ (32 - k) * 2 ^ k := by rw [← Nat.pow_add]; congr 1; omega
    rw [this, Nat.mul_mod_mul_right]
  rw [h1, ← Nat.shiftLeft_add_eq_or_of_lt hb, Nat.shiftLeft_eq]

theorem and63 (n : Nat) : n &&& 0x3f = n % 64 := Nat.and_two_pow_sub_one_eq_mod n 6
theorem and255 (n : Nat) : n &&& 0xff = n % 256 := Nat.and_two_pow_sub_one_eq_mod n 8
theorem and15 (n : Nat) : n &&& 15 = n % 16 := Nat.and_two_pow_sub_one_eq_mod n 4
theorem and3 (n : Nat) : n &&& 3 = n % 4 := Nat.and_two_pow_sub_one_eq_mod n 2

/-! ## Encoding -/

theorem encStep0 (v : Nat) (a : UInt8) :
    encStep v 0 a = ([letter (a.toNat / 4)], a.toNat % 4, 2) := by
  have ha := UInt8.toNat_lt a
  have h := shl_or (v := v) (b := a.toNat) (k := 8) (by decide) (by omega)
  simp only [encStep, h, emit6, Nat.reduceAdd, Nat.reduceLeDiff, Nat.reduceSub, if_true, if_false,
    Nat.shiftRight_eq_div_pow, and63, gt_iff_lt, Nat.reduceLT, show (1 <<< 2 - 1 : Nat) = 3 from rfl, and3]
  rw [charAt_letter (by omega)]
  refine congr (congrArg _ ?_) (congr (congrArg _ ?_) rfl)
  · congr 2; omega
  · omega

theorem encStep2 {v : Nat} (hv : v < 4) (a : UInt8) :
    encStep v 2 a = ([letter (v * 16 + a.toNat / 16)], a.toNat % 16, 4) := by
  have ha := UInt8.toNat_lt a
  have h := shl_or (v := v) (b := a.toNat) (k := 8) (by decide) (by omega)
  simp only [encStep, h, emit6, Nat.reduceAdd, Nat.reduceLeDiff, Nat.reduceSub, if_true, if_false,
    Nat.shiftRight_eq_div_pow, and63, gt_iff_lt, Nat.reduceLT, show (1 <<< 4 - 1 : Nat) = 15 from rfl, and15]
  rw [charAt_letter (by omega)]
  refine congr (congrArg _ ?_) (congr (congrArg _ ?_) rfl)
  · congr 2; omega
  · omega

theorem encStep4 {v : Nat} (hv : v < 16) (a : UInt8) :
    ∃ w, encStep v 4 a = ([letter (v * 4 + a.toNat / 64), letter (a.toNat % 64)], w, 0) := by
  have ha := UInt8.toNat_lt a
  have h := shl_or (v := v) (b := a.toNat) (k := 8) (by decide) (by omega)
  simp only [encStep, h, emit6, Nat.reduceAdd, Nat.reduceLeDiff, Nat.reduceSub, if_true, if_false,
    Nat.shiftRight_eq_div_pow, and63, gt_iff_lt, Nat.reduceLT]
  refine ⟨v % 2 ^ 24 * 2 ^ 8 + a.toNat, ?_⟩
  rw [charAt_letter (by omega), charAt_letter (by omega),
    show (v % 2 ^ 24 * 2 ^ 8 + a.toNat) / 2 ^ 6 % 64 = v * 4 + a.toNat / 64 by omega,
    show (v % 2 ^ 24 * 2 ^ 8 + a.toNat) / 2 ^ 0 % 64 = a.toNat % 64 by omega]

/-- The text before padding, from a state with no pending bits. -/
def core (v : Nat) (data : Bytes) : Bytes :=
  let r := encLoop v 0 data
  if r.2.2 > 0 then r.1 ++ [charAt (((r.2.1 <<< (6 - r.2.2)) % 2 ^ 32) &&& 0x3f)] else r.1

theorem core_three (v : Nat) (a b c : UInt8) (t : Bytes) :
    ∃ w, core v (a :: b :: c :: t) =
      letter (a.toNat / 4) :: letter (a.toNat % 4 * 16 + b.toNat / 16) ::
        letter (b.toNat % 16 * 4 + c.toNat / 64) :: letter (c.toNat % 64) :: core w t := by
  obtain ⟨w, h4⟩ := encStep4 (v := b.toNat % 16) (by omega) c
  refine ⟨w, ?_⟩
  simp only [core, encLoop, encStep0, encStep2 (v := a.toNat % 4) (by omega), h4]
  split <;> simp

theorem core_two (v : Nat) (a b : UInt8) :
    core v [a, b] = [letter (a.toNat / 4), letter (a.toNat % 4 * 16 + b.toNat / 16),
      letter (b.toNat % 16 * 4)] := by
  simp only [core, encLoop, encStep0, encStep2 (v := a.toNat % 4) (by omega)]
  have : (b.toNat % 16) <<< 2 % 2 ^ 32 % 64 = b.toNat % 16 * 4 := by rw [Nat.shiftLeft_eq]; omega
  simp only [gt_iff_lt, Nat.reduceLT, if_true, Nat.reduceSub, and63, this]
  rw [charAt_letter (by omega)]; rfl

theorem core_one (v : Nat) (a : UInt8) :
    core v [a] = [letter (a.toNat / 4), letter (a.toNat % 4 * 16)] := by
  simp only [core, encLoop, encStep0]
  have : (a.toNat % 4) <<< 4 % 2 ^ 32 % 64 = a.toNat % 4 * 16 := by rw [Nat.shiftLeft_eq]; omega
  simp only [gt_iff_lt, Nat.reduceLT, if_true, Nat.reduceSub, and63, this]
  rw [charAt_letter (by omega)]; rfl

theorem pad_eq (s : Bytes) : pad 3 s = s ++ List.replicate ((4 - s.length % 4) % 4) 0x3d := by
  have h : s.length % 4 = 0 ∨ s.length % 4 = 1 ∨ s.length % 4 = 2 ∨ s.length % 4 = 3 := by omega
  rcases h with h | h | h | h
  · simp [pad, h]
  · have h1 : (s.length + 1) % 4 = 2 := by omega
    have h2 : (s.length + 1 + 1) % 4 = 3 := by omega
    simp [pad, h, h1, h2, List.replicate]
  · have h1 : (s.length + 1) % 4 = 3 := by omega
    have h2 : (s.length + 1 + 1) % 4 = 0 := by omega
    simp [pad, h, h1, h2, List.replicate]
  · have h1 : (s.length + 1) % 4 = 0 := by omega
    simp [pad, h, h1, List.replicate]

theorem core_rfc : ∀ (data : Bytes) (v : Nat),
    core v data ++ List.replicate ((4 - (core v data).length % 4) % 4) 0x3d = rfc data
  | [], v => by simp [core, encLoop, rfc]
  | [a], v => by
    have ha := UInt8.toNat_lt a
    rw [core_one]
    simp only [rfc, List.length_cons, List.length_nil, List.cons_append, List.nil_append, List.replicate,
      Nat.reduceAdd, Nat.reduceMod, Nat.reduceSub]
    rw [show a.toNat * 65536 / 262144 = a.toNat / 4 by omega,
      show a.toNat * 65536 / 4096 % 64 = a.toNat % 4 * 16 by omega]
  | [a, b], v => by
    have ha := UInt8.toNat_lt a
    have hb := UInt8.toNat_lt b
    rw [core_two]
    simp only [rfc, List.length_cons, List.length_nil, List.cons_append, List.nil_append, List.replicate,
      Nat.reduceAdd, Nat.reduceMod, Nat.reduceSub]
    rw [show (a.toNat * 65536 + b.toNat * 256) / 262144 = a.toNat / 4 by omega,
      show (a.toNat * 65536 + b.toNat * 256) / 4096 % 64 = a.toNat % 4 * 16 + b.toNat / 16 by omega,
      show (a.toNat * 65536 + b.toNat * 256) / 64 % 64 = b.toNat % 16 * 4 by omega]
  | a :: b :: c :: t, v => by
    have ha := UInt8.toNat_lt a
    have hb := UInt8.toNat_lt b
    have hc := UInt8.toNat_lt c
    obtain ⟨w, h⟩ := core_three v a b c t
    have ih := core_rfc t w
    have hl : (core v (a :: b :: c :: t)).length % 4 = (core w t).length % 4 := by
      rw [h]; simp only [List.length_cons]; omega
    rw [hl, h]
    simp only [List.cons_append, ih, rfc]
    rw [show (a.toNat * 65536 + b.toNat * 256 + c.toNat) / 262144 = a.toNat / 4 by omega,
      show (a.toNat * 65536 + b.toNat * 256 + c.toNat) / 4096 % 64 = a.toNat % 4 * 16 + b.toNat / 16
        by omega,
      show (a.toNat * 65536 + b.toNat * 256 + c.toNat) / 64 % 64 = b.toNat % 16 * 4 + c.toNat / 64
        by omega,
      show (a.toNat * 65536 + b.toNat * 256 + c.toNat) % 64 = c.toNat % 64 by omega]

theorem encode_rfc (data : Bytes) : encode data = rfc data := by
  show pad 3 (core 0 data) = _
  rw [pad_eq, core_rfc]

/-! ## Decoding -/

theorem decLoop_cons {v bits : Nat} {c : UInt8} {cs : Bytes} {d : Nat} (hc : c ≠ 0x3d)
    (hd : value c = some d) :
    decLoop v bits (c :: cs) =
      (let buf := (v % 2 ^ 26) * 64 + d
       if 8 ≤ bits + 6 then do
          let out ← decLoop (if bits + 6 - 8 > 0 then buf &&& (1 <<< (bits + 6 - 8) - 1) else buf)
            (bits + 6 - 8) cs
          pure (UInt8.ofNat ((buf >>> (bits + 6 - 8)) &&& 0xff) :: out)
        else decLoop buf (bits + 6) cs) := by
  have hl := value_lt hd
  have h := shl_or (v := v) (b := d) (k := 6) (by decide) (by omega)
  simp only [decLoop, hc, if_false, lookup_value, hd, Option.getD_some, h]
  rw [if_neg (by omega)]

theorem value_pad : value 0x3d = none := by decide

theorem of8' {a b : Nat} (h : a % 256 = b % 256) : UInt8.ofNat a = UInt8.ofNat b := by
  apply UInt8.toNat_inj.1
  simpa using h

/-- The state of the loop after `k` letters of a group of four; result in terms of the digits. -/
theorem decLoop_digits : ∀ (s : Bytes) (ds : List Nat), digits s = some ds →
    (∀ v, decLoop v 0 s = .ok (bytesOf ds)) ∧
    (∀ v d0, d0 < 64 → v % 64 = d0 → decLoop v 6 s = .ok (bytesOf (d0 :: ds))) ∧
    (∀ v d0 d1, d0 < 64 → d1 < 64 → v = d1 % 16 →
      ∃ out, decLoop v 4 s = .ok out ∧ bytesOf (d0 :: d1 :: ds) =
        UInt8.ofNat ((d0 * 262144 + d1 * 4096) / 65536) :: out) ∧
    (∀ v d0 d1 d2, d0 < 64 → d1 < 64 → d2 < 64 → v = d2 % 4 →
      ∃ out, decLoop v 2 s = .ok out ∧ bytesOf (d0 :: d1 :: d2 :: ds) =
        UInt8.ofNat ((d0 * 262144 + d1 * 4096) / 65536) ::
        UInt8.ofNat ((d0 * 262144 + d1 * 4096 + d2 * 64) / 256) :: out)
  | [], ds, h => by
    injection h with h; subst h
    refine ⟨fun _ => rfl, fun _ _ _ _ => rfl, fun _ _ _ _ _ _ => ⟨_, rfl, rfl⟩,
      fun _ d0 d1 d2 _ _ _ _ => ⟨_, rfl, ?_⟩⟩
    simp only [bytesOf]
    rw [show (d0 * 262144 + d1 * 4096 + d2 * 64) / 65536 = (d0 * 262144 + d1 * 4096) / 65536 by omega]
  | c :: cs, ds, h => by
    unfold digits at h
    by_cases hc : c = 0x3d
    · rw [if_pos hc] at h
      injection h with h; subst h
      have e : ∀ v bits, decLoop v bits (c :: cs) = .ok [] := by intro v bits; simp [decLoop, hc]
      refine ⟨fun v => e v 0, fun v _ _ _ => e v 6, fun v _ _ _ _ _ => ⟨_, e v 4, rfl⟩,
        fun v d0 d1 d2 _ _ _ _ => ⟨_, e v 2, ?_⟩⟩
      simp only [bytesOf]
      rw [show (d0 * 262144 + d1 * 4096 + d2 * 64) / 65536 = (d0 * 262144 + d1 * 4096) / 65536 by omega]
    · rw [if_neg hc] at h
      split at h
      · rename_i d ds' hd hds
        injection h with h; subst h
        have hdl := value_lt hd
        obtain ⟨i0, i6, i4, i2⟩ := decLoop_digits cs ds' hds
        refine ⟨fun v => ?_, fun v d0 h0 hv => ?_, fun v d0 d1 h0 h1 hv => ?_,
          fun v d0 d1 d2 h0 h1 h2 hv => ?_⟩
        · rw [decLoop_cons hc hd]
          simp only [Nat.reduceAdd, Nat.reduceLeDiff, if_false]
          exact i6 _ d hdl (by omega)
        · rw [decLoop_cons hc hd]
          obtain ⟨out, ho, hb⟩ := i4 (d % 16) d0 d h0 hdl rfl
          have e : ((v % 2 ^ 26) * 64 + d) % 16 = d % 16 := by omega
          simp only [Nat.reduceAdd, Nat.reduceLeDiff, if_true, Nat.reduceSub, gt_iff_lt, Nat.reduceLT,
            show (1 <<< 4 - 1 : Nat) = 15 from rfl, and15, and255, e, ho, Res.ok_bind,
            Nat.shiftRight_eq_div_pow]
          rw [hb]
          refine congrArg Res.ok (congr (congrArg _ (of8' ?_)) rfl)
          omega
        · rw [decLoop_cons hc hd]
          obtain ⟨out, ho, hb⟩ := i2 (d % 4) d0 d1 d h0 h1 hdl rfl
          have e : ((v % 2 ^ 26) * 64 + d) % 4 = d % 4 := by omega
          simp only [Nat.reduceAdd, Nat.reduceLeDiff, if_true, Nat.reduceSub, gt_iff_lt, Nat.reduceLT,
            show (1 <<< 2 - 1 : Nat) = 3 from rfl, and3, and255, e, ho, Res.ok_bind,
            Nat.shiftRight_eq_div_pow]
          refine ⟨_, rfl, ?_⟩
          rw [hb]
          refine congr (congrArg _ rfl) (congr (congrArg _ (of8' ?_)) rfl)
          omega
        · rw [decLoop_cons hc hd]
          simp only [Nat.reduceAdd, Nat.reduceLeDiff, if_true, Nat.reduceSub, gt_iff_lt, Nat.lt_irrefl,
            if_false, and255, i0, Res.ok_bind, Nat.shiftRight_zero]
          refine ⟨_, rfl, ?_⟩
          simp only [bytesOf]
          refine congr (congrArg _ (of8' ?_)) (congr (congrArg _ (of8' ?_)) (congr (congrArg _ (of8' ?_)) rfl))
          all_goals omega
      · cases h

theorem decode_digits {s : Bytes} {ds : List Nat} (h : digits s = some ds) :
    decode s = .ok (bytesOf ds) := (decLoop_digits s ds h).1 0

theorem decLoop_bad : ∀ (s : Bytes) (v bits : Nat), digits s = none → decLoop v bits s = .err .deser
  | [], _, _, h => by cases h
  | c :: cs, v, bits, h => by
    unfold digits at h
    by_cases hc : c = 0x3d
    · rw [if_pos hc] at h; cases h
    · rw [if_neg hc] at h
      cases hd : value c with
      | none =>
        have := lookup_value c
        rw [hd] at this
        simp only [decLoop, hc, if_false, this, Option.getD_none, if_true]
      | some d =>
        cases hds : digits cs with
        | some ds => rw [hd, hds] at h; cases h
        | none =>
          rw [decLoop_cons hc hd]
          simp only [decLoop_bad cs _ _ hds, Res.err_bind, ite_self]

theorem decode_bad {s : Bytes} (h : digits s = none) : decode s = .err .deser := decLoop_bad s 0 0 h

/-! ## Round trip -/

theorem digits_letter {d : Nat} (hd : d < 64) (s : Bytes) :
    digits (letter d :: s) = (digits s).map (d :: ·) := by
  simp only [digits, letter_ne_pad hd, if_false, value_letter hd]
  cases digits s <;> rfl

theorem digits_rfc : ∀ data : Bytes, ∃ ds, digits (rfc data) = some ds ∧ bytesOf ds = data
  | [] => ⟨[], rfl, rfl⟩
  | [a] => by
    have ha := UInt8.toNat_lt a
    simp only [rfc]
    rw [digits_letter (by omega), digits_letter (by omega)]
    refine ⟨_, rfl, ?_⟩
    simp only [bytesOf]
    rw [show UInt8.ofNat _ = a from by
      rw [← UInt8.ofNat_toNat (x := a)]; apply of8'; rw [UInt8.ofNat_toNat]; omega]
  | [a, b] => by
    have ha := UInt8.toNat_lt a
    have hb := UInt8.toNat_lt b
    simp only [rfc]
    rw [digits_letter (by omega), digits_letter (by omega), digits_letter (by omega)]
    refine ⟨_, rfl, ?_⟩
    simp only [bytesOf]
    congr 1
    · apply UInt8.toNat_inj.1; rw [UInt8.toNat_ofNat']; omega
    · congr 1
      apply UInt8.toNat_inj.1; rw [UInt8.toNat_ofNat']; omega
  | a :: b :: c :: t => by
    have ha := UInt8.toNat_lt a
    have hb := UInt8.toNat_lt b
    have hc := UInt8.toNat_lt c
    obtain ⟨ds, h1, h2⟩ := digits_rfc t
    simp only [rfc]
    rw [digits_letter (by omega), digits_letter (by omega), digits_letter (by omega),
      digits_letter (by omega), h1]
    refine ⟨_, rfl, ?_⟩
    simp only [bytesOf, h2]
    congr 1
    · apply UInt8.toNat_inj.1; rw [UInt8.toNat_ofNat']; omega
    · congr 1
      · apply UInt8.toNat_inj.1; rw [UInt8.toNat_ofNat']; omega
      · congr 1
        apply UInt8.toNat_inj.1; rw [UInt8.toNat_ofNat']; omega

end Zer.Base64
