import Verif.Narrow
import Verif.Val

/-!
# Numbers in JSON texts

The syntax of numbers (RFC 8259, section 6) and their values. Numbers without fraction and exponent that fit are integers,
all others the nearest double; a number that rounds to infinity is an error. This is what yyjson documents for
`yyjson_read` without flags.
-/

namespace Zer.Json

/-! ## Rounding to doubles -/

/-- Units of 2^-1074 of the double with pattern `n` (without sign). -/
def dblUnits (n : Nat) : Nat := if n / 2 ^ 52 = 0 then n else (2 ^ 52 + n % 2 ^ 52) * 2 ^ (n / 2 ^ 52 - 1)

/-- The pattern (without sign) of the double nearest to `u / den` units of 2^-1074, ties to even; patterns from `2047 * 2 ^ 52` on
stand for infinity. -/
def roundRat (u den : Nat) : Nat :=
  let p := Nat.log2 (u / den) - 52
  p * 2 ^ 52 + roundDiv u (den * 2 ^ p)

theorem dblUnits_at {p a : Nat} (ha : a ≤ 2 ^ 53) (hl : p = 0 ∨ 2 ^ 52 ≤ a) : dblUnits (p * 2 ^ 52 + a) = a * 2 ^ p := by
  unfold dblUnits
  by_cases h0 : a < 2 ^ 52
  · have : p = 0 := by omega
    subst this
    rw [if_pos (by omega)]; omega
  · by_cases h1 : a = 2 ^ 53
    · subst h1
      have e1 : (p * 2 ^ 52 + 2 ^ 53) / 2 ^ 52 = p + 2 := by omega
      have e2 : (p * 2 ^ 52 + 2 ^ 53) % 2 ^ 52 = 0 := by omega
      rw [if_neg (by omega), e1, e2]
      have : p + 2 - 1 = p + 1 := by omega
      rw [this, Nat.pow_succ]; omega
    · have e1 : (p * 2 ^ 52 + a) / 2 ^ 52 = p + 1 := by omega
      have e2 : (p * 2 ^ 52 + a) % 2 ^ 52 = a - 2 ^ 52 := by omega
      rw [if_neg (by omega), e1, e2]
      have : 2 ^ 52 + (a - 2 ^ 52) = a := by omega
      rw [this]; rfl

theorem dblUnits_succ (n : Nat) : dblUnits n < dblUnits (n + 1) := by
  by_cases h : n < 2 ^ 52
  · have h1 := dblUnits_at (p := 0) (a := n) (by omega) (.inl rfl)
    have h2 := dblUnits_at (p := 0) (a := n + 1) (by omega) (.inl rfl)
    simp only [Nat.zero_mul, Nat.zero_add] at h1 h2
    rw [h1, h2]
    exact Nat.mul_lt_mul_of_pos_right (by omega) (Nat.two_pow_pos _)
  · obtain ⟨k, a, e, h1, h2⟩ : ∃ k a, n = k * 2 ^ 52 + a ∧ 2 ^ 52 ≤ a ∧ a < 2 ^ 53 :=
      ⟨n / 2 ^ 52 - 1, n % 2 ^ 52 + 2 ^ 52, by omega, by omega, by omega⟩
    have h3 := dblUnits_at (p := k) (a := a) (by omega) (.inr h1)
    have h4 := dblUnits_at (p := k) (a := a + 1) (by omega) (.inr (by omega))
    rw [e, Nat.add_assoc, h3, h4]
    exact Nat.mul_lt_mul_of_pos_right (by omega) (Nat.two_pow_pos _)

theorem dblUnits_lt {m n : Nat} (h : m < n) : dblUnits m < dblUnits n := by
  induction n with
  | zero => omega
  | succ n ih =>
    have := dblUnits_succ n
    rcases Nat.lt_succ_iff_lt_or_eq.1 h with h | rfl
    · have := ih h; omega
    · exact this

theorem dblUnits_le {m n : Nat} (h : m ≤ n) : dblUnits m ≤ dblUnits n := by
  rcases Nat.lt_or_eq_of_le h with h | rfl
  · exact Nat.le_of_lt (dblUnits_lt h)
  · exact Nat.le_refl _

theorem dblUnits_inj {m n : Nat} (h : dblUnits m = dblUnits n) : m = n := by
  rcases Nat.lt_trichotomy m n with h' | h' | h'
  · have := dblUnits_lt h'; omega
  · exact h'
  · have := dblUnits_lt h'; omega

/-- Where the number lies between two neighbouring doubles. -/
theorem rat_between {u den : Nat} (hd : 0 < den) : ∃ p a, p = Nat.log2 (u / den) - 52 ∧ a < 2 ^ 53 ∧ (p = 0 ∨ 2 ^ 52 ≤ a) ∧
    a = u / (den * 2 ^ p) := by
  refine ⟨Nat.log2 (u / den) - 52, u / (den * 2 ^ (Nat.log2 (u / den) - 52)), rfl, ?_, ?_, rfl⟩
  · rw [← Nat.div_div_eq_div_mul, Nat.div_lt_iff_lt_mul (Nat.two_pow_pos _)]
    by_cases h0 : u / den = 0
    · rw [h0]; exact Nat.mul_pos (by decide) (Nat.two_pow_pos _)
    · have := (log2_bounds (Nat.pos_of_ne_zero h0)).2
      refine Nat.lt_of_lt_of_le this ?_
      rw [← Nat.pow_add]
      exact Nat.pow_le_pow_right (by decide) (by omega)
  · by_cases h : Nat.log2 (u / den) - 52 = 0
    · left; exact h
    · right
      rw [← Nat.div_div_eq_div_mul, Nat.le_div_iff_mul_le (Nat.two_pow_pos _), ← Nat.pow_add]
      have h0 : 0 < u / den := by
        rcases Nat.eq_zero_or_pos (u / den) with h0 | h0
        · rw [h0] at h; simp at h
        · exact h0
      refine Nat.le_trans ?_ (log2_bounds h0).1
      exact Nat.pow_le_pow_right (by decide) (by omega)

/-- No double is nearer; another one as near only if the result is even. -/
theorem roundRat_spec {u den : Nat} (hd : 0 < den) (g : Nat) :
    dist (dblUnits (roundRat u den) * den) u < dist (dblUnits g * den) u ∨ g = roundRat u den ∨
      (dist (dblUnits (roundRat u den) * den) u = dist (dblUnits g * den) u ∧ roundRat u den % 2 = 0) := by
  obtain ⟨p, a, ep, ha, hl, ea⟩ := rat_between (u := u) hd
  have hpos : 0 < den * 2 ^ p := Nat.mul_pos hd (Nat.two_pow_pos p)
  have v0 : dblUnits (p * 2 ^ 52 + a) * den = a * (den * 2 ^ p) := by
    rw [dblUnits_at (Nat.le_of_lt ha) hl, Nat.mul_assoc, Nat.mul_comm den]
  have v1 : dblUnits (p * 2 ^ 52 + (a + 1)) * den = (a + 1) * (den * 2 ^ p) := by
    rw [dblUnits_at ha (hl.imp id (by omega)), Nat.mul_assoc, Nat.mul_comm den]
  have hdm : a * (den * 2 ^ p) + u % (den * 2 ^ p) = u := by
    rw [ea, Nat.mul_comm]; exact Nat.div_add_mod u (den * 2 ^ p)
  have hr : u % (den * 2 ^ p) < den * 2 ^ p := Nat.mod_lt _ hpos
  have hs : (a + 1) * (den * 2 ^ p) = a * (den * 2 ^ p) + den * 2 ^ p := by rw [Nat.add_mul, Nat.one_mul]
  have e : roundRat u den = p * 2 ^ 52 + roundDiv u (den * 2 ^ p) := by simp only [roundRat, ← ep]
  have key : (g ≤ p * 2 ^ 52 + a ∧ dblUnits g * den ≤ a * (den * 2 ^ p) ∧
        (g = p * 2 ^ 52 + a ∨ dblUnits g * den < a * (den * 2 ^ p))) ∨
      (p * 2 ^ 52 + (a + 1) ≤ g ∧ (a + 1) * (den * 2 ^ p) ≤ dblUnits g * den ∧
        (g = p * 2 ^ 52 + (a + 1) ∨ (a + 1) * (den * 2 ^ p) < dblUnits g * den)) := by
    by_cases h : g ≤ p * 2 ^ 52 + a
    · refine .inl ⟨h, v0 ▸ Nat.mul_le_mul_right _ (dblUnits_le h), ?_⟩
      rcases Nat.lt_or_eq_of_le h with h | h
      · exact .inr (v0 ▸ Nat.mul_lt_mul_of_pos_right (dblUnits_lt h) hd)
      · exact .inl h
    · have h : p * 2 ^ 52 + (a + 1) ≤ g := by omega
      refine .inr ⟨h, v1 ▸ Nat.mul_le_mul_right _ (dblUnits_le h), ?_⟩
      rcases Nat.lt_or_eq_of_le h with h | h
      · exact .inr (v1 ▸ Nat.mul_lt_mul_of_pos_right (dblUnits_lt h) hd)
      · exact .inl h.symm
  rw [e]
  unfold roundDiv
  rw [← ea]
  simp only
  have hpar : (p * 2 ^ 52 + a) % 2 = a % 2 := by omega
  generalize den * 2 ^ p = s at *
  generalize u % s = r at *
  generalize hA : a * s = A at *
  generalize hB : (a + 1) * s = B at *
  unfold dist
  split
  · rw [v0]
    rcases key with ⟨h1, h2, h3 | h3⟩ | ⟨h1, h2, h3⟩
    · exact .inr (.inl h3)
    · left; omega
    · left; omega
  · split
    · rw [v1]
      rcases key with ⟨h1, h2, h3⟩ | ⟨h1, h2, h3 | h3⟩
      · left; omega
      · exact .inr (.inl h3)
      · left; omega
    · by_cases he : a % 2 = 0
      · rw [he, Nat.add_zero, v0]
        rcases key with ⟨h1, h2, h3 | h3⟩ | ⟨h1, h2, h3 | h3⟩
        · exact .inr (.inl h3)
        · left; omega
        · right; right
          rw [h3, v1]
          exact ⟨by omega, by omega⟩
        · left; omega
      · have h1 : a % 2 = 1 := by omega
        rw [h1, v1]
        rcases key with ⟨h1, h2, h3 | h3⟩ | ⟨h1, h2, h3 | h3⟩
        · right; right
          rw [h3, v0]
          exact ⟨by omega, by omega⟩
        · left; omega
        · exact .inr (.inl h3)
        · left; omega

/-- A number that is a double rounds to it. -/
theorem roundRat_exact {u den n : Nat} (hd : 0 < den) (h : u = dblUnits n * den) : roundRat u den = n := by
  rcases roundRat_spec (u := u) hd n with h1 | h1 | ⟨h1, -⟩
  · rw [← h] at h1; unfold dist at h1; omega
  · exact h1.symm
  · rw [← h] at h1
    have : dblUnits (roundRat u den) * den = dblUnits n * den := by unfold dist at h1; omega
    exact dblUnits_inj (Nat.eq_of_mul_eq_mul_right hd this)

/-! ## Syntax -/

/-- A number: sign, integer part, fraction (empty: none), exponent (capital `E`, sign with `true` for minus, digits). -/
structure Dec where
  neg : Bool
  int : List Nat
  frac : List Nat
  exp : Option (Bool × Option Bool × List Nat)
  deriving DecidableEq, Repr

/-- Digits in ASCII. -/
def digs (ds : List Nat) : Bytes := ds.map (fun d => UInt8.ofNat (0x30 + d))

/-- `[ "-" / "+" ]` -/
def signText : Option Bool → Bytes
  | none => []
  | some true => [0x2d]
  | some false => [0x2b]

/-- `[ "e" / "E" ] [ "-" / "+" ] 1*DIGIT` -/
def expText : Option (Bool × Option Bool × List Nat) → Bytes
  | none => []
  | some (up, sg, ds) => (if up then 0x45 else 0x65) :: (signText sg ++ digs ds)

/-- `[ "." 1*DIGIT ]` -/
def fracText (ds : List Nat) : Bytes := if ds = [] then [] else 0x2e :: digs ds

/-- `[ minus ] int [ frac ] [ exp ]` -/
def Dec.text (n : Dec) : Bytes := (if n.neg then [0x2d] else []) ++ (digs n.int ++ (fracText n.frac ++ expText n.exp))

/-- The syntax of RFC 8259, section 6: `int` is zero or starts with another digit. -/
structure Dec.Ok (n : Dec) : Prop where
  int : ∀ d ∈ n.int, d < 10
  ne : n.int ≠ []
  zero : n.int.head? = some 0 → n.int = [0]
  frac : ∀ d ∈ n.frac, d < 10
  exp : ∀ up sg ds, n.exp = some (up, sg, ds) → ds ≠ [] ∧ ∀ d ∈ ds, d < 10

/-- The number that digits stand for. -/
def natOf (ds : List Nat) : Nat := ds.foldl (fun n d => 10 * n + d) 0

/-- The exponent. -/
def expVal : Option (Bool × Option Bool × List Nat) → Int
  | none => 0
  | some (_, some true, ds) => - (natOf ds : Int)
  | some (_, _, ds) => natOf ds

/-- The double nearest to `m * 10 ^ e`; `none` if that is infinity. -/
def decDouble (neg : Bool) (m : Nat) (e : Int) : Option UInt64 :=
  let n := roundRat (m * 10 ^ e.toNat * 2 ^ 1074) (10 ^ (-e).toNat)
  if n < 2047 * 2 ^ 52 then some (UInt64.ofNat ((if neg then 2 ^ 63 else 0) + n)) else none

/-- The number as a double. -/
def Dec.real (n : Dec) : Option Val :=
  (decDouble n.neg (natOf (n.int ++ n.frac)) (expVal n.exp - n.frac.length)).map Val.dbl

/-- The value: `yyjson_val` with subtype UINT, SINT or REAL. `-0` is SINT. -/
def Dec.val (n : Dec) : Option Val :=
  if n.frac = [] ∧ n.exp = none then
    if n.neg then if natOf n.int ≤ 2 ^ 63 then some (.int (Int64.ofInt (-(natOf n.int : Int)))) else n.real
    else if natOf n.int < 2 ^ 64 then some (.uint (UInt64.ofNat (natOf n.int))) else n.real
  else n.real

/-! ## Reading -/

/-- The longest prefix of digits. -/
def takeDigits : Bytes → List Nat × Bytes
  | [] => ([], [])
  | a :: r =>
    if 0x30 ≤ a.toNat ∧ a.toNat ≤ 0x39 then ((a.toNat - 0x30) :: (takeDigits r).1, (takeDigits r).2)
    else ([], a :: r)

/-- The sign. -/
def takeMinus : Bytes → Bool × Bytes
  | [] => (false, [])
  | a :: r => if a = 0x2d then (true, r) else (false, a :: r)

/-- The integer part. -/
def takeInt : Bytes → Option (List Nat × Bytes)
  | [] => none
  | a :: r =>
    if a = 0x30 then some ([0], r)
    else if (takeDigits (a :: r)).1 = [] then none else some (takeDigits (a :: r))

/-- The fraction. -/
def takeFrac : Bytes → Option (List Nat × Bytes)
  | [] => some ([], [])
  | a :: r =>
    if a = 0x2e then if (takeDigits r).1 = [] then none else some (takeDigits r)
    else some ([], a :: r)

/-- The sign of the exponent. -/
def takeSign : Bytes → Option Bool × Bytes
  | [] => (none, [])
  | a :: r => if a = 0x2d then (some true, r) else if a = 0x2b then (some false, r) else (none, a :: r)

/-- The exponent. -/
def takeExp : Bytes → Option (Option (Bool × Option Bool × List Nat) × Bytes)
  | [] => some (none, [])
  | a :: r =>
    if a = 0x65 ∨ a = 0x45 then
      let (sg, r) := takeSign r
      if (takeDigits r).1 = [] then none else some (some (decide (a = 0x45), sg, (takeDigits r).1), (takeDigits r).2)
    else some (none, a :: r)

/-- A number and the rest. -/
def takeNum (b : Bytes) : Option (Dec × Bytes) :=
  match takeInt (takeMinus b).2 with
  | none => none
  | some (i, r) =>
    match takeFrac r with
    | none => none
    | some (f, r) =>
      match takeExp r with
      | none => none
      | some (e, r) => some (⟨(takeMinus b).1, i, f, e⟩, r)

/-- What may follow a number: nothing that could belong to it. -/
def Stop : Bytes → Prop
  | [] => True
  | a :: _ => ¬ (0x30 ≤ a.toNat ∧ a.toNat ≤ 0x39) ∧ a ≠ 0x2e ∧ a ≠ 0x65 ∧ a ≠ 0x45

theorem digit_byte {d : Nat} (h : d < 10) : (UInt8.ofNat (0x30 + d)).toNat = 0x30 + d := by
  rw [UInt8.toNat_ofNat']; omega

theorem takeDigits_append : ∀ b, b = digs (takeDigits b).1 ++ (takeDigits b).2 ∧ ∀ d ∈ (takeDigits b).1, d < 10
  | [] => ⟨rfl, by simp [takeDigits]⟩
  | a :: r => by
    obtain ⟨h1, h2⟩ := takeDigits_append r
    simp only [takeDigits]
    split
    · rename_i h
      refine ⟨?_, ?_⟩
      · simp only [digs, List.map_cons, List.cons_append, List.cons.injEq]
        refine ⟨?_, h1⟩
        apply UInt8.toNat_inj.1
        rw [digit_byte (by omega)]; omega
      · intro d hd
        rcases List.mem_cons.1 hd with rfl | hd
        · omega
        · exact h2 d hd
    · exact ⟨rfl, by simp⟩

/-- Digits are taken up to the first other byte. -/
theorem takeDigits_digs : ∀ {ds : List Nat}, (∀ d ∈ ds, d < 10) → ∀ {r : Bytes},
    (∀ a r', r = a :: r' → ¬ (0x30 ≤ a.toNat ∧ a.toNat ≤ 0x39)) → takeDigits (digs ds ++ r) = (ds, r)
  | [], _, r, hr => by
    cases r with
    | nil => rfl
    | cons a r => simp only [digs, List.map_nil, List.nil_append, takeDigits, if_neg (hr a r rfl)]
  | d :: ds, hd, r, hr => by
    have h := hd d (List.mem_cons_self ..)
    have ih := takeDigits_digs (fun x hx => hd x (List.mem_cons_of_mem _ hx)) hr
    simp only [digs, List.map_cons, List.cons_append, takeDigits]
    rw [digit_byte h, if_pos (by omega)]
    simp only [digs] at ih
    rw [ih]
    simp

theorem takeMinus_append (b : Bytes) : b = (if (takeMinus b).1 then [0x2d] else []) ++ (takeMinus b).2 := by
  cases b with
  | nil => rfl
  | cons a r =>
    simp only [takeMinus]
    split
    · rename_i h; rw [h]; rfl
    · rfl

theorem takeInt_sound {b r : Bytes} {ds : List Nat} (h : takeInt b = some (ds, r)) :
    b = digs ds ++ r ∧ (∀ d ∈ ds, d < 10) ∧ ds ≠ [] ∧ (ds.head? = some 0 → ds = [0]) := by
  cases b with
  | nil => simp [takeInt] at h
  | cons a b =>
    simp only [takeInt] at h
    split at h
    · rename_i ha
      simp only [Option.some.injEq, Prod.mk.injEq] at h
      obtain ⟨rfl, rfl⟩ := h
      rw [ha]
      exact ⟨rfl, by simp, by simp, fun _ => rfl⟩
    · rename_i ha
      split at h
      · cases h
      · rename_i hne
        simp only [Option.some.injEq] at h
        obtain ⟨h1, h2⟩ := takeDigits_append (a :: b)
        rw [h] at h1 h2 hne
        refine ⟨h1, h2, hne, fun h0 => ?_⟩
        exfalso
        cases ds with
        | nil => exact hne rfl
        | cons d ds =>
          simp only [List.head?_cons, Option.some.injEq] at h0
          subst h0
          simp only [digs, List.map_cons, List.cons_append, List.cons.injEq] at h1
          exact ha h1.1

theorem takeFrac_sound {b r : Bytes} {ds : List Nat} (h : takeFrac b = some (ds, r)) :
    b = fracText ds ++ r ∧ ∀ d ∈ ds, d < 10 := by
  cases b with
  | nil =>
    simp only [takeFrac, Option.some.injEq, Prod.mk.injEq] at h
    obtain ⟨rfl, rfl⟩ := h
    exact ⟨rfl, by simp⟩
  | cons a b =>
    simp only [takeFrac] at h
    split at h
    · rename_i ha
      split at h
      · cases h
      · rename_i hne
        simp only [Option.some.injEq] at h
        obtain ⟨h1, h2⟩ := takeDigits_append b
        rw [h] at h1 h2 hne
        refine ⟨?_, h2⟩
        unfold fracText
        rw [if_neg hne, ha, h1]; rfl
    · simp only [Option.some.injEq, Prod.mk.injEq] at h
      obtain ⟨rfl, rfl⟩ := h
      exact ⟨rfl, by simp⟩

theorem takeSign_append (b : Bytes) : b = signText (takeSign b).1 ++ (takeSign b).2 := by
  cases b with
  | nil => rfl
  | cons a r =>
    simp only [takeSign]
    by_cases h : a = 0x2d
    · rw [if_pos h, h]; rfl
    · rw [if_neg h]
      by_cases h : a = 0x2b
      · rw [if_pos h, h]; rfl
      · rw [if_neg h]; rfl

theorem takeExp_sound {b r : Bytes} {e : Option (Bool × Option Bool × List Nat)} (h : takeExp b = some (e, r)) :
    b = expText e ++ r ∧ ∀ up sg ds, e = some (up, sg, ds) → ds ≠ [] ∧ ∀ d ∈ ds, d < 10 := by
  cases b with
  | nil =>
    simp only [takeExp, Option.some.injEq, Prod.mk.injEq] at h
    obtain ⟨rfl, rfl⟩ := h
    exact ⟨rfl, by simp⟩
  | cons a b =>
    simp only [takeExp] at h
    split at h
    · rename_i ha
      split at h
      · cases h
      · rename_i hne
        simp only [Option.some.injEq, Prod.mk.injEq] at h
        obtain ⟨rfl, rfl⟩ := h
        obtain ⟨h1, h2⟩ := takeDigits_append (takeSign b).2
        have h3 := takeSign_append b
        refine ⟨?_, ?_⟩
        · simp only [expText, List.cons_append, List.cons.injEq, List.append_assoc]
          refine ⟨?_, ?_⟩
          · rcases ha with rfl | rfl <;> rfl
          · rw [← h1]; exact h3
        · intro up sg ds he
          simp only [Option.some.injEq, Prod.mk.injEq] at he
          obtain ⟨-, -, rfl⟩ := he
          exact ⟨hne, h2⟩
    · simp only [Option.some.injEq, Prod.mk.injEq] at h
      obtain ⟨rfl, rfl⟩ := h
      exact ⟨rfl, by simp⟩

/-- What is taken is a number. -/
theorem takeNum_sound {b r : Bytes} {n : Dec} (h : takeNum b = some (n, r)) : b = n.text ++ r ∧ n.Ok := by
  unfold takeNum at h
  split at h
  · cases h
  · rename_i i r1 hi
    split at h
    · cases h
    · rename_i f r2 hf
      split at h
      · cases h
      · rename_i e r3 he
        simp only [Option.some.injEq, Prod.mk.injEq] at h
        obtain ⟨rfl, rfl⟩ := h
        obtain ⟨i1, i2, i3, i4⟩ := takeInt_sound hi
        obtain ⟨f1, f2⟩ := takeFrac_sound hf
        obtain ⟨e1, e2⟩ := takeExp_sound he
        refine ⟨?_, i2, i3, i4, f2, e2⟩
        have := takeMinus_append b
        rw [i1, f1, e1] at this
        simp only [Dec.text, List.append_assoc]
        exact this

theorem head_digs {ds : List Nat} {r : Bytes} (h : ds ≠ []) (hd : ∀ d ∈ ds, d < 10) :
    ∃ a t, digs ds ++ r = a :: t ∧ 0x30 ≤ a.toNat ∧ a.toNat ≤ 0x39 := by
  cases ds with
  | nil => exact absurd rfl h
  | cons d ds =>
    have := hd d (List.mem_cons_self ..)
    exact ⟨_, _, rfl, by rw [digit_byte this]; omega, by rw [digit_byte this]; omega⟩

theorem takeExp_text {e : Option (Bool × Option Bool × List Nat)} (he : ∀ up sg ds, e = some (up, sg, ds) → ds ≠ [] ∧ ∀ d ∈ ds, d < 10)
    {r : Bytes} (hr : Stop r) : takeExp (expText e ++ r) = some (e, r) := by
  have hst : ∀ a r', r = a :: r' → ¬ (0x30 ≤ a.toNat ∧ a.toNat ≤ 0x39) := by rintro a r' rfl; exact hr.1
  cases e with
  | none =>
    cases r with
    | nil => rfl
    | cons a r =>
      obtain ⟨-, -, h1, h2⟩ := hr
      simp only [expText, List.nil_append, takeExp]
      rw [if_neg (by simp [h1, h2])]
  | some e =>
    obtain ⟨up, sg, ds⟩ := e
    obtain ⟨hne, hds⟩ := he up sg ds rfl
    have hs : takeSign ((signText sg ++ digs ds) ++ r) = (sg, digs ds ++ r) := by
      cases sg with
      | none =>
        obtain ⟨a, t, e1, e2, e3⟩ := head_digs (r := r) hne hds
        simp only [signText, List.nil_append]
        rw [e1]
        simp only [takeSign]
        rw [if_neg (by rintro rfl; simp at e2), if_neg (by rintro rfl; simp at e2)]
      | some b => cases b <;> rfl
    simp only [expText, List.cons_append, takeExp]
    rw [hs]
    simp only [takeDigits_digs hds hst, if_neg hne]
    cases up <;> simp

theorem stop_expText (e : Option (Bool × Option Bool × List Nat)) {r : Bytes} (hr : Stop r) :
    ∀ a t, expText e ++ r = a :: t → ¬ (0x30 ≤ a.toNat ∧ a.toNat ≤ 0x39) ∧ a ≠ 0x2e := by
  intro a t h
  cases e with
  | none =>
    simp only [expText, List.nil_append] at h
    rw [h] at hr
    exact ⟨hr.1, hr.2.1⟩
  | some e =>
    obtain ⟨up, sg, ds⟩ := e
    simp only [expText, List.cons_append, List.cons.injEq] at h
    rw [← h.1]
    cases up <;> decide

theorem takeFrac_text {ds : List Nat} (hd : ∀ d ∈ ds, d < 10) {r : Bytes}
    (hr : ∀ a t, r = a :: t → ¬ (0x30 ≤ a.toNat ∧ a.toNat ≤ 0x39) ∧ a ≠ 0x2e) : takeFrac (fracText ds ++ r) = some (ds, r) := by
  unfold fracText
  by_cases h : ds = []
  · subst h
    rw [if_pos rfl]
    cases r with
    | nil => rfl
    | cons a r =>
      simp only [List.nil_append, takeFrac]
      rw [if_neg (hr a r rfl).2]
  · rw [if_neg h]
    simp only [List.cons_append, takeFrac, if_true]
    rw [takeDigits_digs hd (fun a t h => (hr a t h).1)]
    simp only [if_neg h]

theorem digs_length_one : digs [0] = [0x30] := rfl

theorem takeInt_text {ds : List Nat} (hd : ∀ d ∈ ds, d < 10) (hne : ds ≠ []) (hz : ds.head? = some 0 → ds = [0]) {r : Bytes}
    (hr : ∀ a t, r = a :: t → ¬ (0x30 ≤ a.toNat ∧ a.toNat ≤ 0x39)) : takeInt (digs ds ++ r) = some (ds, r) := by
  cases ds with
  | nil => exact absurd rfl hne
  | cons d ds =>
    have h10 := hd d (List.mem_cons_self ..)
    by_cases h0 : d = 0
    · subst h0
      have := hz rfl
      rw [this]
      rfl
    · have e := takeDigits_digs hd hr
      have hb : UInt8.ofNat (0x30 + d) ≠ 0x30 := by
        intro h
        have := congrArg UInt8.toNat h
        rw [digit_byte h10] at this
        simp at this; omega
      simp only [digs, List.map_cons, List.cons_append, takeInt] at e ⊢
      rw [if_neg hb, e]
      simp

/-- Every number is taken as a whole. -/
theorem takeNum_text {n : Dec} (hn : n.Ok) {r : Bytes} (hr : Stop r) : takeNum (n.text ++ r) = some (n, r) := by
  obtain ⟨neg, i, f, e⟩ := n
  have h3 := takeExp_text hn.exp hr
  have s3 := stop_expText e hr
  have h2 := takeFrac_text hn.frac s3
  have s2 : ∀ a t, fracText f ++ (expText e ++ r) = a :: t → ¬ (0x30 ≤ a.toNat ∧ a.toNat ≤ 0x39) := by
    intro a t h
    unfold fracText at h
    split at h
    · exact (s3 a t h).1
    · simp only [List.cons_append, List.cons.injEq] at h
      rw [← h.1]; decide
  have h1 := takeInt_text hn.int hn.ne hn.zero s2
  have hm : takeMinus (Dec.text ⟨neg, i, f, e⟩ ++ r) = (neg, digs i ++ (fracText f ++ (expText e ++ r))) := by
    cases neg with
    | true => simp [Dec.text, takeMinus]
    | false =>
      obtain ⟨a, t, e1, e2, e3⟩ := head_digs (r := fracText f ++ (expText e ++ r)) hn.ne hn.int
      simp only [Dec.text, List.nil_append, List.append_assoc, if_neg Bool.false_ne_true]
      simp only at e1
      rw [e1]
      simp only [takeMinus]
      rw [if_neg (by rintro rfl; simp at e2)]
  simp only at h1 h2 h3
  unfold takeNum
  rw [hm]
  simp only [h1, h2, h3]

/-! ## Writing integers -/

def digitsFuel : Nat → Nat → List Nat
  | 0, _ => []
  | f + 1, n => if n < 10 then [n] else digitsFuel f (n / 10) ++ [n % 10]

/-- Decimal digits. -/
def decDigits (n : Nat) : List Nat := digitsFuel (Nat.log2 n + 1) n

theorem natOf_append (a : List Nat) (d : Nat) : natOf (a ++ [d]) = 10 * natOf a + d := by
  simp [natOf, List.foldl_append]

theorem digitsFuel_spec : ∀ {f n : Nat}, n < 2 ^ f → 0 < f → natOf (digitsFuel f n) = n ∧ (∀ d ∈ digitsFuel f n, d < 10) ∧
    digitsFuel f n ≠ [] ∧ ((digitsFuel f n).head? = some 0 → digitsFuel f n = [0])
  | 0, n, _, h => by omega
  | f + 1, n, h, _ => by
    simp only [digitsFuel]
    split
    · rename_i h10
      refine ⟨by simp [natOf], by simpa using h10, by simp, ?_⟩
      simp only [List.head?_cons, Option.some.injEq]
      rintro rfl; rfl
    · rename_i h10
      have hf : 0 < f := by
        rcases Nat.eq_zero_or_pos f with rfl | hf
        · simp at h; omega
        · exact hf
      rw [Nat.pow_succ] at h
      obtain ⟨h1, h2, h3, h4⟩ := digitsFuel_spec (f := f) (n := n / 10) (by omega) hf
      refine ⟨?_, ?_, by simp, ?_⟩
      · rw [natOf_append, h1]; omega
      · intro d hd
        rcases List.mem_append.1 hd with hd | hd
        · exact h2 d hd
        · simp at hd; omega
      · intro h0
        exfalso
        have e : (digitsFuel f (n / 10)).head? = some 0 := by
          cases hc : digitsFuel f (n / 10) with
          | nil => exact absurd hc h3
          | cons a l => rw [hc] at h0; simpa using h0
        have := h4 e
        rw [this] at h1
        simp [natOf] at h1
        omega

theorem decDigits_spec (n : Nat) : natOf (decDigits n) = n ∧ (∀ d ∈ decDigits n, d < 10) ∧ decDigits n ≠ [] ∧
    ((decDigits n).head? = some 0 → decDigits n = [0]) := by
  refine digitsFuel_spec ?_ (by omega)
  rcases Nat.eq_zero_or_pos n with rfl | h
  · exact Nat.two_pow_pos _
  · exact (log2_bounds h).2

/-- An integer as a number. -/
def intDec (neg : Bool) (n : Nat) : Dec := ⟨neg, decDigits n, [], none⟩

theorem intDec_ok (neg : Bool) (n : Nat) : (intDec neg n).Ok := by
  obtain ⟨-, h2, h3, h4⟩ := decDigits_spec n
  exact ⟨h2, h3, h4, by simp [intDec], by simp [intDec]⟩

theorem intDec_uint {n : Nat} (h : n < 2 ^ 64) : (intDec false n).val = some (.uint (UInt64.ofNat n)) := by
  simp only [Dec.val, intDec, and_self, if_true, (decDigits_spec n).1, h]
  rfl

theorem intDec_int {n : Nat} (h : n ≤ 2 ^ 63) : (intDec true n).val = some (.int (Int64.ofInt (-(n : Int)))) := by
  simp only [Dec.val, intDec, and_self, if_true, (decDigits_spec n).1, h]

/-! ## Writing doubles -/

/-- The magnitude of a double: its pattern without the sign. -/
def mag (d : UInt64) : Nat := d.toNat % 2 ^ 63

/-- A finite double written exactly: the number of units of 2^-1074 times 5^1074, `e-1074`. (yyjson writes the shortest
number that rounds to the double.) -/
def exactDec (d : UInt64) : Dec :=
  ⟨decide (2 ^ 63 ≤ d.toNat), decDigits (dblUnits (mag d) * 5 ^ 1074), [], some (false, some true, [1, 0, 7, 4])⟩

theorem tiny_ok (neg : Bool) (m : Nat) : Dec.Ok ⟨neg, decDigits m, [], some (false, some true, [1, 0, 7, 4])⟩ := by
  obtain ⟨-, h2, h3, h4⟩ := decDigits_spec m
  refine ⟨h2, h3, h4, by simp, ?_⟩
  intro up sg ds h
  simp only [Option.some.injEq, Prod.mk.injEq] at h
  rw [← h.2.2]
  exact ⟨by simp, by decide⟩

theorem exactDec_ok (d : UInt64) : (exactDec d).Ok := by
  unfold exactDec
  exact tiny_ok _ _

theorem decDouble_exact {neg : Bool} {m n k : Nat} (hm : m = dblUnits n * 5 ^ k) (hn : n < 2047 * 2 ^ 52) (hk : k = 1074) :
    decDouble neg m (-(k : Int)) = some (UInt64.ofNat ((if neg then 2 ^ 63 else 0) + n)) := by
  have e1 : (-(k : Int)).toNat = 0 := by omega
  have e2 : (-(-(k : Int))).toNat = k := by omega
  have e : roundRat (m * 10 ^ (-(k : Int)).toNat * 2 ^ 1074) (10 ^ (-(-(k : Int))).toNat) = n := by
    refine roundRat_exact (Nat.pow_pos (by decide)) ?_
    rw [e1, e2, hm, Nat.pow_zero, Nat.mul_one, Nat.mul_assoc, ← hk, ← Nat.mul_pow]
  unfold decDouble
  simp only [e, if_pos hn]

theorem exactDec_real {d : UInt64} (h : d.toNat / 2 ^ 52 % 2 ^ 11 ≠ 2 ^ 11 - 1) :
    (exactDec d).val = some (.dbl d) := by
  have hlt := d.toNat_lt
  have hn : mag d < 2047 * 2 ^ 52 := by unfold mag; omega
  have hd : UInt64.ofNat ((if decide (2 ^ 63 ≤ d.toNat) = true then 2 ^ 63 else 0) + mag d) = d := by
    apply UInt64.toNat_inj.1
    rw [UInt64.toNat_ofNat']
    unfold mag
    by_cases h : 2 ^ 63 ≤ d.toNat
    · rw [if_pos (decide_eq_true h)]; omega
    · rw [if_neg (by simpa using h)]; omega
  have hex : expVal (exactDec d).exp - ((exactDec d).frac.length : Int) = -((1074 : Nat) : Int) := by
    simp only [exactDec, expVal, natOf]
    decide
  unfold Dec.val
  rw [if_neg (by simp [exactDec])]
  unfold Dec.real
  rw [hex]
  simp only [exactDec, List.append_nil, (decDigits_spec _).1]
  rw [decDouble_exact rfl hn rfl, hd]
  rfl

example : (intDec true 12).text = [0x2d, 0x31, 0x32] ∧ (takeNum [0x2d, 0x31, 0x2e, 0x35, 0x65, 0x2b, 0x33, 0x2c]) =
    some (⟨true, [1], [5], some (false, some false, [3])⟩, [0x2c]) := by decide +kernel
example : decDouble true 15 2 = some 0xc097700000000000 ∧ decDouble false 1 (-1) = some 0x3fb999999999999a ∧
    decDouble false 1 309 = none ∧ decDouble false 5 (-324) = some 1 ∧ decDouble false 2 (-324) = some 0 := by decide +kernel

end Zer.Json
