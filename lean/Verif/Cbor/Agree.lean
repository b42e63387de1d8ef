import Verif.Cbor.Skip
import Verif.Each

/-!
# CBOR: the reader presents the encoded value
-/

namespace Zer.Cbor

open MsgPack (be be_length)

/-! ## Conditions -/

/-- Unsigned integers are below 2^63. -/
def _root_.Zer.Val.Small : Val → Prop := Val.Each
  (fun v => match v with | .uint n => n.toNat < 2 ^ 63 | _ => True) (fun _ => True)

/-- No empty string, blob or key. -/
def _root_.Zer.Val.NoEmpty : Val → Prop := Val.Each
  (fun v => match v with | .str s => s ≠ [] | .blob s => s ≠ [] | _ => True) (fun k => k ≠ [])

/-- What a hardened `operator[]` needs: a byte after the item, or no empty strings in it. -/
def Fine (hard : Bool) (v : Bytes) (stop : Nat) (e : Prop) : Prop :=
  hard = true → stop < v.length ∨ e

/-- Keys a range-for over `mapKeys()` yields before it ends or raises. -/
def keysSeenFrom (hard : Bool) (f : Nat) (v : Bytes) (indef : Bool) (stop : Nat) :
    Nat → Nat → Nat → Res (List Bytes)
  | 0, _, _ => .diverge
  | g + 1, q, remaining =>
    if q = stop then pure []
    else match View.keyDeref hard f v q with
      | .err _ => pure []
      | k => do
        let k ← k
        let (q, remaining) ← View.keyNext f v indef q remaining
        let ks ← keysSeenFrom hard f v indef stop g q remaining
        pure (k :: ks)

def keysSeen (hard : Bool) (f : Nat) (r : View) : Res (List Bytes) := do
  let h ← r.head
  Res.require (decide (h.major = 5)) .deser
  let h ← readHead true r.buf r.pos
  let stop ← View.keysEnd f r.buf r.pos
  keysSeenFrom hard f r.buf h.indef stop f (r.pos + h.hlen) (if h.indef then 0 else h.val)

/-- The reader; with `ind`, the string views are replaced by the accessors that can assemble chunks
(`asString`, `asBlobVec`) and key iteration by the keys seen. -/
def readerI (ind hard : Bool) (f : Nat) : Reader View :=
  if ind then { reader hard f with
    asStringView := View.asString hard f
    asBlob := View.asBlobVec hard f
    mapKeys := keysSeen hard f }
  else reader hard f

theorem readerI_false (hard : Bool) (f : Nat) : readerI false hard f = reader hard f := rfl

/-! ## Kinds -/

theorem shows_of_head {hard ind : Bool} {f : Nat} {v : Bytes} {p : Nat} {h : Head}
    (hr : readHead false v p = .ok h) :
    (readerI ind hard f).Shows ⟨v, p⟩ (decide (h.major = 7 ∧ h.addl = 22))
      (decide (h.major = 7 ∧ (h.addl = 20 ∨ h.addl = 21)))
      (decide (h.major = 0 ∨ h.major = 1))
      (decide (h.major = 7 ∧ (h.addl = 25 ∨ h.addl = 26 ∨ h.addl = 27)))
      (decide (h.major = 3)) (decide (h.major = 2)) (decide (h.major = 5)) (decide (h.major = 4)) := by
  cases ind <;>
  refine ⟨?_, ?_, ⟨decide (h.major = 0 ∨ h.major = 1), decide (h.major = 0), ?_, ?_, ?_⟩,
    ?_, ?_, ?_, ?_, ?_⟩ <;>
  simp [readerI, reader, View.isNull, View.isBool, View.isInt, View.isUInt, View.isFloat,
    View.isString, View.isBlob, View.isMap, View.isArray, View.head, hr]
  all_goals (intro h; exact .inl h)

theorem head_num (m a n l : Nat) (i : Bool) (h : m ≤ 6) {hard ind : Bool} {f : Nat} {v : Bytes}
    {p : Nat} (hr : readHead false v p = .ok ⟨m, a, n, l, i⟩) :
    (readerI ind hard f).Shows ⟨v, p⟩ false false (decide (m = 0 ∨ m = 1)) false
      (decide (m = 3)) (decide (m = 2)) (decide (m = 5)) (decide (m = 4)) := by
  have := shows_of_head (hard := hard) (ind := ind) (f := f) hr
  simpa [show m ≠ 7 by omega] using this

/-! ## Integers and floats -/

theorem i64_toInt {z : Int} (h1 : -2 ^ 63 ≤ z) (h2 : z < 2 ^ 63) : (Int64.ofInt z).toInt = z := by
  rw [Int64.toInt_ofInt]
  apply Int.bmod_eq_of_le <;> simp [Int64.size] <;> omega

theorem u64_toNat {n : Nat} (h : n < 2 ^ 64) : (UInt64.ofNat n).toNat = n := by
  simp only [UInt64.toNat_ofNat']; exact Nat.mod_eq_of_lt h

theorem showsInt_enc {z : Int} {b : Bytes} (H : EncInt z b) (h1 : -2 ^ 63 ≤ z) (h2 : z < 2 ^ 63)
    {ind hard : Bool} {f : Nat} {v : Bytes} {p : Nat} (ha : At v p b) :
    (readerI ind hard f).ShowsInt ⟨v, p⟩ z := by
  rcases H with ⟨h0, H⟩ | ⟨h0, H⟩
  · obtain ⟨a, hr⟩ := H.read (by omega) false ha
    refine ⟨by simpa using head_num _ _ _ _ _ (by omega) hr, fun _ => ⟨Int64.ofInt z, ?_, i64_toInt h1 h2⟩,
      fun _ => ⟨UInt64.ofNat z.toNat, ?_, ?_⟩⟩
    · have : ((z.toNat : Nat) : Int) = z := by omega
      cases ind <;> simp [readerI, reader, View.asInt64, View.head, hr, this]
    · cases ind <;> simp [readerI, reader, View.asUInt64, View.head, hr]
    · rw [u64_toNat (by omega)]; omega
  · obtain ⟨a, hr⟩ := H.read (by omega) false ha
    refine ⟨by simpa using head_num _ _ _ _ _ (by omega) hr, fun _ => ⟨Int64.ofInt z, ?_, i64_toInt h1 h2⟩,
      fun hu => ?_⟩
    · have e : (-1 - ((-1 - z).toNat : Int)) = z := by omega
      have e2 : (-1 - z).toNat ≤ 9223372036854775807 := by omega
      have h : View.asInt64 ⟨v, p⟩ = .ok (Int64.ofInt z) := by
        simp only [View.asInt64, View.head, hr, Res.ok_bind, e, Res.pure_eq,
          or_true, decide_true, Res.require_true,
          if_neg (show ¬ (1 = 0) by omega),
          decide_eq_true (show (-1 - z).toNat ≤ 2 ^ 63 - 1 from e2)]
      cases ind <;> exact h
    · exfalso
      cases ind <;> simp [readerI, reader, View.isUInt, View.head, hr] at hu

theorem asDouble_enc {d : Nat} {b : Bytes} (H : EncDbl d b) (hd : d < 2 ^ 64) {v : Bytes} {p : Nat}
    (ha : At v p b) {ind hard : Bool} {f : Nat} :
    (readerI ind hard f).Shows ⟨v, p⟩ false false false true false false false false ∧
    View.asDouble ⟨v, p⟩ = .ok (UInt64.ofNat d) := by
  cases H with
  | f64 =>
    have hr := flt_read (k := 8) false (by simp) ha
    have hb := getBe_be (at_tail ha) (show d < 256 ^ 8 by omega)
    refine ⟨by simpa using shows_of_head (hard := hard) (ind := ind) (f := f) hr, ?_⟩
    simp [View.asDouble, View.head, View.isFloat, hr, hb]
  | @f32 x hx h =>
    have hr := flt_read (k := 4) false (by simp) ha
    have hb := getBe_be (at_tail ha) (show x < 256 ^ 4 by omega)
    refine ⟨by simpa using shows_of_head (hard := hard) (ind := ind) (f := f) hr, ?_⟩
    simp [View.asDouble, View.head, View.isFloat, hr, hb, h]
  | @f16 x hx h =>
    have hr := flt_read (k := 2) false (by simp) ha
    refine ⟨by simpa using shows_of_head (hard := hard) (ind := ind) (f := f) hr, ?_⟩
    have ht := at_tail ha
    have h1 := ht.byteAt (i := 0) (by simp)
    have h2 := ht.byteAt (i := 1) (by simp)
    simp only [be, Nat.add_zero] at h1 h2
    simp at h1 h2
    have e : x / 256 % 256 * 256 + x % 256 = x := by omega
    simp [View.asDouble, View.head, View.isFloat, hr, h1, h2, e, h]

/-! ## Strings -/

theorem range_at {hard : Bool} {v : Bytes} {q : Nat} {s : Bytes} (ha : At v q s)
    (h : hard = true → q < v.length) : View.range hard v q s.length = .ok s := by
  unfold View.range
  rw [if_neg (by rintro ⟨h1, h2⟩; have := h h1; omega)]
  exact ha.sliceAt

theorem definite_at {hard : Bool} {v : Bytes} (hv : v.length < 2 ^ 64) {q : Nat} {s : Bytes}
    (ha : At v q s) (h : hard = true → q < v.length) {m a l : Nat} {i : Bool} :
    View.definite hard v ⟨m, a, s.length, l, i⟩ q = .ok s := by
  have := ha.bound
  have e : u64 (q + s.length) = q + s.length := u64_of_lt (by omega)
  simp only [View.definite, e, decide_eq_true this, Res.require_true, Res.ok_bind]
  exact range_at ha h

theorem Chunks.gather {m : Nat} (hm : m = 2 ∨ m = 3) {s b : Bytes} (hc : Chunks m s b)
    (hard : Bool) {v : Bytes} (hv : v.length < 2 ^ 64) {p : Nat} (ha : At v p (b ++ [0xff]))
    {f : Nat} (hf : b.length < f) : View.gather hard v m f p = .ok s := by
  induction hc generalizing p f with
  | nil =>
    obtain ⟨f, rfl⟩ : ∃ g, f = g + 1 := ⟨f - 1, by omega⟩
    have ha' : At v p [0xff] := ha
    simp [View.gather, decide_eq_true (at_lt ha'), at_byte ha']
  | @cons h s t b hh hc ih =>
    obtain ⟨f, rfl⟩ : ∃ g, f = g + 1 := ⟨f - 1, by omega⟩
    have ha' : At v p ((h ++ s) ++ (b ++ [0xff])) := by simpa using ha
    have hb := ha'.bound
    simp only [List.length_append, List.length_singleton] at hb hf
    obtain ⟨a, hr⟩ := hh.read (by omega) false ha'.left.left
    obtain ⟨x, u, hx, hx'⟩ := hh.first (by omega)
    have hxa : At v p (x :: (u ++ s)) := by have := ha'.left; rw [hx] at this; simpa using this
    have e : u64 (p + h.length + s.length) = p + (h ++ s).length := by
      rw [List.length_append, ← Nat.add_assoc]; exact u64_of_lt (by omega)
    have := hh.pos
    have hs := ha'.left.right
    have hsb : p + (h ++ s).length ≤ v.length := by simp only [List.length_append]; omega
    simp only [View.gather, decide_eq_true (at_lt hxa), Res.require_true, Res.ok_bind, at_byte hxa,
      if_neg (show x.toNat ≠ 0xff by omega), hr, decide_true, Bool.not_false, Bool.and_self, e,
      decide_eq_true hsb, range_at hs (fun _ => show p + h.length < v.length by omega)]
    rw [ih ha'.right (by omega)]
    rfl

theorem Text.read {ind : Bool} {m : Nat} (hm : m = 2 ∨ m = 3) {s b : Bytes} (hh : Text ind m s b)
    {hard : Bool} {v : Bytes} (hv : v.length < 2 ^ 64) {p : Nat} (ha : At v p b)
    (hfine : Fine hard v (p + b.length) (s ≠ [])) {f : Nat} (hf : v.length ≤ f) :
    ∃ a n l i, readHead false v p = .ok ⟨m, a, n, l, i⟩ ∧ (i = true → ind = true) ∧
      (i = true → View.gather hard v m f (p + l) = .ok s) ∧
      (i = false → View.definite hard v ⟨m, a, n, l, i⟩ (p + l) = .ok s ∧
        View.range hard v (p + l) n = .ok s) := by
  have hb := ha.bound
  cases hh with
  | @definite h hh =>
    obtain ⟨a, hr⟩ := hh.read (by omega) false ha.left
    have hg : hard = true → p + h.length < v.length := by
      intro hh
      simp only [List.length_append] at hb
      rcases hfine hh with h' | h'
      · simp only [List.length_append] at h'; omega
      · have := List.length_pos_iff.2 h'; omega
    exact ⟨a, _, _, false, hr, (by simp), (by simp),
      fun _ => ⟨definite_at hv ha.right hg, range_at ha.right hg⟩⟩
  | @chunked b hi hc =>
    have hr := indef_read (show m ≤ 6 by omega) false ha
    simp only [List.length_cons, List.length_append, List.length_nil] at hb
    exact ⟨31, 0, 1, true, hr, fun _ => hi, fun _ => hc.gather hm hard hv (at_tail ha) (by omega), by simp⟩

theorem asString_text {ind : Bool} {s b : Bytes} (hh : Text ind 3 s b)
    {hard : Bool} {v : Bytes} (hv : v.length < 2 ^ 64) {p : Nat} (ha : At v p b)
    (hfine : Fine hard v (p + b.length) (s ≠ [])) {f : Nat} (hf : v.length ≤ f) :
    View.asString hard f ⟨v, p⟩ = .ok s := by
  obtain ⟨a, n, l, i, hr, _, h2, h3⟩ := hh.read (.inr rfl) hv ha hfine hf
  simp only [View.asString, View.head, hr, Res.ok_bind, decide_true, Res.require_true]
  cases i
  · simpa using (h3 rfl).1
  · simpa using h2 rfl

theorem asBlobVec_text {ind : Bool} {s b : Bytes} (hh : Text ind 2 s b)
    {hard : Bool} {v : Bytes} (hv : v.length < 2 ^ 64) {p : Nat} (ha : At v p b)
    (hfine : Fine hard v (p + b.length) (s ≠ [])) {f : Nat} (hf : v.length ≤ f) :
    View.asBlobVec hard f ⟨v, p⟩ = .ok s := by
  obtain ⟨a, n, l, i, hr, _, h2, h3⟩ := hh.read (.inl rfl) hv ha hfine hf
  simp only [View.asBlobVec, View.head, hr, Res.ok_bind, decide_true, Res.require_true]
  cases i
  · simpa using (h3 rfl).1
  · simpa using h2 rfl

theorem asStringView_text {ind : Bool} {s b : Bytes} (hh : Text ind 3 s b)
    {hard : Bool} {v : Bytes} (hv : v.length < 2 ^ 64) {p : Nat} (ha : At v p b)
    (hfine : Fine hard v (p + b.length) (s ≠ [])) {f : Nat} (hf : v.length ≤ f) :
    (readerI ind hard f).asStringView ⟨v, p⟩ = .ok s := by
  cases ind
  · obtain ⟨a, n, l, i, hr, h1, h2, h3⟩ := hh.read (.inr rfl) hv ha hfine hf
    have hi : i = false := by cases i <;> simp_all
    subst hi
    simp only [readerI, Bool.false_eq_true, if_false, reader, View.asStringView, View.head, hr,
      Res.ok_bind, decide_true, Res.require_true, Bool.not_false]
    exact (h3 rfl).1
  · exact asString_text hh hv ha hfine hf

theorem asBlob_text {ind : Bool} {s b : Bytes} (hh : Text ind 2 s b)
    {hard : Bool} {v : Bytes} (hv : v.length < 2 ^ 64) {p : Nat} (ha : At v p b)
    (hfine : Fine hard v (p + b.length) (s ≠ [])) {f : Nat} (hf : v.length ≤ f) :
    (readerI ind hard f).asBlob ⟨v, p⟩ = .ok s := by
  cases ind
  · obtain ⟨a, n, l, i, hr, h1, h2, h3⟩ := hh.read (.inl rfl) hv ha hfine hf
    have hi : i = false := by cases i <;> simp_all
    subst hi
    simp only [readerI, Bool.false_eq_true, if_false, reader, View.asBlob, View.head, hr,
      Res.ok_bind, decide_true, Res.require_true, Bool.not_false]
    exact (h3 rfl).1
  · exact asBlobVec_text hh hv ha hfine hf

/-! ## Encodings are items -/

mutual
theorem Enc.item {ind : Bool} : ∀ (v : Val) {b : Bytes}, Enc ind v b → Item b
  | .null, b, h => by
      simp only [Enc] at h; subst h; exact Item.simple (n := 22) (by omega)
  | .bool x, b, h => by
      simp only [Enc] at h; subst h
      cases x
      · exact Item.simple (n := 20) (by omega)
      · exact Item.simple (n := 21) (by omega)
  | .int i, b, h => by
      simp only [Enc] at h
      rcases h with ⟨_, h⟩ | ⟨_, h⟩
      · exact .num (by omega) h
      · exact .num (by omega) h
  | .uint n, b, h => by
      simp only [Enc] at h
      rcases h with ⟨_, h⟩ | ⟨_, h⟩
      · exact .num (by omega) h
      · exact .num (by omega) h
  | .dbl d, b, h => by
      simp only [Enc] at h
      cases h with
      | f64 => exact .flt (by simp)
      | f32 => exact .flt (by simp)
      | f16 => exact .flt (by simp)
  | .str s, b, h => by simp only [Enc] at h; exact .str (.inr rfl) h
  | .blob s, b, h => by simp only [Enc] at h; exact .str (.inl rfl) h
  | .arr xs, b, h => by
      simp only [Enc] at h
      obtain ⟨cs, hc, hg⟩ := h
      obtain ⟨h1, h2⟩ := EncList.item xs hc
      exact .arr h2 (h1 ▸ hg)
  | .map ms, b, h => by
      simp only [Enc] at h
      obtain ⟨cs, hc, hg⟩ := h
      obtain ⟨h1, h2⟩ := EncEntries.item ms hc
      exact .map h1 h2 hg
theorem EncList.item {ind : Bool} : ∀ (xs : List Val) {cs : List Bytes}, EncList ind xs cs →
    cs.length = xs.length ∧ ∀ c ∈ cs, Item c
  | [], cs, h => by simp only [EncList] at h; subst h; simp
  | x :: xs, cs, h => by
      simp only [EncList] at h
      obtain ⟨c, cs', hc, hcs, rfl⟩ := h
      obtain ⟨h1, h2⟩ := EncList.item xs hcs
      refine ⟨by simp [h1], ?_⟩
      intro c' hc'
      rcases List.mem_cons.1 hc' with rfl | hc'
      · exact Enc.item x hc
      · exact h2 c' hc'
theorem EncEntries.item {ind : Bool} : ∀ (ms : List (Bytes × Val)) {cs : List Bytes},
    EncEntries ind ms cs → cs.length = 2 * ms.length ∧ ∀ c ∈ cs, Item c
  | [], cs, h => by simp only [EncEntries] at h; subst h; simp
  | (k, v) :: ms, cs, h => by
      simp only [EncEntries] at h
      obtain ⟨ck, c, cs', H, hc, hcs, rfl⟩ := h
      obtain ⟨h1, h2⟩ := EncEntries.item ms hcs
      refine ⟨by simp [h1]; omega, ?_⟩
      intro c' hc'
      rcases List.mem_cons.1 hc' with rfl | hc'
      · exact .str (.inr rfl) H
      · rcases List.mem_cons.1 hc' with rfl | hc'
        · exact Enc.item v hc
        · exact h2 c' hc'
end

end Zer.Cbor
