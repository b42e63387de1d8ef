import Verif.Prefix.Extend
import Verif.Flex.Agree

/-!
# Flex: a buffer inside a larger one

Offsets of flexbuffers are relative and lead backwards, so that a reference into a buffer and the reference to the
same place of a larger buffer answer alike.
-/

namespace Zer.Flex

open Zer Res

/-- Whatever the first call returns, the second returns something that is related to it. -/
def Goes {α β : Type} (Q : α → β → Prop) (x : Res α) (y : Res β) : Prop := ∀ a, x = .ok a → ∃ b, y = .ok b ∧ Q a b

namespace Goes

theorem pure {α β : Type} {Q : α → β → Prop} {a : α} {b : β} (h : Q a b) : Goes Q (.ok a) (.ok b) := by
  intro c hc
  injection hc with hc
  exact ⟨b, rfl, hc ▸ h⟩

theorem ub {α β : Type} {Q : α → β → Prop} {y : Res β} : Goes Q (.ub : Res α) y := fun _ h => by cases h
theorem err {α β : Type} {Q : α → β → Prop} {e : Err} {y : Res β} : Goes Q (.err e : Res α) y := fun _ h => by cases h

theorem bind {α β γ δ : Type} {Q : α → β → Prop} {S : γ → δ → Prop} {x : Res α} {y : Res β} {f : α → Res γ} {g : β → Res δ}
    (h : Goes Q x y) (hf : ∀ a b, Q a b → Goes S (f a) (g b)) : Goes S (x >>= f) (y >>= g) := by
  intro c hc
  obtain ⟨a, h1, h2⟩ := Res.bind_eq_ok.1 hc
  obtain ⟨b, h3, h4⟩ := h a h1
  obtain ⟨d, h5, h6⟩ := hf a b h4 c h2
  exact ⟨d, Res.bind_eq_ok.2 ⟨b, h3, h5⟩, h6⟩

theorem ofLe {α : Type} {x y : Res α} (h : x.Le y) : Goes Eq x y := fun a ha => ⟨a, h a ha, rfl⟩

theorem le {α : Type} {x y : Res α} (h : Goes Eq x y) : x.Le y := by
  intro a ha
  obtain ⟨b, h1, rfl⟩ := h a ha
  exact h1

theorem require {c d : Bool} {e : Err} (h : c = d) : Goes Eq (Res.require c e) (Res.require d e) := by
  subst h
  exact ofLe (.refl _)

end Goes

/-- `n` bytes further on. -/
def Off (n p q : Nat) : Prop := q = n + p

variable {x y b : Bytes}

theorem within_slice (p n : Nat) : Goes Eq (sliceAt b p n) (sliceAt (x ++ b ++ y) (x.length + p) n) := by
  apply Goes.ofLe
  intro s h
  unfold sliceAt at h ⊢
  split at h
  · rename_i hl
    rw [if_pos (by simp; omega), ← h]
    rw [List.append_assoc, List.drop_append, List.drop_of_length_le (by omega), Nat.add_sub_cancel_left, List.nil_append,
      List.drop_append_of_le_length (by omega), List.take_append_of_le_length (by simp; omega)]
  · cases h

theorem within_byte (p : Nat) : Goes Eq (byteAt b p) (byteAt (x ++ b ++ y) (x.length + p)) := by
  apply Goes.ofLe
  intro s h
  have hp : p < b.length := by
    by_cases hp : p < b.length
    · exact hp
    · simp [byteAt, List.getElem?_eq_none (Nat.le_of_not_lt hp)] at h
  have : (x ++ b ++ y)[x.length + p]? = b[p]? := by
    rw [List.append_assoc, List.getElem?_append_right (by omega), Nat.add_sub_cancel_left, List.getElem?_append_left hp]
  unfold byteAt at h ⊢
  rw [this]
  exact h

theorem within_readU (p w : Nat) : Goes Eq (readU b p w) (readU (x ++ b ++ y) (x.length + p) w) :=
  .bind (within_slice p _) fun _ _ h => .pure (h ▸ rfl)

theorem within_readI (p w : Nat) : Goes Eq (readI b p w) (readI (x ++ b ++ y) (x.length + p) w) :=
  .bind (within_readU p _) fun _ _ h => .pure (h ▸ rfl)

theorem within_readF (p w : Nat) : Goes Eq (readF b p w) (readF (x ++ b ++ y) (x.length + p) w) :=
  .bind (within_readU p _) fun _ _ h => .pure (h ▸ rfl)

theorem within_indirect (p w : Nat) : Goes (Off x.length) (indirect b p w) (indirect (x ++ b ++ y) (x.length + p) w) := by
  refine .bind (within_readU p _) fun o _ h => ?_
  subst h
  by_cases h : o ≤ p
  · rw [if_pos h, if_pos (by omega)]
    exact .pure (by unfold Off; omega)
  · rw [if_neg h]
    exact .ub

theorem within_size (p w : Nat) : Goes Eq (sizeAt b p w) (sizeAt (x ++ b ++ y) (x.length + p) w) := by
  unfold sizeAt
  by_cases h : w ≤ p
  · rw [if_pos h, if_pos (by omega), Nat.add_sub_assoc h]
    exact within_readU _ _
  · rw [if_neg h]
    exact .ub

theorem takeWhile_append {α : Type} {q : α → Bool} {s t : List α} (h : ∃ c ∈ s, q c = false) :
    (s ++ t).takeWhile q = s.takeWhile q := by
  induction s with
  | nil => obtain ⟨c, h, -⟩ := h; cases h
  | cons a s ih =>
    by_cases ha : q a = true
    · simp only [List.cons_append, List.takeWhile_cons, ha, if_true]
      obtain ⟨c, hc, hq⟩ := h
      rcases List.mem_cons.1 hc with rfl | hc
      · rw [ha] at hq; cases hq
      · rw [ih ⟨c, hc, hq⟩]
    · simp [List.takeWhile_cons, ha]

theorem within_cstr (p : Nat) : Goes Eq (cstrAt b p) (cstrAt (x ++ b ++ y) (x.length + p)) := by
  unfold cstrAt
  by_cases h : (0 : UInt8) ∈ b.drop p
  · have hp : p ≤ b.length := by
      by_cases hp : p ≤ b.length
      · exact hp
      · rw [List.drop_of_length_le (by omega)] at h; cases h
    have e : (x ++ b ++ y).drop (x.length + p) = b.drop p ++ y := by
      rw [List.append_assoc, List.drop_append, List.drop_of_length_le (by omega), Nat.add_sub_cancel_left, List.nil_append,
        List.drop_append_of_le_length hp]
    rw [if_pos h, e, if_pos (List.mem_append_left _ h)]
    refine .pure ?_
    unfold cstr
    rw [takeWhile_append ⟨0, h, by simp⟩]
  · rw [if_neg h]
    exact .ub

/-- The reference to the same place of a larger buffer. -/
def Within (r s : Ref) : Prop := ∃ x y, s = ⟨x ++ r.buf ++ y, x.length + r.pos, r.pw, r.bw, r.ty⟩

theorem Within.refl (r : Ref) : Within r r := ⟨[], [], by simp⟩

theorem Within.ty {r s : Ref} (h : Within r s) : s.ty = r.ty := by
  obtain ⟨x, y, rfl⟩ := h
  rfl

theorem within_int64 {r s : Ref} (h : Within r s) : Goes Eq r.int64 s.int64 := by
  obtain ⟨x, y, rfl⟩ := h
  unfold Ref.int64
  by_cases h : r.ty = 1
  · simp only [if_pos h]; exact within_readI _ _
  · simp only [if_neg h]
    refine .bind (within_indirect _ _) fun p q h => ?_
    rw [h]; exact within_readI _ _

theorem within_uint64 {r s : Ref} (h : Within r s) : Goes Eq r.uint64 s.uint64 := by
  obtain ⟨x, y, rfl⟩ := h
  unfold Ref.uint64
  by_cases h : r.ty = 2
  · simp only [if_pos h]; exact within_readU _ _
  · simp only [if_neg h]
    refine .bind (within_indirect _ _) fun p q h => ?_
    rw [h]; exact within_readU _ _

theorem within_double {r s : Ref} (h : Within r s) : Goes Eq r.double s.double := by
  obtain ⟨x, y, rfl⟩ := h
  unfold Ref.double
  by_cases h : r.ty = 3
  · simp only [if_pos h]; exact within_readF _ _
  · simp only [if_neg h]
    refine .bind (within_indirect _ _) fun p q h => ?_
    rw [h]; exact within_readF _ _

theorem within_sized {r s : Ref} (h : Within r s) : Goes Eq r.sized s.sized := by
  obtain ⟨x, y, rfl⟩ := h
  unfold Ref.sized
  refine .bind (within_indirect _ _) fun p q h => ?_
  rw [h]
  refine .bind (within_size _ _) fun n m h => ?_
  subst h
  exact within_slice _ _

theorem within_vector {x y : Bytes} {r : Ref} : Goes (fun a c => c.2 = a.2 ∧ (r.ty = 9 ∨ r.ty = 10 → Off x.length a.1 c.1)) r.vector
    (Ref.vector ⟨x ++ r.buf ++ y, x.length + r.pos, r.pw, r.bw, r.ty⟩) := by
  unfold Ref.vector
  by_cases h : r.ty = 9 ∨ r.ty = 10
  · simp only [if_pos h]
    refine .bind (within_indirect _ _) fun p q h => ?_
    rw [h]
    refine .bind (within_size _ _) fun n m h => ?_
    subst h
    exact .pure ⟨rfl, fun _ => rfl⟩
  · simp only [if_neg h]
    exact .pure ⟨rfl, fun h' => absurd h' h⟩

theorem within_elem (p bw n i : Nat) : Goes Within (elemAt b p bw n i) (elemAt (x ++ b ++ y) (x.length + p) bw n i) := by
  unfold elemAt
  by_cases h : n ≤ i
  · rw [if_pos h, if_pos h]
    exact .pure (.refl _)
  · rw [if_neg h, if_neg h]
    rw [show x.length + p + u64 (n * bw) + i = x.length + (p + u64 (n * bw) + i) by omega]
    refine .bind (within_byte _) fun t _ h => ?_
    subst h
    exact .pure ⟨x, y, by simp [Ref.ofPacked]; omega⟩

theorem within_keys (p bw : Nat) : Goes (fun a c => Off x.length a.1 c.1 ∧ c.2 = a.2) (keysAt b p bw)
    (keysAt (x ++ b ++ y) (x.length + p) bw) := by
  unfold keysAt
  by_cases h : 3 * bw ≤ p
  · rw [if_pos h, if_pos (by omega), Nat.add_sub_assoc h, Nat.add_sub_assoc (by omega)]
    refine .bind (within_indirect _ _) fun kp kp' h => ?_
    refine .bind (within_readU _ _) fun kw kw' h' => ?_
    subst h'
    rw [h]
    refine .bind (within_size _ _) fun n m h => ?_
    subst h
    exact .pure ⟨rfl, rfl⟩
  · rw [if_neg h]
    exact .ub

theorem within_key (kp kw kn i : Nat) : Goes Eq (keyAt b kp kw kn i) (keyAt (x ++ b ++ y) (x.length + kp) kw kn i) := by
  unfold keyAt
  by_cases h : kn ≤ i
  · rw [if_pos h, if_pos h]
    exact .pure rfl
  · rw [if_neg h, if_neg h, Nat.add_assoc]
    refine .bind (within_indirect _ _) fun q q' h => ?_
    rw [h]
    exact within_cstr _

theorem within_keysFrom (kp kw kn : Nat) : ∀ n i, Goes Eq (keysFrom b kp kw kn i n) (keysFrom (x ++ b ++ y) (x.length + kp) kw kn i n)
  | 0, i => .pure rfl
  | n + 1, i => by
    unfold keysFrom
    refine .bind (within_key _ _ _ _) fun k _ h => ?_
    subst h
    refine .bind (within_keysFrom kp kw kn n (i + 1)) fun ks _ h => ?_
    subst h
    exact .pure rfl

theorem within_loop (kp kw kn : Nat) (key : Bytes) : ∀ fuel lo hi,
    Goes Eq (loop b kp kw kn key fuel lo hi) (loop (x ++ b ++ y) (x.length + kp) kw kn key fuel lo hi)
  | 0, lo, hi => fun _ h => by cases h
  | fuel + 1, lo, hi => by
    unfold loop
    by_cases h : lo < hi
    · rw [if_pos h, if_pos h]
      refine .bind (within_key _ _ _ _) fun k _ h => ?_
      subst h
      cases order k key with
      | lt => exact within_loop kp kw kn key fuel _ _
      | gt => exact within_loop kp kw kn key fuel _ _
      | eq => exact .pure rfl
    · rw [if_neg h, if_neg h]
      exact .pure rfl

theorem within_mapKeys {r s : Ref} (h : Within r s) : Goes Eq (mapKeys r) (mapKeys s) := by
  obtain ⟨x, y, rfl⟩ := h
  unfold mapKeys
  by_cases hm : isMap r = true
  · refine .bind (.require rfl) fun _ _ _ => ?_
    refine .bind within_vector fun (p, n) (q, m) h => ?_
    obtain ⟨h0, h'⟩ := h
    have h := h' (.inl (by simpa [isMap] using hm))
    simp only [Off] at h0 h
    subst h0; subst h
    refine .bind (within_keys _ _) fun (kp, kw, kn) (kp', kw', kn') h => ?_
    obtain ⟨h1, h2⟩ := h
    cases h2
    simp only [Off] at h1
    subst h1
    exact within_keysFrom _ _ _ _ _
  · simp only [hm, Res.require]
    exact .err

theorem within_contains {r s : Ref} (h : Within r s) (k : Bytes) : Goes Eq (contains r k) (contains s k) := by
  obtain ⟨x, y, rfl⟩ := h
  unfold contains
  generalize loopFuel = F
  by_cases hm : isMap r = true
  · have hm' : isMap ⟨x ++ r.buf ++ y, x.length + r.pos, r.pw, r.bw, r.ty⟩ = true := hm
    rw [if_pos hm, if_pos hm']
    refine .bind within_vector fun (p, n) (q, m) h => ?_
    obtain ⟨h0, h'⟩ := h
    have h := h' (.inl (by simpa [isMap] using hm))
    simp only [Off] at h0 h
    subst h0; subst h
    refine .bind (within_keys _ _) fun (kp, kw, kn) (kp', kw', kn') h => ?_
    obtain ⟨h1, h2⟩ := h
    cases h2
    simp only [Off] at h1
    subst h1
    refine .bind (within_loop _ _ _ _ _ _ _) fun f _ h => ?_
    subst h
    exact .pure rfl
  · have hm' : ¬ isMap ⟨x ++ r.buf ++ y, x.length + r.pos, r.pw, r.bw, r.ty⟩ = true := hm
    rw [if_neg hm, if_neg hm']
    exact .pure rfl

theorem within_getKey {r s : Ref} (h : Within r s) (k : Bytes) : Goes Within (getKey r k) (getKey s k) := by
  obtain ⟨x, y, rfl⟩ := h
  unfold getKey
  generalize loopFuel = F
  by_cases hm : isMap r = true
  · refine .bind (.require rfl) fun _ _ _ => ?_
    refine .bind within_vector fun (p, n) (q, m) h => ?_
    obtain ⟨h0, h'⟩ := h
    have h := h' (.inl (by simpa [isMap] using hm))
    simp only [Off] at h0 h
    subst h0; subst h
    refine .bind (within_keys _ _) fun (kp, kw, kn) (kp', kw', kn') h => ?_
    obtain ⟨h1, h2⟩ := h
    cases h2
    simp only [Off] at h1
    subst h1
    refine .bind (within_loop _ _ _ _ _ _ _) fun f _ h => ?_
    subst h
    cases f with
    | none => exact .err
    | some i => exact within_elem _ _ _ _
  · simp only [hm, Res.require]
    exact .err

theorem within_arraySize {r s : Ref} (h : Within r s) : Goes Eq (arraySize r) (arraySize s) := by
  obtain ⟨x, y, rfl⟩ := h
  unfold arraySize
  refine .bind (.require rfl) fun _ _ _ => ?_
  refine .bind within_vector fun (p, n) (q, m) h => ?_
  obtain ⟨rfl, h⟩ := h
  exact .pure rfl

theorem within_getIdx {r s : Ref} (h : Within r s) (i : Nat) : Goes Within (getIdx r i) (getIdx s i) := by
  obtain ⟨x, y, rfl⟩ := h
  unfold getIdx
  refine .bind (.require rfl) fun _ _ _ => ?_
  by_cases hv : r.ty = 9 ∨ r.ty = 10
  · refine .bind within_vector fun (p, n) (q, m) h => ?_
    obtain ⟨h0, h'⟩ := h
    have h := h' hv
    simp only [Off] at h0 h
    subst h0; subst h
    exact .bind (.require rfl) fun _ _ _ => within_elem _ _ _ _
  · simp only [Ref.vector, if_neg hv]
    intro a ha
    simp [Res.require] at ha

/-- A larger buffer answers as the smaller one does. -/
theorem reader_within : reader.Extends Within where
  isNull h := by simp only [reader, isNull, h.ty]; exact .refl _
  isBool h := by simp only [reader, isBool, h.ty]; exact .refl _
  isInt h := by simp only [reader, isInt, h.ty]; exact .refl _
  isUInt h := by simp only [reader, isUInt, h.ty]; exact .refl _
  isFloat h := by simp only [reader, isFloat, h.ty]; exact .refl _
  isString h := by simp only [reader, isString, h.ty]; exact .refl _
  isBlob h := by simp only [reader, isBlob, h.ty]; exact .refl _
  isMap h := by simp only [reader, isMap, h.ty]; exact .refl _
  isArray h := by simp only [reader, isArray, isMap, h.ty]; exact .refl _
  asBool {r s} h := by
    obtain ⟨x, y, rfl⟩ := h
    refine Goes.le (.bind (.require rfl) fun _ _ _ => .bind (within_readU _ _) fun _ _ h => ?_)
    subst h
    exact .pure rfl
  asInt64 {r s} h := Goes.le (.bind (.require (by simp only [isInt, h.ty])) fun _ _ _ => within_int64 h)
  asUInt64 {r s} h := Goes.le (.bind (.require (by simp only [isUInt, h.ty])) fun _ _ _ => .bind (within_uint64 h) fun _ _ h => .pure (h ▸ rfl))
  asDouble {r s} h := Goes.le (.bind (.require (by simp only [isFloat, h.ty])) fun _ _ _ => within_double h)
  asString {r s} h := Goes.le (.bind (.require (by simp only [isString, h.ty])) fun _ _ _ => within_sized h)
  asStringView {r s} h := Goes.le (.bind (.require (by simp only [isString, h.ty])) fun _ _ _ => within_sized h)
  asBlob {r s} h := Goes.le (.bind (.require (by simp only [isBlob, h.ty])) fun _ _ _ => within_sized h)
  mapKeys h := (within_mapKeys h).le
  contains h k := (within_contains h k).le
  arraySize h := (within_arraySize h).le
  getKey h k := within_getKey h k
  getIdx h i := within_getIdx h i
  noKey {s} h k hc := by
    change contains s k = _ at hc
    show getKey s k = _
    injection h with h
    unfold contains at hc
    unfold getKey
    revert hc
    generalize loopFuel = F
    intro hc
    rw [if_pos h] at hc
    obtain ⟨⟨p, n⟩, h1, hc⟩ := Res.bind_eq_ok.1 hc
    obtain ⟨⟨kp, kw, kn⟩, h2, hc⟩ := Res.bind_eq_ok.1 hc
    obtain ⟨f, h3, hc⟩ := Res.bind_eq_ok.1 hc
    cases f with
    | some _ => cases hc
    | none => simp [Res.require, h, h1, h2, h3]
  noIdx {s n i} h hi := by
    change arraySize s = _ at h
    show getIdx s i = _
    unfold arraySize at h
    obtain ⟨_, h0, h⟩ := Res.bind_eq_ok.1 h
    obtain ⟨⟨p, m⟩, h1, h⟩ := Res.bind_eq_ok.1 h
    injection h with h
    subst h
    unfold getIdx
    rw [h0]
    simp [h1, Res.require, Nat.not_lt.2 hi]

/-- The root of a buffer is the root of every longer buffer that ends with it. -/
theorem opn_within {b : Bytes} (hb : b ≠ []) {r : Ref} (h : opn b = .ok r) (x : Bytes) : ∃ s, opn (x ++ b) = .ok s ∧ Within r s := by
  unfold opn at h ⊢
  rw [if_neg hb] at h
  rw [if_neg (by simp [hb])]
  unfold getRoot at h ⊢
  by_cases hl : b.length < 2
  · rw [if_pos hl] at h; cases h
  rw [if_neg hl] at h
  rw [if_neg (by simp; omega)]
  have e1 : (x ++ b).length - 1 = x.length + (b.length - 1) := by simp; omega
  have e2 : (x ++ b).length - 2 = x.length + (b.length - 2) := by simp; omega
  rw [e1, e2]
  obtain ⟨w, h1, h⟩ := Res.bind_eq_ok.1 h
  obtain ⟨t, h2, h⟩ := Res.bind_eq_ok.1 h
  have h1' := (within_byte (x := x) (y := []) (b.length - 1)).le _ h1
  have h2' := (within_byte (x := x) (y := []) (b.length - 2)).le _ h2
  rw [List.append_nil] at h1' h2'
  rw [h1', h2']
  by_cases hw : w ≤ b.length - 2
  · rw [if_pos hw] at h
    injection h with h
    refine ⟨Ref.ofPacked (x ++ b) (x.length + (b.length - 2) - w) w t, by simp [show w ≤ x.length + (b.length - 2) by omega], x, [], ?_⟩
    subst h
    simp [Ref.ofPacked]
    omega
  · rw [if_neg hw] at h; cases h

end Zer.Flex
