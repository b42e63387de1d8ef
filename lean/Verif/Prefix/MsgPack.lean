import Verif.Prefix.Basic
import Verif.MsgPack.Write
import Verif.MsgPack.Term

/-!
# MessagePack: truncated input
-/

namespace Zer.MsgPack

open Zer Res

/-! ## What is read from a prefix is read from the whole -/

theorem le_be16 (v t : Bytes) (p : Nat) : (readBe16 v p).Le (readBe16 (v ++ t) p) :=
  .bind (.byteAt _ _ _) fun _ => .bind (.byteAt _ _ _) fun _ => .refl _

theorem le_be32 (v t : Bytes) (p : Nat) : (readBe32 v p).Le (readBe32 (v ++ t) p) :=
  .bind (.byteAt _ _ _) fun _ => .bind (.byteAt _ _ _) fun _ => .bind (.byteAt _ _ _) fun _ => .bind (.byteAt _ _ _) fun _ => .refl _

theorem subspan_drop {v w : Bytes} {off : Nat} (h : subspan v off = .ok w) : off ≤ v.length ∧ w = v.drop off := by
  unfold subspan at h; split at h
  · injection h with h; exact ⟨‹_›, h.symm⟩
  · cases h

theorem subspan_more {v w : Bytes} {off : Nat} (h : subspan v off = .ok w) (t : Bytes) :
    subspan (v ++ t) off = .ok (w ++ t) := by
  obtain ⟨h1, rfl⟩ := subspan_drop h
  rw [subspan, if_pos (by simp; omega), List.drop_append_of_le_length h1]

theorem first_more {v w : Bytes} {n : Nat} (h : first v n = .ok w) (t : Bytes) : first (v ++ t) n = .ok w := by
  unfold first at h ⊢
  split at h
  · rw [if_pos (by simp; omega), ← h, List.take_append_of_le_length ‹_›]
  · cases h

theorem le_skipLoop {rec rec' : Bytes → Res Nat} {v t : Bytes} (h : ∀ w, (rec w).Le (rec' (w ++ t))) :
    ∀ n off, (skipLoop rec v n off).Le (skipLoop rec' (v ++ t) n off)
  | 0, _ => .refl _
  | n + 1, off => by
    intro a ha
    simp only [skipLoop] at ha ⊢
    obtain ⟨w, h1, ha⟩ := Res.bind_eq_ok.1 ha
    obtain ⟨s, h2, ha⟩ := Res.bind_eq_ok.1 ha
    rw [subspan_more h1, Res.ok_bind, h w s h2, Res.ok_bind]
    exact le_skipLoop h n _ a ha

theorem le_len {v t : Bytes} {k : Nat} {e : Err} :
    (Res.require (decide (k ≤ v.length)) e).Le (Res.require (decide (k ≤ (v ++ t).length)) e) :=
  .require (by simp; omega)

theorem le_mpSkip (t : Bytes) : ∀ f v, (mpSkip f v).Le (mpSkip f (v ++ t))
  | 0, _ => .diverge
  | f + 1, [] => .err
  | f + 1, b :: v => by
    have ih := fun n off => le_skipLoop (v := b :: v) (t := t) (le_mpSkip t f) n off
    simp only [mpSkip, List.cons_append]
    simp only [← List.cons_append]
    repeat' apply Res.Le.ite
    all_goals first
      | exact .refl _
      | exact ih _ _
      | exact .bind le_len fun _ => .bind (.byteAt _ _ _) fun _ => .refl _
      | exact .bind le_len fun _ => .bind (le_be16 _ _ _) fun _ => .refl _
      | exact .bind le_len fun _ => .bind (le_be32 _ _ _) fun _ => .refl _
      | exact .bind le_len fun _ => .bind (le_be16 _ _ _) fun _ => ih _ _
      | exact .bind le_len fun _ => .bind (le_be32 _ _ _) fun _ => ih _ _

theorem le_skip (v t : Bytes) : (skip v).Le (skip (v ++ t)) := by
  intro a h
  unfold skip at h ⊢
  rw [mpSkip_fuel _ ((v ++ t).length + 1) v (Nat.lt_succ_self _) (by simp; omega)] at h
  exact le_mpSkip t _ v a h

theorem le_strInfo (v t : Bytes) : (strInfo v).Le (strInfo (v ++ t)) := by
  refine .bind (.byteAt _ _ _) fun m => ?_
  repeat' apply Res.Le.ite
  all_goals first
    | exact .refl _
    | exact .bind (.byteAt _ _ _) fun _ => .refl _
    | exact .bind (le_be16 _ _ _) fun _ => .refl _
    | exact .bind (le_be32 _ _ _) fun _ => .refl _

theorem le_binInfo (v t : Bytes) : (binInfo v).Le (binInfo (v ++ t)) := by
  refine .bind (.byteAt _ _ _) fun m => ?_
  repeat' apply Res.Le.ite
  all_goals first
    | exact .refl _
    | exact .bind (.byteAt _ _ _) fun _ => .refl _
    | exact .bind (le_be16 _ _ _) fun _ => .refl _
    | exact .bind (le_be32 _ _ _) fun _ => .refl _

theorem le_arrInfo (v t : Bytes) : (arrInfo v).Le (arrInfo (v ++ t)) := by
  refine .bind (.byteAt _ _ _) fun m => ?_
  repeat' apply Res.Le.ite
  all_goals first
    | exact .refl _
    | exact .bind (le_be16 _ _ _) fun _ => .refl _
    | exact .bind (le_be32 _ _ _) fun _ => .refl _

theorem le_mapInfo (v t : Bytes) : (mapInfo v).Le (mapInfo (v ++ t)) := by
  refine .bind (.byteAt _ _ _) fun m => ?_
  repeat' apply Res.Le.ite
  all_goals first
    | exact .refl _
    | exact .bind (le_be16 _ _ _) fun _ => .refl _
    | exact .bind (le_be32 _ _ _) fun _ => .refl _

theorem le_asStringView (v t : Bytes) : (asStringView v).Le (asStringView (v ++ t)) :=
  .bind (le_strInfo _ _) fun _ => .sliceAt _ _ _ _

theorem le_asBlob (v t : Bytes) : (asBlob v).Le (asBlob (v ++ t)) :=
  .bind (le_binInfo _ _) fun _ => .sliceAt _ _ _ _

theorem le_keyDeref (v t : Bytes) (off : Nat) : (keyDeref v off).Le (keyDeref (v ++ t) off) := by
  intro a ha
  simp only [keyDeref] at ha ⊢
  obtain ⟨w, h1, ha⟩ := Res.bind_eq_ok.1 ha
  obtain ⟨s, h2, ha⟩ := Res.bind_eq_ok.1 ha
  obtain ⟨k, h3, ha⟩ := Res.bind_eq_ok.1 ha
  rw [subspan_more h1, Res.ok_bind, le_skip w t s h2, Res.ok_bind, first_more h3, Res.ok_bind, ha]

theorem le_keyNext (v t : Bytes) (off : Nat) : (keyNext v off).Le (keyNext (v ++ t) off) := by
  intro a ha
  simp only [keyNext] at ha ⊢
  obtain ⟨w, h1, ha⟩ := Res.bind_eq_ok.1 ha
  obtain ⟨s, h2, ha⟩ := Res.bind_eq_ok.1 ha
  obtain ⟨w', h3, ha⟩ := Res.bind_eq_ok.1 ha
  obtain ⟨s', h4, ha⟩ := Res.bind_eq_ok.1 ha
  rw [subspan_more h1, Res.ok_bind, le_skip w t s h2, Res.ok_bind, subspan_more h3, Res.ok_bind, le_skip w' t s' h4, Res.ok_bind, ha]

theorem le_keysFrom (v t : Bytes) (count e : Nat) : ∀ f i off, (keysFrom v count e f i off).Le (keysFrom (v ++ t) count e f i off)
  | 0, _, _ => .diverge
  | f + 1, i, off => by
    simp only [keysFrom]
    exact .ite (.refl _) (.bind (le_keyDeref _ _ _) fun _ => .bind (le_keyNext _ _ _) fun _ => .bind (le_keysFrom v t count e f _ _) fun _ => .refl _)

theorem isMap_cons (m : UInt8) (v w : Bytes) : isMap (m :: v) = isMap (m :: w) := rfl

theorem le_mapKeys (v t : Bytes) : (mapKeys v).Le (mapKeys (v ++ t)) := by
  cases v with
  | nil => exact .bind (x := Res.require false .deser) (by exact .err) (fun _ => .bind (le_mapInfo _ _) fun _ => .bind (le_skipLoop (fun w => le_skip w t) _ _) fun _ => le_keysFrom _ _ _ _ _ _ _)
  | cons m v => exact .bind (.require (fun h => h)) (fun _ => .bind (le_mapInfo _ _) fun _ => .bind (le_skipLoop (fun w => le_skip w t) _ _) fun _ => le_keysFrom _ _ _ _ _ _ _)

/-! ## Headers lie inside -/

theorem byteAt_bound {v : Bytes} {p x : Nat} (h : byteAt v p = .ok x) : p < v.length := by
  by_cases hp : p < v.length
  · exact hp
  · simp [byteAt, List.getElem?_eq_none (Nat.le_of_not_lt hp)] at h

theorem be16_bound {v : Bytes} {p x : Nat} (h : readBe16 v p = .ok x) : p + 2 ≤ v.length := by
  simp only [readBe16] at h
  obtain ⟨_, _, h⟩ := Res.bind_eq_ok.1 h
  obtain ⟨_, h1, h⟩ := Res.bind_eq_ok.1 h
  have := byteAt_bound h1; omega

theorem be32_bound {v : Bytes} {p x : Nat} (h : readBe32 v p = .ok x) : p + 4 ≤ v.length := by
  simp only [readBe32] at h
  obtain ⟨_, _, h⟩ := Res.bind_eq_ok.1 h
  obtain ⟨_, _, h⟩ := Res.bind_eq_ok.1 h
  obtain ⟨_, _, h⟩ := Res.bind_eq_ok.1 h
  obtain ⟨_, h1, h⟩ := Res.bind_eq_ok.1 h
  have := byteAt_bound h1; omega

theorem arrInfo_bound {v : Bytes} {n off : Nat} (h : arrInfo v = .ok (n, off)) : off ≤ v.length := by
  simp only [arrInfo] at h
  obtain ⟨m, h0, h⟩ := Res.bind_eq_ok.1 h
  have := byteAt_bound h0
  split at h
  · cases h; omega
  · split at h
    · obtain ⟨_, h1, h⟩ := Res.bind_eq_ok.1 h; have := be16_bound h1; cases h; omega
    · split at h
      · obtain ⟨_, h1, h⟩ := Res.bind_eq_ok.1 h; have := be32_bound h1; cases h; omega
      · cases h

theorem mapInfo_bound {v : Bytes} {n off : Nat} (h : mapInfo v = .ok (n, off)) : off ≤ v.length := by
  simp only [mapInfo] at h
  obtain ⟨m, h0, h⟩ := Res.bind_eq_ok.1 h
  have := byteAt_bound h0
  split at h
  · cases h; omega
  · split at h
    · obtain ⟨_, h1, h⟩ := Res.bind_eq_ok.1 h; have := be16_bound h1; cases h; omega
    · split at h
      · obtain ⟨_, h1, h⟩ := Res.bind_eq_ok.1 h; have := be32_bound h1; cases h; omega
      · cases h

/-! ## Truncated elements -/

/-- `p` is a proper, non-empty prefix of `b`. -/
def Cut (p b : Bytes) : Prop := p ≠ [] ∧ ∃ t, t ≠ [] ∧ b = p ++ t

theorem Cut.lt {p b : Bytes} (h : Cut p b) : p.length < b.length := by
  obtain ⟨_, t, ht, rfl⟩ := h
  have := List.length_pos_iff.2 ht
  simp; omega

theorem Cut.cons {p : Bytes} {m : UInt8} {b : Bytes} (h : Cut p (m :: b)) : ∃ p', p = m :: p' ∧ p'.length < b.length := by
  have hl := h.lt
  obtain ⟨hp, t, ht, e⟩ := h
  cases p with
  | nil => exact absurd rfl hp
  | cons x p =>
    injection e with e1 e2
    subst e1
    exact ⟨p, rfl, by simpa using hl⟩

theorem int_cut {z : Int} {b p : Bytes} (H : EncInt z b) (h : Cut p b) : (∀ x, asInt64 p ≠ .ok x) ∧ (∀ x, asUInt64 p ≠ .ok x) := by
  have fin : ∀ (m : UInt8) (k n : Nat), b = m :: be k n → (m.toNat, k) ∈ [(0xcc, 1), (0xcd, 2), (0xce, 4), (0xcf, 8), (0xd0, 1), (0xd1, 2), (0xd2, 4), (0xd3, 8)] →
      (∀ x, asInt64 p ≠ .ok x) ∧ (∀ x, asUInt64 p ≠ .ok x) := by
    intro m k n hb hm
    subst hb
    obtain ⟨p', rfl, hl⟩ := h.cons
    rw [be_length] at hl
    have hb0 : byteAt (m :: p') 0 = .ok m.toNat := rfl
    simp only [List.mem_cons, Prod.mk.injEq, List.not_mem_nil, or_false] at hm
    have key : asInt64 (m :: p') = .err .deser ∧ asUInt64 (m :: p') = .err .deser := by
      rcases hm with ⟨e, rfl⟩ | ⟨e, rfl⟩ | ⟨e, rfl⟩ | ⟨e, rfl⟩ | ⟨e, rfl⟩ | ⟨e, rfl⟩ | ⟨e, rfl⟩ | ⟨e, rfl⟩
      all_goals
        rw [e] at hb0
        simp only [asInt64, asUInt64, hb0, List.length_cons, Res.ok_bind]
        simp (config := { decide := true }) [Res.require]
        simp [Nat.not_le.2 hl]
    exact ⟨(fun x hx => by rw [key.1] at hx; cases hx), (fun x hx => by rw [key.2] at hx; cases hx)⟩
  have one : b.length = 1 → (∀ x, asInt64 p ≠ .ok x) ∧ (∀ x, asUInt64 p ≠ .ok x) := by
    intro hb
    have := h.lt
    have := List.length_pos_iff.2 h.1
    omega
  cases H with
  | posfix => exact one rfl
  | negfix => exact one rfl
  | u8 => exact fin _ _ _ rfl (by decide)
  | u16 => exact fin _ _ _ rfl (by decide)
  | u32 => exact fin _ _ _ rfl (by decide)
  | u64 => exact fin _ _ _ rfl (by decide)
  | i8 => exact fin _ _ _ rfl (by decide)
  | i16 => exact fin _ _ _ rfl (by decide)
  | i32 => exact fin _ _ _ rfl (by decide)
  | i64 => exact fin _ _ _ rfl (by decide)

theorem dbl_cut {d : Nat} {b p : Bytes} (H : EncDbl d b) (h : Cut p b) : ∀ x, asDouble p ≠ .ok x := by
  have fin : ∀ (m : UInt8) (k n : Nat), b = m :: be k n → (m.toNat, k) ∈ [(0xca, 4), (0xcb, 8)] → ∀ x, asDouble p ≠ .ok x := by
    intro m k n hb hm
    subst hb
    obtain ⟨p', rfl, hl⟩ := h.cons
    rw [be_length] at hl
    have hb0 : byteAt (m :: p') 0 = .ok m.toNat := rfl
    simp only [List.mem_cons, Prod.mk.injEq, List.not_mem_nil, or_false] at hm
    have key : asDouble (m :: p') = .err .deser := by
      rcases hm with ⟨e, rfl⟩ | ⟨e, rfl⟩
      all_goals
        rw [e] at hb0
        simp only [asDouble, isFloat, onMarker, e, hb0, List.length_cons, Res.ok_bind]
        simp (config := { decide := true }) [Res.require]
        simp [Nat.not_le.2 hl]
    exact fun x hx => by rw [key] at hx; cases hx
  cases H with
  | f64 => exact fin _ _ _ rfl (by decide)
  | f32 => exact fin _ _ _ rfl (by decide)

theorem str_cut {s hd p : Bytes} (H : StrHead s.length hd) (h : Cut p (hd ++ s)) : ∀ x, asStringView p ≠ .ok x := by
  intro x hx
  have hl := h.lt
  obtain ⟨_, t, ht, e⟩ := h
  simp only [asStringView] at hx
  obtain ⟨⟨o, n⟩, h1, h2⟩ := Res.bind_eq_ok.1 hx
  have := le_strInfo p t _ h1
  rw [← e, strInfo_head H] at this
  cases this
  simp only [sliceAt] at h2
  split at h2
  · simp at hl; omega
  · cases h2

theorem bin_cut {s hd p : Bytes} (H : BinHead s.length hd) (h : Cut p (hd ++ s)) : ∀ x, asBlob p ≠ .ok x := by
  intro x hx
  have hl := h.lt
  obtain ⟨_, t, ht, e⟩ := h
  simp only [asBlob] at hx
  obtain ⟨⟨o, n⟩, h1, h2⟩ := Res.bind_eq_ok.1 hx
  have := le_binInfo p t _ h1
  rw [← e, binInfo_head H] at this
  cases this
  simp only [sliceAt] at h2
  split at h2
  · simp at hl; omega
  · cases h2

/-- A truncated element is never passed completely: what `first` should return is missing. -/
theorem take_cut {w t c : Bytes} (hc : Elem Lim c) (e : w ++ t = c) (ht : t ≠ []) {n : Nat} (hn : skip w = .ok n) {x : Bytes} :
    first w n ≠ .ok x := by
  intro hx
  have := le_skip w t n hn
  rw [e, hc.skip_self] at this
  cases this
  have hl := List.length_pos_iff.2 ht
  rw [first, if_neg (by rw [← e]; simp; omega)] at hx
  cases hx

theorem drop_of_append {p t pre c : Bytes} (e : p ++ t = pre ++ c) (h : pre.length ≤ p.length) : p.drop pre.length ++ t = c := by
  have := congrArg (List.drop pre.length) e
  rwa [List.drop_append_of_le_length h, List.drop_left] at this

/-- The last element of a truncated array is out of reach. -/
theorem arr_cut {cs : List Bytes} {hd p : Bytes} (H : ArrHead cs.length hd) (hc : ∀ c ∈ cs, Elem Lim c)
    (h : Cut p (hd ++ cs.flatten)) (hne : cs ≠ []) : ∀ x, getIdx p (cs.length - 1) ≠ .ok x := by
  intro x hx
  obtain ⟨_, t, ht, e⟩ := h
  simp only [getIdx] at hx
  obtain ⟨⟨n, o⟩, h1, hx⟩ := Res.bind_eq_ok.1 hx
  have := le_arrInfo p t _ h1
  rw [← e, arrInfo_head H] at this
  cases this
  obtain ⟨_, _, hx⟩ := Res.bind_eq_ok.1 hx
  obtain ⟨o, h2, hx⟩ := Res.bind_eq_ok.1 hx
  obtain ⟨w, h3, hx⟩ := Res.bind_eq_ok.1 hx
  obtain ⟨sz, h4, hx⟩ := Res.bind_eq_ok.1 hx
  have hdl : cs = cs.dropLast ++ [cs.getLast hne] := (List.dropLast_concat_getLast hne).symm
  have e2 : hd ++ cs.flatten = hd ++ (cs.dropLast.flatten ++ cs.getLast hne) := by
    conv => lhs; rw [hdl]
    simp
  have h5 := le_skipLoop (fun w => le_skip w t) _ _ o h2
  rw [← e, e2] at h5
  have h6 := skipLoop_chunks (rec := skip) cs.dropLast hd (cs.getLast hne) (fun c hc' t => (hc c (List.dropLast_subset _ hc')).skip t)
  rw [List.length_dropLast, h5] at h6
  cases h6
  obtain ⟨h7, rfl⟩ := subspan_drop h3
  refine take_cut (t := t) (hc _ (List.getLast_mem hne)) ?_ ht h4 hx
  have h8 : hd.length + cs.dropLast.flatten.length = (hd ++ cs.dropLast.flatten).length := by simp
  rw [h8] at h7 ⊢
  exact drop_of_append (by rw [← e, e2]; simp) h7

/-- The value under the last key of a truncated map is out of reach, if the key is not repeated. -/
theorem map_cut (key : Bytes) : ∀ (ms : List (Bytes × Val)) (cs : List Bytes) (pre p t : Bytes), Val.Below.belowEntries Lim ms →
    EncEntries ms cs → pre ++ cs.flatten = p ++ t → t ≠ [] → (∃ ms' v, ms = ms' ++ [(key, v)] ∧ key ∉ ms'.map Prod.fst) →
    ∀ x, getKeyFrom p key ms.length pre.length ≠ .ok x
  | [], cs, pre, p, t, _, _, _, _, hl => by obtain ⟨_, _, h, _⟩ := hl; simp at h
  | (k, v) :: ms, cs, pre, p, t, hb, h, e, ht, hl => by
    intro x hx
    simp only [EncEntries] at h
    simp only [Val.Below.belowEntries] at hb
    obtain ⟨hd, c, cs', H, hc, hcs, rfl⟩ := h
    have E1 : Elem Lim (hd ++ k) := .str H hb.1
    have E2 : Elem Lim c := Enc.elem v hb.2.1 hc
    simp only [List.flatten_cons] at e
    simp only [List.length_cons, getKeyFrom] at hx
    obtain ⟨ks, h1, x1⟩ := Res.bind_eq_ok.1 hx
    obtain ⟨ksz, h2, x2⟩ := Res.bind_eq_ok.1 x1
    obtain ⟨kd, h3, x3⟩ := Res.bind_eq_ok.1 x2
    obtain ⟨vs, h4, x4⟩ := Res.bind_eq_ok.1 x3
    obtain ⟨vsz, h5, x5⟩ := Res.bind_eq_ok.1 x4
    obtain ⟨hit, h6, x6⟩ := Res.bind_eq_ok.1 x5
    clear hx x1 x2 x3 x4 x5
    obtain ⟨l1, rfl⟩ := subspan_drop h1
    have a1 := drop_of_append e.symm l1
    have h2' := le_skip _ t _ h2
    rw [a1, E1.skip] at h2'
    cases h2'
    have h3' := first_more h3 t
    rw [a1, first_append] at h3'
    cases h3'
    rw [keyHit_str H] at h6
    cases h6
    have l2 : pre.length + (hd ++ k).length = (pre ++ (hd ++ k)).length := by simp
    rw [l2] at h4 x6
    obtain ⟨l3, rfl⟩ := subspan_drop h4
    have a2 := drop_of_append (p := p) (t := t) (c := c ++ cs'.flatten) (by rw [← e]; simp) l3
    have h5' := le_skip _ t _ h5
    rw [a2, E2.skip] at h5'
    cases h5'
    by_cases hk : k = key
    · subst hk
      simp only [decide_true, if_true] at x6
      obtain ⟨ms', w, hm, hn⟩ := hl
      cases ms' with
      | cons m ms' => simp at hm hn; rw [← hm.1] at hn; simp at hn
      | nil =>
        simp at hm
        obtain ⟨rfl, rfl⟩ := hm
        simp only [EncEntries] at hcs
        subst hcs
        exact take_cut E2 (by simpa using a2) ht h5 x6
    · simp only [hk, decide_false] at x6
      have l4 : (pre ++ (hd ++ k)).length + c.length = (pre ++ (hd ++ k) ++ c).length := List.length_append.symm
      rw [l4] at x6
      refine map_cut key ms cs' (pre ++ (hd ++ k) ++ c) p t hb.2.2 hcs (by rw [← e]; simp) ht ?_ x x6
      obtain ⟨ms', w, hm, hn⟩ := hl
      cases ms' with
      | nil => simp at hm; exact absurd hm.1.1 hk
      | cons m ms' =>
        simp at hm
        refine ⟨ms', w, hm.2, fun hh => hn ?_⟩
        simp only [List.map_cons, List.mem_cons]
        exact .inr hh

theorem shows_cut {p b : Bytes} (h : Cut p b) {a1 a2 a3 a4 a5 a6 a7 a8 : Bool}
    (hs : reader.Shows b a1 a2 a3 a4 a5 a6 a7 a8) : reader.Shows p a1 a2 a3 a4 a5 a6 a7 a8 := by
  obtain ⟨hp, t, ht, rfl⟩ := h
  cases p with
  | nil => exact absurd rfl hp
  | cons m p => exact hs

/-- Reading of nothing presents nothing. -/
theorem agrees_nil {w : Val} : ¬ reader.Agrees [] w := by
  intro h
  obtain ⟨ar, h1, h2⟩ := h.shows
  obtain ⟨g0, g1, ⟨i, u, hi, hu, g2⟩, g3, g4, g5, g6, g7⟩ := h1
  have f : ∀ {x y : Bool}, (Res.ok x : Res Bool) = .ok y → x = y := fun h => by injection h
  have g0 := f g0; have g1 := f g1; have g3 := f g3; have g4 := f g4; have g5 := f g5; have g6 := f g6; have g7 := f g7
  have hi := f hi; have hu := f hu
  simp [isNull, isBool, isInt, isUInt, isFloat, isString, isBlob, isMap, isArray, onMarker] at g0 g1 g3 g4 g5 g6 g7 hi hu
  subst hi hu
  cases w <;> simp_all [Val.kind]

theorem no_value_cut {v w : Val} {b p : Bytes} (hb : v.Below Lim) (hd : v.Distinct) (h : Enc v b) (hp : Cut p b) :
    ¬ reader.Agrees p w := by
  intro hA
  have hsh := enc_shows h []
  rw [List.append_nil] at hsh
  have hk := hA.kind_eq (shows_cut hp hsh)
  have hone : b.length = 1 → False := by
    intro hb
    have := hp.lt
    have := List.length_pos_iff.2 hp.1
    omega
  have num : ∀ z, EncInt z b → w.kind = 2 → False := by
    intro z H hk
    obtain ⟨n1, n2⟩ := int_cut H hp
    have : ∀ z', reader.ShowsInt p z' → False := by
      rintro z' ⟨⟨_, _, ⟨i, u, hi, hu, hor⟩, _⟩, g1, g2⟩
      cases i with
      | true => obtain ⟨x, hx, _⟩ := g1 hi; exact n1 x hx
      | false =>
        have hu' : u = true := by simpa using hor
        subst hu'
        obtain ⟨x, hx, _⟩ := g2 hu; exact n2 x hx
    cases hA with
    | int h => exact this _ h
    | uint h => exact this _ h
    | _ => simp [Val.kind] at hk
  cases v with
  | null => simp only [Enc] at h; exact hone (by rw [h]; rfl)
  | bool x => simp only [Enc] at h; exact hone (by rw [h]; rfl)
  | int i => simp only [Enc] at h; exact num _ h hk
  | uint i => simp only [Enc] at h; exact num _ h hk
  | dbl d =>
    simp only [Enc] at h
    cases hA with
    | dbl _ hx => exact dbl_cut h hp _ hx
    | _ => simp [Val.kind] at hk
  | str s =>
    simp only [Enc] at h
    obtain ⟨hd, H, rfl⟩ := h
    cases hA with
    | str _ _ hx => exact str_cut H hp _ hx
    | _ => simp [Val.kind] at hk
  | blob s =>
    simp only [Enc] at h
    obtain ⟨hd, H, rfl⟩ := h
    cases hA with
    | blob _ hx _ => exact bin_cut H hp _ hx
    | _ => simp [Val.kind] at hk
  | arr xs =>
    simp only [Enc] at h
    obtain ⟨hdr, cs, H, hc, rfl⟩ := h
    have hb' : Val.Below.belowList Lim xs := by simpa only [Val.Below] using hb
    obtain ⟨h1, h2⟩ := EncList.elem xs hb' hc
    obtain ⟨ys, child, hsz, hget⟩ := hA.arr_of_kind hk
    have hsz : arraySize p = .ok ys.length := hsz
    simp only [arraySize] at hsz
    obtain ⟨⟨n, o⟩, g1, g2⟩ := Res.bind_eq_ok.1 hsz
    cases g2
    obtain ⟨_, t, ht, e⟩ := hp
    have g3 := le_arrInfo p t _ g1
    rw [← e, arrInfo_head H] at g3
    injection g3 with g3
    injection g3 with g3 g4
    by_cases hne : cs = []
    · subst hne
      have := arrInfo_bound g1
      have hl := congrArg List.length e
      have := List.length_pos_iff.2 ht
      simp at hl
      omega
    · have hpos := List.length_pos_iff.2 hne
      exact arr_cut (h1 ▸ H) h2 ⟨‹_›, t, ht, e⟩ hne _ (hget (cs.length - 1) (by omega)).1
  | map ms =>
    simp only [Enc] at h
    obtain ⟨hdr, cs, H, hc, rfl⟩ := h
    have hb' : Val.Below.belowEntries Lim ms := by simpa only [Val.Below] using hb
    simp only [Val.Distinct] at hd
    obtain ⟨ys, child, hkeys, hget⟩ := hA.map_of_kind hk
    have hkeys : mapKeys p = .ok (ys.map Prod.fst) := hkeys
    obtain ⟨hp0, t, ht, e⟩ := hp
    have g1 := le_mapKeys p t _ hkeys
    have g2 := mapKeys_ok H hb' hc []
    rw [List.append_nil, e, g1] at g2
    injection g2 with g2
    have hmi : ∃ n o, mapInfo p = .ok (n, o) := by
      simp only [mapKeys] at hkeys
      obtain ⟨_, _, hkeys⟩ := Res.bind_eq_ok.1 hkeys
      obtain ⟨⟨n, o⟩, g, _⟩ := Res.bind_eq_ok.1 hkeys
      exact ⟨n, o, g⟩
    obtain ⟨n, o, hmi⟩ := hmi
    have g3 := le_mapInfo p t _ hmi
    rw [← e, mapInfo_head H] at g3
    injection g3 with g3
    injection g3 with g3 g4
    rcases List.eq_nil_or_concat ms with rfl | ⟨ms', ⟨k, v⟩, hms⟩
    · simp only [EncEntries] at hc
      subst hc
      have := mapInfo_bound hmi
      have hl := congrArg List.length e
      have := List.length_pos_iff.2 ht
      simp at hl
      omega
    · rw [List.concat_eq_append] at hms
      have hmem : k ∈ ys.map Prod.fst := by rw [g2, hms]; simp
      have hg : getKey p k = .ok (child k) := (hget k hmem).1
      simp only [getKey] at hg
      obtain ⟨_, _, hg⟩ := Res.bind_eq_ok.1 hg
      rw [hmi, Res.ok_bind, ← g3, ← g4] at hg
      refine map_cut k ms cs hdr p t hb' hc e ht ⟨ms', v, hms, ?_⟩ _ hg
      have := hd.1
      rw [hms, List.map_append, List.nodup_append] at this
      intro hm
      exact this.2.2 k hm k (by simp) rfl

end Zer.MsgPack
