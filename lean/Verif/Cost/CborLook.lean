import Verif.Cost.Cbor

/-!
# CBOR: steps of the lookups
-/

namespace Zer.Cbor

open Cnt (tick)

/-! ## Counted lookups -/

/-- `gather` with steps: one for every round, cbor.hpp:277-284, 312-320. -/
def gatherC (hard : Bool) (v : Bytes) (major : Nat) : Nat → Nat → Cnt Bytes
  | 0, _ => Cnt.lift .diverge
  | f + 1, q => do
    tick
    Res.require (decide (q < v.length)) .deser
    let b ← byteAt v q
    if b = 0xff then pure []
    else do
      let ch ← readHead false v q
      Res.require (decide (ch.major = major) && !ch.indef) .deser
      let q := q + ch.hlen
      Res.require (decide (u64 (q + ch.val) ≤ v.length)) .deser
      let s ← View.range hard v q ch.val
      let t ← gatherC hard v major f (u64 (q + ch.val))
      pure (s ++ t)

/-- `asString`, cbor.hpp:269-287, with steps. -/
def asStringC (hard : Bool) (f : Nat) (r : View) : Cnt Bytes := do
  let h ← r.head
  Res.require (decide (h.major = 3)) .deser
  let q := r.pos + h.hlen
  if h.indef then gatherC hard r.buf 3 f q
  else View.definite hard r.buf h q

/-- `keyAt`, cbor.hpp:331-346, with steps. -/
def keyAtC (hard : Bool) (f : Nat) (v : Bytes) (q : Nat) : Cnt Bytes := do
  let kh ← readHead false v q
  if kh.major = 3 ∧ kh.indef = false then View.range hard v (q + kh.hlen) kh.val
  else asStringC hard f ⟨v, q⟩

/-- Definite loop of `contains`, cbor.hpp:329-351, with steps. -/
def containsNC (hard : Bool) (f : Nat) (v key : Bytes) : Nat → Nat → Cnt Bool
  | 0, _ => pure false
  | n + 1, q => do
    let k ← keyAtC hard f v q
    if k = key then pure true
    else do
      let q ← skipC false v f q
      let q ← skipC false v f q
      containsNC hard f v key n q

/-- Indefinite loop of `contains`, cbor.hpp:353-360, with steps. -/
def containsBC (hard : Bool) (f : Nat) (v key : Bytes) : Nat → Nat → Cnt Bool
  | 0, _ => Cnt.lift .diverge
  | g + 1, q => do
    Res.require (decide (q < v.length)) .deser
    let b ← byteAt v q
    if b = 0xff then pure false
    else do
      let k ← asStringC hard f ⟨v, q⟩
      let q ← skipC false v f q
      if k = key then pure true
      else do
        let q ← skipC false v f q
        containsBC hard f v key g q

/-- `contains`, cbor.hpp:325-362, with steps. -/
def containsC (hard : Bool) (f : Nat) (r : View) (key : Bytes) : Cnt Bool := do
  let h ← r.head
  if h.major = 5 then
    let q := r.pos + h.hlen
    if h.indef then containsBC hard f r.buf key f q
    else containsNC hard f r.buf key h.val q
  else pure false

/-- `KeysView::end()`, cbor.hpp:447-455, with steps. -/
def keysEndC (f : Nat) (v : Bytes) (start : Nat) : Cnt Nat := do
  let h ← readHead true v start
  let q := start + h.hlen
  if h.indef then untilBreakC true v (skipC true v f) 2 f q
  else itemsC (skipC true v f) (2 * h.val) q

/-- `KeysView::iterator::operator*`, cbor.hpp:417-426, with steps. -/
def keyDerefC (hard : Bool) (f : Nat) (v : Bytes) (q : Nat) : Cnt Bytes := do
  let kh ← readHead true v q
  if kh.major = 3 ∧ kh.indef = false then View.range hard v (q + kh.hlen) kh.val
  else asStringC hard f ⟨v, q⟩

/-- `KeysView::iterator::operator++`, cbor.hpp:427-439, with steps. -/
def keyNextC (f : Nat) (v : Bytes) (indef : Bool) (q remaining : Nat) : Cnt (Nat × Nat) :=
  if indef then do
    let b ← byteAt v q
    if b = 0xff then pure (q, remaining)
    else do
      let q ← skipC true v f q
      let q ← skipC true v f q
      pure (q, remaining)
  else if remaining = 0 then pure (q, remaining)
  else do
    let q ← skipC true v f q
    let q ← skipC true v f q
    pure (q, remaining - 1)

/-- Range-for over the keys, cbor.hpp:417-441, with steps. -/
def keysFromC (hard : Bool) (f : Nat) (v : Bytes) (indef : Bool) (stop : Nat) :
    Nat → Nat → Nat → Cnt (List Bytes)
  | 0, _, _ => Cnt.lift .diverge
  | g + 1, q, remaining =>
    if q = stop then pure []
    else do
      let k ← keyDerefC hard f v q
      let (q, remaining) ← keyNextC f v indef q remaining
      let ks ← keysFromC hard f v indef stop g q remaining
      pure (k :: ks)

/-- `mapKeys()`, cbor.hpp:458, and a complete range-for, with steps. -/
def mapKeysC (hard : Bool) (f : Nat) (r : View) : Cnt (List Bytes) := do
  let h ← r.head
  Res.require (decide (h.major = 5)) .deser
  let h ← readHead true r.buf r.pos
  let stop ← keysEndC f r.buf r.pos
  keysFromC hard f r.buf h.indef stop f (r.pos + h.hlen) (if h.indef then 0 else h.val)

/-- Definite loop of `operator[](string_view)`, cbor.hpp:464-470, with steps. -/
def getKeyNC (hard : Bool) (f : Nat) (v key : Bytes) : Nat → Nat → Cnt View
  | 0, _ => Cnt.lift (.err .deser)
  | n + 1, q => do
    let k ← asStringC hard f ⟨v, q⟩
    let q ← skipC false v f q
    if k = key then pure ⟨v, q⟩
    else do
      let q ← skipC false v f q
      getKeyNC hard f v key n q

/-- Indefinite loop of `operator[](string_view)`, cbor.hpp:472, with steps. -/
def getKeyBC (hard : Bool) (f : Nat) (v key : Bytes) : Nat → Nat → Cnt View
  | 0, _ => Cnt.lift .diverge
  | g + 1, q => do
    Res.require (decide (q < v.length)) .deser
    let b ← byteAt v q
    if b = 0xff then Cnt.lift (.err .deser)
    else do
      let k ← asStringC hard f ⟨v, q⟩
      let q ← skipC false v f q
      if k = key then pure ⟨v, q⟩
      else do
        let q ← skipC false v f q
        getKeyBC hard f v key g q

/-- `operator[](string_view)`, cbor.hpp:460-475, with steps. -/
def getKeyC (hard : Bool) (f : Nat) (r : View) (key : Bytes) : Cnt View := do
  let h ← r.head
  Res.require (decide (h.major = 5)) .deser
  let q := r.pos + h.hlen
  if h.indef then getKeyBC hard f r.buf key f q
  else getKeyNC hard f r.buf key h.val q

/-- Counting loop of `arraySize`, cbor.hpp:481, with steps. -/
def countBC (f : Nat) (v : Bytes) : Nat → Nat → Cnt Nat
  | 0, _ => Cnt.lift .diverge
  | g + 1, q => do
    Res.require (decide (q < v.length)) .deser
    let b ← byteAt v q
    if b = 0xff then pure 0
    else do
      let q ← skipC false v f q
      let c ← countBC f v g q
      pure (c + 1)

/-- `arraySize`, cbor.hpp:478-482, with steps. -/
def arraySizeC (f : Nat) (r : View) : Cnt Nat := do
  let h ← r.head
  Res.require (decide (h.major = 4)) .deser
  if h.indef then countBC f r.buf f (r.pos + h.hlen)
  else pure h.val

/-- Indefinite loop of `operator[](size_t)`, cbor.hpp:492, with steps. -/
def getIdxBC (f : Nat) (v : Bytes) (idx : Nat) : Nat → Nat → Nat → Cnt View
  | 0, _, _ => Cnt.lift .diverge
  | g + 1, i, q => do
    Res.require (decide (q < v.length)) .deser
    let b ← byteAt v q
    if b = 0xff then Cnt.lift (.err .deser)
    else if i = idx then pure ⟨v, q⟩
    else do
      let q ← skipC false v f q
      getIdxBC f v idx g (i + 1) q

/-- `operator[](size_t)`, cbor.hpp:483-495, with steps. -/
def getIdxC (f : Nat) (r : View) (idx : Nat) : Cnt View := do
  let h ← r.head
  Res.require (decide (h.major = 4)) .deser
  let q := r.pos + h.hlen
  if h.indef then getIdxBC f r.buf idx f 0 q
  else do
    Res.require (decide (idx < h.val)) .deser
    let q ← itemsC (skipC false r.buf f) idx q
    pure ⟨r.buf, q⟩

/-- The lookups of the reader with their steps. -/
def costs (hard : Bool) (f : Nat) : Costs View where
  mapKeys := mapKeysC hard f
  getKey := getKeyC hard f
  arraySize := arraySizeC f
  getIdx := getIdxC f

/-! ## Counting changes nothing -/

theorem skipC_fun (raw : Bool) (v : Bytes) (f : Nat) : (fun q => (skipC raw v f q).res) = skip raw v f := by
  funext q; exact skipC_res f q

theorem gatherC_res {hard : Bool} {v : Bytes} {m : Nat} : ∀ f q, (gatherC hard v m f q).res = View.gather hard v m f q
  | 0, _ => rfl
  | f + 1, q => by
    simp only [gatherC, View.gather, Cnt.bind_res, Cnt.monadLift_eq, Cnt.lift_res, Cnt.ite_res, Cnt.pure_res, Res.pure_eq, Cnt.tick_res,
      Res.ok_bind, gatherC_res f]

theorem asStringC_res (hard : Bool) (f : Nat) (r : View) : (asStringC hard f r).res = View.asString hard f r := by
  simp only [asStringC, View.asString, Cnt.bind_res, Cnt.monadLift_eq, Cnt.lift_res, Cnt.ite_res, gatherC_res]

theorem keyAtC_res (hard : Bool) (f : Nat) (v : Bytes) (q : Nat) : (keyAtC hard f v q).res = View.keyAt hard f v q := by
  simp only [keyAtC, View.keyAt, Cnt.bind_res, Cnt.monadLift_eq, Cnt.lift_res, Cnt.ite_res, asStringC_res]

theorem containsNC_res {hard : Bool} {f : Nat} {v key : Bytes} : ∀ n q,
    (containsNC hard f v key n q).res = View.containsN hard f v key n q
  | 0, _ => rfl
  | n + 1, q => by
    simp only [containsNC, View.containsN, Cnt.bind_res, Cnt.ite_res, Cnt.pure_res, Res.pure_eq, keyAtC_res, skipC_res,
      containsNC_res n]

theorem containsBC_res {hard : Bool} {f : Nat} {v key : Bytes} : ∀ n q,
    (containsBC hard f v key n q).res = View.containsB hard f v key n q
  | 0, _ => rfl
  | n + 1, q => by
    simp only [containsBC, View.containsB, Cnt.bind_res, Cnt.ite_res, Cnt.pure_res, Res.pure_eq, Cnt.monadLift_eq, Cnt.lift_res,
      asStringC_res, skipC_res, containsBC_res n]

theorem containsC_res (hard : Bool) (f : Nat) (r : View) (key : Bytes) : (containsC hard f r key).res = View.contains hard f r key := by
  simp only [containsC, View.contains, Cnt.bind_res, Cnt.ite_res, Cnt.pure_res, Res.pure_eq, Cnt.monadLift_eq, Cnt.lift_res,
    containsBC_res, containsNC_res]

theorem keysEndC_res (f : Nat) (v : Bytes) (start : Nat) : (keysEndC f v start).res = View.keysEnd f v start := by
  simp only [keysEndC, View.keysEnd, Cnt.bind_res, Cnt.ite_res, Cnt.monadLift_eq, Cnt.lift_res, untilBreakC_res, itemsC_res, skipC_fun]

theorem keyDerefC_res (hard : Bool) (f : Nat) (v : Bytes) (q : Nat) : (keyDerefC hard f v q).res = View.keyDeref hard f v q := by
  simp only [keyDerefC, View.keyDeref, Cnt.bind_res, Cnt.monadLift_eq, Cnt.lift_res, Cnt.ite_res, asStringC_res]

theorem keyNextC_res (f : Nat) (v : Bytes) (i : Bool) (q n : Nat) : (keyNextC f v i q n).res = View.keyNext f v i q n := by
  simp only [keyNextC, View.keyNext, Cnt.bind_res, Cnt.monadLift_eq, Cnt.lift_res, Cnt.ite_res, Cnt.pure_res, Res.pure_eq, skipC_res]

theorem keysFromC_res {hard : Bool} {f : Nat} {v : Bytes} {i : Bool} {stop : Nat} : ∀ g q n,
    (keysFromC hard f v i stop g q n).res = View.keysFrom hard f v i stop g q n
  | 0, _, _ => rfl
  | g + 1, q, n => by
    simp only [keysFromC, View.keysFrom, Cnt.bind_res, Cnt.ite_res, Cnt.pure_res, Res.pure_eq, keyDerefC_res, keyNextC_res, keysFromC_res g]

theorem getKeyNC_res {hard : Bool} {f : Nat} {v key : Bytes} : ∀ n q,
    (getKeyNC hard f v key n q).res = View.getKeyN hard f v key n q
  | 0, _ => rfl
  | n + 1, q => by
    simp only [getKeyNC, View.getKeyN, Cnt.bind_res, Cnt.ite_res, Cnt.pure_res, Res.pure_eq, asStringC_res, skipC_res,
      getKeyNC_res n]

theorem getKeyBC_res {hard : Bool} {f : Nat} {v key : Bytes} : ∀ n q,
    (getKeyBC hard f v key n q).res = View.getKeyB hard f v key n q
  | 0, _ => rfl
  | n + 1, q => by
    simp only [getKeyBC, View.getKeyB, Cnt.bind_res, Cnt.ite_res, Cnt.pure_res, Res.pure_eq, Cnt.monadLift_eq, Cnt.lift_res,
      asStringC_res, skipC_res, getKeyBC_res n]

theorem countBC_res {f : Nat} {v : Bytes} : ∀ g q, (countBC f v g q).res = View.countB f v g q
  | 0, _ => rfl
  | g + 1, q => by
    simp only [countBC, View.countB, Cnt.bind_res, Cnt.ite_res, Cnt.pure_res, Res.pure_eq, Cnt.monadLift_eq, Cnt.lift_res,
      skipC_res, countBC_res g]

theorem getIdxBC_res {f : Nat} {v : Bytes} {idx : Nat} : ∀ g i q, (getIdxBC f v idx g i q).res = View.getIdxB f v idx g i q
  | 0, _, _ => rfl
  | g + 1, i, q => by
    simp only [getIdxBC, View.getIdxB, Cnt.bind_res, Cnt.ite_res, Cnt.pure_res, Res.pure_eq, Cnt.monadLift_eq, Cnt.lift_res,
      skipC_res, getIdxBC_res g]

theorem costs_of (hard : Bool) (f : Nat) : (costs hard f).Of (reader hard f) where
  mapKeys r := by
    show (mapKeysC hard f r).res = View.mapKeys hard f r
    simp only [mapKeysC, View.mapKeys, Cnt.bind_res, Cnt.monadLift_eq, Cnt.lift_res, keysEndC_res, keysFromC_res]
  getKey r k := by
    show (getKeyC hard f r k).res = View.getKey hard f r k
    simp only [getKeyC, View.getKey, Cnt.bind_res, Cnt.monadLift_eq, Cnt.lift_res, Cnt.ite_res, getKeyBC_res, getKeyNC_res]
  arraySize r := by
    show (arraySizeC f r).res = View.arraySize f r
    simp only [arraySizeC, View.arraySize, Cnt.bind_res, Cnt.monadLift_eq, Cnt.lift_res, Cnt.ite_res, Cnt.pure_res, Res.pure_eq, countBC_res]
  getIdx r i := by
    show (getIdxC f r i).res = View.getIdx f r i
    simp only [getIdxC, View.getIdx, Cnt.bind_res, Cnt.monadLift_eq, Cnt.lift_res, Cnt.ite_res, Cnt.pure_res, Res.pure_eq, getIdxBC_res,
      itemsC_res, skipC_fun]

/-! ## Keys -/

theorem range_le {hard : Bool} {v s : Bytes} {q n : Nat} (h : View.range hard v q n = .ok s) : q + n ≤ v.length := by
  unfold View.range at h
  split at h
  · cases h
  · unfold Zer.sliceAt at h
    split at h
    · assumption
    · cases h

/-- Where the checked `read_head` returns, so does the unchecked copy. -/
theorem readHead_raw {raw : Bool} {v : Bytes} {p : Nat} {h : Head} (hr : readHead false v p = .ok h) : readHead raw v p = .ok h := by
  cases raw with
  | false => exact hr
  | true =>
    unfold readHead at hr ⊢
    obtain ⟨_, _, hr⟩ := Res.bind_eq_ok.1 hr
    obtain ⟨b, hb, hr⟩ := Res.bind_eq_ok.1 hr
    have e : ∀ c, ensure true c = .ok () := fun c => rfl
    simp only [e, Res.ok_bind, hb]
    dsimp only at hr ⊢
    split at hr
    · rw [if_pos ‹_›]
      split at hr
      · rw [if_pos ‹_›]; exact hr
      rw [if_neg ‹_›]
      split at hr
      · rw [if_pos ‹_›]; exact hr
      rw [if_neg ‹_›]
      split at hr
      · rw [if_pos ‹_›]; exact hr
      rw [if_neg ‹_›]
      split at hr
      · rw [if_pos ‹_›]; obtain ⟨_, _, hr⟩ := Res.bind_eq_ok.1 hr; exact hr
      rw [if_neg ‹_›]
      exact hr
    rw [if_neg ‹_›]
    split at hr
    · rw [if_pos ‹_›]; exact hr
    rw [if_neg ‹_›]
    split at hr
    · rw [if_pos ‹_›]; obtain ⟨_, _, hr⟩ := Res.bind_eq_ok.1 hr; exact hr
    rw [if_neg ‹_›]
    split at hr
    · rw [if_pos ‹_›]; obtain ⟨_, _, hr⟩ := Res.bind_eq_ok.1 hr; exact hr
    rw [if_neg ‹_›]
    split at hr
    · rw [if_pos ‹_›]; obtain ⟨_, _, hr⟩ := Res.bind_eq_ok.1 hr; exact hr
    rw [if_neg ‹_›]
    split at hr
    · rw [if_pos ‹_›]; obtain ⟨_, _, hr⟩ := Res.bind_eq_ok.1 hr; exact hr
    rw [if_neg ‹_›]
    split at hr
    · rw [if_pos ‹_›]; exact hr
    · cases hr

theorem gatherC_le {hard : Bool} {v : Bytes} (hv : v.length < 2 ^ 64) {m : Nat} : ∀ f q, (gatherC hard v m f q).cost ≤ v.length - q + 1
  | 0, q => Nat.zero_le _
  | f + 1, q => by
    unfold gatherC
    simp only [Cnt.monadLift_eq]
    rw [Cnt.tick_bind_cost, Nat.add_comm]
    refine Nat.succ_le_succ ?_
    refine Cnt.lift_bind_le fun _ hq => ?_
    rw [Res.require_eq_ok, decide_eq_true_iff] at hq
    refine Cnt.lift_bind_le fun b hb => ?_
    refine Cnt.ite_cost_le (fun _ => Nat.zero_le _) fun _ => ?_
    refine Cnt.lift_bind_le fun h hr => Cnt.lift_bind_le fun _ _ => Cnt.lift_bind_le fun _ _ => Cnt.lift_bind_le fun s hs => ?_
    have hl := range_le hs
    obtain ⟨_, h1, -⟩ := readHead_ok hr
    have e : u64 (q + h.hlen + h.val) = q + h.hlen + h.val := u64_of_lt (by omega)
    rw [e]
    have := gatherC_le (hard := hard) hv (m := m) f (q + h.hlen + h.val)
    refine Cnt.bind_le_of (by omega) fun a _ => ?_
    show _ + 0 ≤ _
    omega

theorem gatherC_chunksC {hard raw : Bool} {v : Bytes} {m : Nat} : ∀ f q s, (gatherC hard v m (f + 1) q).res = .ok s →
    (gatherC hard v m (f + 1) q).cost ≤ 1 + (chunksC raw v m f q).cost
  | f, q, s, hs => by
    unfold gatherC at hs ⊢
    simp only [Cnt.monadLift_eq] at hs ⊢
    rw [Cnt.bind_res, Cnt.tick_res, Res.ok_bind] at hs
    rw [Cnt.tick_bind_cost]
    obtain ⟨_, hq, hs, e1⟩ := Cnt.lift_bind_ok hs
    rw [e1]
    obtain ⟨b, hb, hs, e2⟩ := Cnt.lift_bind_ok hs
    rw [e2]
    split at hs
    · rw [if_pos ‹_›]; simp
    · rename_i hne
      rw [if_neg ‹_›]
      obtain ⟨h, hr, hs, e3⟩ := Cnt.lift_bind_ok hs
      rw [e3]
      obtain ⟨_, hm, hs, e4⟩ := Cnt.lift_bind_ok hs
      rw [e4]
      obtain ⟨_, hl, hs, e5⟩ := Cnt.lift_bind_ok hs
      rw [e5]
      obtain ⟨t, ht, hs, e6⟩ := Cnt.lift_bind_ok hs
      rw [e6]
      obtain ⟨u, hu, hs, e7⟩ := Cnt.bind_ok hs
      rw [e7]
      cases f with
      | zero => cases hu
      | succ f =>
        have ih := gatherC_chunksC (raw := raw) f _ u hu
        rw [Res.require_eq_ok, decide_eq_true_iff] at hq
        rw [Res.require_eq_ok, Bool.and_eq_true, decide_eq_true_iff] at hm
        have e : chunksC raw v m (f + 1) q = tick >>= fun _ => chunksC raw v m f (u64 (q + (h.hlen + h.val))) := by
          rw [chunksC]
          simp only [ensure_of (decide_eq_true hq), ensure_of (decide_eq_true hm.1), ensure_of hm.2, Cnt.monadLift_eq, Cnt.lift_ok_bind, hb,
            if_neg hne, readHead_raw hr]
        rw [e, Cnt.tick_bind_cost, ← Nat.add_assoc q]
        show 1 + (_ + 0) ≤ _
        omega

/-- Reading a key takes no more steps than there are bytes left, and no more than skipping it. -/
theorem asStringC_le {hard : Bool} {v : Bytes} (hv : v.length < 2 ^ 64) (f q : Nat) : (asStringC hard f ⟨v, q⟩).cost ≤ v.length - q := by
  unfold asStringC
  simp only [Cnt.monadLift_eq]
  refine Cnt.lift_bind_le fun h hr => Cnt.lift_bind_le fun _ _ => ?_
  obtain ⟨h0, h1, -⟩ := readHead_ok (show readHead false v q = .ok h from hr)
  refine Cnt.ite_cost_le (fun _ => ?_) fun _ => Nat.zero_le _
  have := gatherC_le (hard := hard) hv (m := 3) f (q + h.hlen)
  have e : (gatherC hard v 3 f (q + h.hlen)).cost ≤ v.length - q := by omega
  exact e

theorem asStringC_skipC {hard : Bool} {v : Bytes} {f q : Nat} {s : Bytes} (h : (asStringC hard f ⟨v, q⟩).res = .ok s) (raw : Bool) :
    (asStringC hard f ⟨v, q⟩).cost ≤ (skipC raw v f q).cost := by
  unfold asStringC at h ⊢
  simp only [Cnt.monadLift_eq] at h ⊢
  obtain ⟨hd, hr, h, e1⟩ := Cnt.lift_bind_ok h
  rw [e1]
  obtain ⟨_, hm, h, e2⟩ := Cnt.lift_bind_ok h
  rw [e2]
  split at h
  · rename_i hi
    rw [if_pos hi]
    cases f with
    | zero => cases h
    | succ f =>
      have := gatherC_chunksC (raw := raw) f _ s h
      rw [Res.require_eq_ok, decide_eq_true_iff] at hm
      have e : skipC raw v (f + 1) q = tick >>= fun _ => chunksC raw v 3 f (q + hd.hlen) := by
        rw [skipC]
        simp only [readHead_raw (raw := raw) (show readHead false v q = .ok hd from hr), Cnt.monadLift_eq, Cnt.lift_ok_bind, hm, hi,
          if_neg (show ¬ 3 ≤ 1 by omega), if_pos (Nat.le_refl 3), if_true]
      rw [e, Cnt.tick_bind_cost]
      exact this
  · rw [if_neg ‹_›]
    exact Nat.zero_le _

theorem keyAtC_le {hard : Bool} {v : Bytes} (hv : v.length < 2 ^ 64) (f q : Nat) : (keyAtC hard f v q).cost ≤ v.length - q := by
  unfold keyAtC
  simp only [Cnt.monadLift_eq]
  exact Cnt.lift_bind_le fun h hr => Cnt.ite_cost_le (fun _ => Nat.zero_le _) fun _ => asStringC_le hv f q

theorem keyAtC_skipC {hard : Bool} {v : Bytes} {f q : Nat} {s : Bytes} (h : (keyAtC hard f v q).res = .ok s) (raw : Bool) :
    (keyAtC hard f v q).cost ≤ (skipC raw v f q).cost := by
  unfold keyAtC at h ⊢
  simp only [Cnt.monadLift_eq] at h ⊢
  obtain ⟨hd, hr, h, e1⟩ := Cnt.lift_bind_ok h
  rw [e1]
  split at h
  · rw [if_pos ‹_›]; exact Nat.zero_le _
  · rw [if_neg ‹_›]; exact asStringC_skipC h raw

theorem keyDerefC_le {hard : Bool} {v : Bytes} (hv : v.length < 2 ^ 64) (f q : Nat) : (keyDerefC hard f v q).cost ≤ v.length - q := by
  unfold keyDerefC
  simp only [Cnt.monadLift_eq]
  exact Cnt.lift_bind_le fun h hr => Cnt.ite_cost_le (fun _ => Nat.zero_le _) fun _ => asStringC_le hv f q

theorem keyDerefC_skipC {hard : Bool} {v : Bytes} {f q : Nat} {s : Bytes} (h : (keyDerefC hard f v q).res = .ok s) (raw : Bool) :
    (keyDerefC hard f v q).cost ≤ (skipC raw v f q).cost := by
  unfold keyDerefC at h ⊢
  simp only [Cnt.monadLift_eq] at h ⊢
  obtain ⟨hd, hr, h, e1⟩ := Cnt.lift_bind_ok h
  rw [e1]
  split at h
  · rw [if_pos ‹_›]; exact Nat.zero_le _
  · rw [if_neg ‹_›]; exact asStringC_skipC h raw

/-! ## Walks -/

/-- From `q` on, `n` items are cheap to pass, and `Q` holds behind them. -/
def Walk (raw : Bool) (v : Bytes) (f : Nat) : Nat → Nat → (Nat → Prop) → Prop
  | 0, q, Q => Q q
  | n + 1, q, Q => Cheap v q (skipC raw v f q) ∧ ∀ r, (skipC raw v f q).res = .ok r → Walk raw v f n r Q

/-- From `q` on, rounds of `k` items up to a break are cheap to pass. -/
def WalkB (raw : Bool) (v : Bytes) (f k : Nat) : Nat → Nat → Prop
  | 0, _ => True
  | g + 1, q => byteAt v q = .ok 0xff ∨ Walk raw v f k q (WalkB raw v f k g)

/-- The content of the container at `p`, `k` items for every entry, is cheap to pass. -/
def Walks (raw : Bool) (v : Bytes) (f k p : Nat) : Prop := ∀ h, readHead raw v p = .ok h →
  (h.indef = false → Walk raw v f (k * h.val) (p + h.hlen) fun _ => True) ∧
  (h.indef = true → ∀ g, WalkB raw v f k g (p + h.hlen))

theorem Walk.split {raw : Bool} {v : Bytes} {f : Nat} : ∀ {m n q Q}, Walk raw v f (m + n) q Q → Walk raw v f m q fun r => Walk raw v f n r Q
  | 0, n, q, Q, h => by rw [Nat.zero_add] at h; exact h
  | m + 1, n, q, Q, h => by
    rw [show m + 1 + n = (m + n) + 1 by omega] at h
    exact ⟨h.1, fun r hr => Walk.split (h.2 r hr)⟩

theorem Walk.items {raw : Bool} {v : Bytes} {f : Nat} : ∀ {n q Q}, Walk raw v f n q Q → Cheap v q (itemsC (skipC raw v f) n q) ∧
    ∀ r, (itemsC (skipC raw v f) n q).res = .ok r → Q r
  | 0, q, Q, h => ⟨.of_zero rfl fun r h => by injection h with h; omega, fun r hr => by injection hr with hr; subst hr; exact h⟩
  | n + 1, q, Q, h => by
    refine ⟨h.1.bind fun r hr => (Walk.items (h.2 r hr)).1, fun r hr => ?_⟩
    obtain ⟨s, hs, hr, _⟩ := Cnt.bind_ok hr
    exact (Walk.items (h.2 s hs)).2 r hr

theorem WalkB.until {raw : Bool} {v : Bytes} {f k : Nat} : ∀ {g q}, WalkB raw v f k g q → Cheap v q (untilBreakC raw v (skipC raw v f) k g q)
  | 0, q, _ => .of_zero rfl fun r h => by cases h
  | g + 1, q, h => by
    unfold untilBreakC
    simp only [Cnt.monadLift_eq]
    refine .lift_bind fun _ _ => .lift_bind fun b hb => ?_
    split
    · exact .of_zero rfl fun r h => by injection h with h; omega
    · rcases h with h | h
      · rw [hb] at h; injection h with h; exact absurd h ‹_›
      · exact h.items.1.bind fun r hr => WalkB.until (h.items.2 r hr)

theorem _root_.Zer.Cnt.add_bind_le {α β : Type} {x : Cnt α} {k : α → Cnt β} {c n : Nat} (h0 : c + x.cost ≤ n)
    (h : ∀ a, x.res = .ok a → c + x.cost + (k a).cost ≤ n) : c + (x >>= k).cost ≤ n := by
  have := Cnt.bind_le_of (x := x) (k := k) (n := n - c) (by omega) fun a ha => by have := h a ha; omega
  omega

theorem _root_.Zer.Cnt.add_lift_bind_le {α β : Type} {x : Res α} {k : α → Cnt β} {c n : Nat} (h0 : c ≤ n)
    (h : ∀ a, x = .ok a → c + (k a).cost ≤ n) : c + (Cnt.lift x >>= k).cost ≤ n :=
  Cnt.add_bind_le (x := Cnt.lift x) h0 fun a ha => by have := h a ha; rw [Cnt.lift_cost]; omega

theorem _root_.Zer.Cnt.add_ite_le {α : Type} {p : Prop} [Decidable p] {x y : Cnt α} {c n : Nat} (hx : p → c + x.cost ≤ n)
    (hy : ¬ p → c + y.cost ≤ n) : c + (if p then x else y).cost ≤ n := by
  split
  · exact hx ‹_›
  · exact hy ‹_›

section
variable {v : Bytes} (hv : v.length < 2 ^ 64)
include hv

theorem getKeyNC_le {hard : Bool} {f : Nat} (key : Bytes) : ∀ n q, Walk false v f (2 * n) q (fun _ => True) →
    (getKeyNC hard f v key n q).cost ≤ 2 * (v.length - q) + 2
  | 0, q, _ => Nat.zero_le _
  | n + 1, q, hw => by
    rw [show 2 * (n + 1) = 2 * n + 1 + 1 by omega] at hw
    unfold getKeyNC
    have a1 := asStringC_le (hard := hard) hv f q
    refine Cnt.bind_le_of (by omega) fun k hk => ?_
    have a2 := asStringC_skipC hk false
    obtain ⟨b1, b2⟩ := hw.1
    refine Cnt.add_bind_le (by omega) fun r hr => ?_
    have b3 := b2 r hr
    obtain ⟨c1, c2⟩ := (hw.2 r hr).1
    refine Cnt.add_ite_le (fun _ => by rw [Cnt.pure_cost]; omega) fun _ => ?_
    refine Cnt.add_bind_le (by omega) fun t ht => ?_
    have c3 := c2 t ht
    have := getKeyNC_le (hard := hard) key n t ((hw.2 r hr).2 t ht)
    omega

theorem getKeyBC_le {hard : Bool} {f : Nat} (key : Bytes) : ∀ g q, WalkB false v f 2 g q →
    (getKeyBC hard f v key g q).cost ≤ 2 * (v.length - q) + 2
  | 0, q, _ => Nat.zero_le _
  | g + 1, q, hw => by
    unfold getKeyBC
    simp only [Cnt.monadLift_eq]
    refine Cnt.lift_bind_le fun _ _ => Cnt.lift_bind_le fun b hb => ?_
    refine Cnt.ite_cost_le (fun _ => Nat.zero_le _) fun hne => ?_
    rcases hw with h | hw
    · rw [hb] at h; injection h with h; exact absurd h hne
    have a1 := asStringC_le (hard := hard) hv f q
    refine Cnt.bind_le_of (by omega) fun k hk => ?_
    have a2 := asStringC_skipC hk false
    obtain ⟨b1, b2⟩ := hw.1
    refine Cnt.add_bind_le (by omega) fun r hr => ?_
    have b3 := b2 r hr
    obtain ⟨c1, c2⟩ := (hw.2 r hr).1
    refine Cnt.add_ite_le (fun _ => by rw [Cnt.pure_cost]; omega) fun _ => ?_
    refine Cnt.add_bind_le (by omega) fun t ht => ?_
    have c3 := c2 t ht
    have := getKeyBC_le (hard := hard) key g t ((hw.2 r hr).2 t ht)
    omega

theorem containsNC_le {hard : Bool} {f : Nat} (key : Bytes) : ∀ n q, Walk false v f (2 * n) q (fun _ => True) →
    (containsNC hard f v key n q).cost ≤ 2 * (v.length - q) + 2
  | 0, q, _ => Nat.zero_le _
  | n + 1, q, hw => by
    rw [show 2 * (n + 1) = 2 * n + 1 + 1 by omega] at hw
    unfold containsNC
    have a1 := keyAtC_le (hard := hard) hv f q
    refine Cnt.bind_le_of (by omega) fun k hk => ?_
    have a2 := keyAtC_skipC hk false
    obtain ⟨b1, b2⟩ := hw.1
    refine Cnt.add_ite_le (fun _ => by rw [Cnt.pure_cost]; omega) fun _ => ?_
    refine Cnt.add_bind_le (by omega) fun r hr => ?_
    have b3 := b2 r hr
    obtain ⟨c1, c2⟩ := (hw.2 r hr).1
    refine Cnt.add_bind_le (by omega) fun t ht => ?_
    have c3 := c2 t ht
    have := containsNC_le (hard := hard) key n t ((hw.2 r hr).2 t ht)
    omega

theorem containsBC_le {hard : Bool} {f : Nat} (key : Bytes) : ∀ g q, WalkB false v f 2 g q →
    (containsBC hard f v key g q).cost ≤ 2 * (v.length - q) + 2
  | 0, q, _ => Nat.zero_le _
  | g + 1, q, hw => by
    unfold containsBC
    simp only [Cnt.monadLift_eq]
    refine Cnt.lift_bind_le fun _ _ => Cnt.lift_bind_le fun b hb => ?_
    refine Cnt.ite_cost_le (fun _ => Nat.zero_le _) fun hne => ?_
    rcases hw with h | hw
    · rw [hb] at h; injection h with h; exact absurd h hne
    have a1 := asStringC_le (hard := hard) hv f q
    refine Cnt.bind_le_of (by omega) fun k hk => ?_
    have a2 := asStringC_skipC hk false
    obtain ⟨b1, b2⟩ := hw.1
    refine Cnt.add_bind_le (by omega) fun r hr => ?_
    have b3 := b2 r hr
    obtain ⟨c1, c2⟩ := (hw.2 r hr).1
    refine Cnt.add_ite_le (fun _ => by rw [Cnt.pure_cost]; omega) fun _ => ?_
    refine Cnt.add_bind_le (by omega) fun t ht => ?_
    have c3 := c2 t ht
    have := containsBC_le (hard := hard) key g t ((hw.2 r hr).2 t ht)
    omega

theorem keysFromC_leN {hard : Bool} {f : Nat} {stop : Nat} : ∀ g q n, Walk true v f (2 * n) q (fun r => r = stop) →
    (keysFromC hard f v false stop g q n).cost ≤ 2 * (v.length - q) + 2
  | 0, q, n, _ => Nat.zero_le _
  | g + 1, q, n, hw => by
    unfold keysFromC
    refine Cnt.ite_cost_le (fun _ => Nat.zero_le _) fun hne => ?_
    cases n with
    | zero => exact absurd hw hne
    | succ n =>
      rw [show 2 * (n + 1) = 2 * n + 1 + 1 by omega] at hw
      have a1 := keyDerefC_le (hard := hard) hv f q
      refine Cnt.bind_le_of (by omega) fun k hk => ?_
      have a2 := keyDerefC_skipC hk true
      obtain ⟨b1, b2⟩ := hw.1
      have e : keyNextC f v false q (n + 1) = skipC true v f q >>= fun q => skipC true v f q >>= fun q => pure (q, n) := rfl
      rw [e]
      simp only [bind_assoc, pure_bind]
      refine Cnt.add_bind_le (by omega) fun r hr => ?_
      have b3 := b2 r hr
      obtain ⟨c1, c2⟩ := (hw.2 r hr).1
      refine Cnt.add_bind_le (by omega) fun t ht => ?_
      have c3 := c2 t ht
      have := keysFromC_leN (hard := hard) (stop := stop) g t n ((hw.2 r hr).2 t ht)
      exact Cnt.add_bind_le (by omega) fun _ _ => by rw [Cnt.pure_cost]; omega

theorem keysFromC_leB {hard : Bool} {f : Nat} {stop : Nat} : ∀ g q n, WalkB true v f 2 g q →
    (keysFromC hard f v true stop g q n).cost ≤ 2 * (v.length - q) + 2
  | 0, q, n, _ => Nat.zero_le _
  | g + 1, q, n, hw => by
    unfold keysFromC
    refine Cnt.ite_cost_le (fun _ => Nat.zero_le _) fun hne => ?_
    have a1 := keyDerefC_le (hard := hard) hv f q
    refine Cnt.bind_le_of (by omega) fun k hk => ?_
    have a2 := keyDerefC_skipC hk true
    have hk' := hk
    rw [keyDerefC_res] at hk'
    have hq := keyDeref_lt hk'
    rcases hw with h | hw
    · exfalso
      have hat : At v q [0xff] := by
        have := At.of_slice (b := v) (o := q) (n := 1) (by omega)
        rw [List.drop_eq_getElem_cons hq, List.take_succ_cons, List.take_zero] at this
        have e : v[q] = 0xff := UInt8.toNat_inj.1 (by rw [byteAt_ok hq] at h; injection h)
        rw [e] at this; exact this
      rw [keyDeref_break hat] at hk'
      cases hk'
    obtain ⟨b1, b2⟩ := hw.1
    simp only [keyNextC, if_true, Cnt.monadLift_eq, bind_assoc]
    refine Cnt.add_lift_bind_le (by omega) fun b hb => ?_
    by_cases hff : b = 0xff
    · exfalso
      subst hff
      have hat : At v q [0xff] := by
        have := At.of_slice (b := v) (o := q) (n := 1) (by omega)
        rw [List.drop_eq_getElem_cons hq, List.take_succ_cons, List.take_zero] at this
        have e : v[q] = 0xff := UInt8.toNat_inj.1 (by rw [byteAt_ok hq] at hb; injection hb)
        rw [e] at this; exact this
      rw [keyDeref_break hat] at hk'
      cases hk'
    simp only [if_neg hff, bind_assoc, pure_bind]
    refine Cnt.add_bind_le (by omega) fun r hr => ?_
    have b3 := b2 r hr
    obtain ⟨c1, c2⟩ := (hw.2 r hr).1
    refine Cnt.add_bind_le (by omega) fun t ht => ?_
    have c3 := c2 t ht
    have := keysFromC_leB (hard := hard) (stop := stop) g t n ((hw.2 r hr).2 t ht)
    exact Cnt.add_bind_le (by omega) fun _ _ => by rw [Cnt.pure_cost]; omega

end

theorem countBC_le {v : Bytes} {f : Nat} : ∀ g q, WalkB false v f 1 g q → (countBC f v g q).cost ≤ v.length - q + 1
  | 0, q, _ => Nat.zero_le _
  | g + 1, q, hw => by
    unfold countBC
    simp only [Cnt.monadLift_eq]
    refine Cnt.lift_bind_le fun _ _ => Cnt.lift_bind_le fun b hb => ?_
    refine Cnt.ite_cost_le (fun _ => Nat.zero_le _) fun hne => ?_
    rcases hw with h | hw
    · rw [hb] at h; injection h with h; exact absurd h hne
    obtain ⟨b1, b2⟩ := hw.1
    refine Cnt.bind_le_of (by omega) fun r hr => ?_
    have b3 := b2 r hr
    have := countBC_le g r (hw.2 r hr)
    exact Cnt.add_bind_le (by omega) fun _ _ => by rw [Cnt.pure_cost]; omega

theorem getIdxBC_le {v : Bytes} {f idx : Nat} : ∀ g i q, WalkB false v f 1 g q → (getIdxBC f v idx g i q).cost ≤ v.length - q + 1
  | 0, i, q, _ => Nat.zero_le _
  | g + 1, i, q, hw => by
    unfold getIdxBC
    simp only [Cnt.monadLift_eq]
    refine Cnt.lift_bind_le fun _ _ => Cnt.lift_bind_le fun b hb => ?_
    refine Cnt.ite_cost_le (fun _ => Nat.zero_le _) fun hne => ?_
    rcases hw with h | hw
    · rw [hb] at h; injection h with h; exact absurd h hne
    refine Cnt.ite_cost_le (fun _ => Nat.zero_le _) fun _ => ?_
    obtain ⟨b1, b2⟩ := hw.1
    refine Cnt.bind_le_of (by omega) fun r hr => ?_
    have b3 := b2 r hr
    have := getIdxBC_le (idx := idx) g (i + 1) r (hw.2 r hr)
    omega

/-! ## Lookups at a position whose content is cheap to pass -/

theorem Walks.getKey {v : Bytes} (hv : v.length < 2 ^ 64) {f p : Nat} (h : Walks false v f 2 p) (hard : Bool) (key : Bytes) :
    (getKeyC hard f ⟨v, p⟩ key).cost ≤ 2 * (v.length + 1) := by
  unfold getKeyC
  simp only [Cnt.monadLift_eq]
  refine Cnt.lift_bind_le fun hd hr => Cnt.lift_bind_le fun _ _ => ?_
  obtain ⟨h1, h2⟩ := h hd hr
  refine Cnt.ite_cost_le (fun hi => ?_) fun hi => ?_
  · have := getKeyBC_le (hard := hard) hv key f _ (h2 hi f); exact Nat.le_trans this (by omega)
  · have := getKeyNC_le (hard := hard) hv key _ _ (h1 (Bool.eq_false_iff.2 hi)); exact Nat.le_trans this (by omega)

theorem Walks.contains {v : Bytes} (hv : v.length < 2 ^ 64) {f p : Nat} (h : Walks false v f 2 p) (hard : Bool) (key : Bytes) :
    (containsC hard f ⟨v, p⟩ key).cost ≤ 2 * (v.length + 1) := by
  unfold containsC
  simp only [Cnt.monadLift_eq]
  refine Cnt.lift_bind_le fun hd hr => Cnt.ite_cost_le (fun _ => ?_) fun _ => Nat.zero_le _
  obtain ⟨h1, h2⟩ := h hd hr
  refine Cnt.ite_cost_le (fun hi => ?_) fun hi => ?_
  · have := containsBC_le (hard := hard) hv key f _ (h2 hi f); exact Nat.le_trans this (by omega)
  · have := containsNC_le (hard := hard) hv key _ _ (h1 (Bool.eq_false_iff.2 hi)); exact Nat.le_trans this (by omega)

theorem Walk.to {raw : Bool} {v : Bytes} {f : Nat} : ∀ {n q Q r}, Walk raw v f n q Q → (itemsC (skipC raw v f) n q).res = .ok r →
    Walk raw v f n q fun s => s = r
  | 0, q, Q, r, _, hr => by injection hr
  | n + 1, q, Q, r, h, hr => by
    refine ⟨h.1, fun s hs => ?_⟩
    obtain ⟨s', hs', hr, _⟩ := Cnt.bind_ok hr
    rw [hs] at hs'; injection hs' with hs'; subst hs'
    exact Walk.to (h.2 s hs) hr

theorem Walks.mapKeys {v : Bytes} (hv : v.length < 2 ^ 64) {f p : Nat} (h : Walks true v f 2 p) (hard : Bool) :
    (mapKeysC hard f ⟨v, p⟩).cost ≤ 3 * (v.length + 1) := by
  unfold mapKeysC
  simp only [Cnt.monadLift_eq]
  refine Cnt.lift_bind_le fun _ _ => Cnt.lift_bind_le fun _ _ => Cnt.lift_bind_le fun hd hr => ?_
  obtain ⟨h1, h2⟩ := h hd hr
  have hr' : readHead true v p = .ok hd := hr
  have e : keysEndC f v p = if hd.indef then untilBreakC true v (skipC true v f) 2 f (p + hd.hlen)
      else itemsC (skipC true v f) (2 * hd.val) (p + hd.hlen) := by
    simp only [keysEndC, hr', Cnt.monadLift_eq, Cnt.lift_ok_bind]
  show (keysEndC f v p >>= fun stop => keysFromC hard f v hd.indef stop f (p + hd.hlen) (if hd.indef then 0 else hd.val)).cost ≤ _
  rw [e]
  cases hi : hd.indef with
  | true =>
    simp only [if_true]
    have c := (h2 hi f).until
    refine Cnt.bind_le_of (by have := c.1; omega) fun stop _ => ?_
    have := keysFromC_leB (hard := hard) (stop := stop) hv f _ 0 (h2 hi f)
    have := c.1
    omega
  | false =>
    simp only [Bool.false_eq_true, if_false]
    have c := (h1 hi).items.1
    refine Cnt.bind_le_of (by have := c.1; omega) fun stop hs => ?_
    have := keysFromC_leN (hard := hard) (stop := stop) hv f _ _ ((h1 hi).to hs)
    have := c.1
    omega

theorem Walks.arraySize {v : Bytes} {f p : Nat} (h : Walks false v f 1 p) : (arraySizeC f ⟨v, p⟩).cost ≤ v.length + 1 := by
  unfold arraySizeC
  simp only [Cnt.monadLift_eq]
  refine Cnt.lift_bind_le fun hd hr => Cnt.lift_bind_le fun _ _ => ?_
  refine Cnt.ite_cost_le (fun hi => ?_) fun _ => Nat.zero_le _
  have := countBC_le f _ ((h hd hr).2 hi f)
  exact Nat.le_trans this (by omega)

theorem Walks.getIdx {v : Bytes} {f p : Nat} (h : Walks false v f 1 p) (i : Nat) : (getIdxC f ⟨v, p⟩ i).cost ≤ v.length + 1 := by
  unfold getIdxC
  simp only [Cnt.monadLift_eq]
  refine Cnt.lift_bind_le fun hd hr => Cnt.lift_bind_le fun _ _ => ?_
  obtain ⟨h1, h2⟩ := h hd hr
  refine Cnt.ite_cost_le (fun hi => ?_) fun hi => ?_
  · have := getIdxBC_le (idx := i) f 0 _ (h2 hi f); exact Nat.le_trans this (by omega)
  · refine Cnt.lift_bind_le fun _ hlt => ?_
    rw [Res.require_eq_ok, decide_eq_true_iff] at hlt
    have hw := h1 (Bool.eq_false_iff.2 hi)
    rw [show 1 * hd.val = i + (hd.val - i) by omega] at hw
    have c := hw.split.items.1.1
    have c' : (itemsC (skipC false v f) i (p + hd.hlen)).cost ≤ v.length + 1 := by omega
    exact Cnt.bind_le_of c' fun _ _ => by rw [Cnt.pure_cost]; exact c'

/-! ## Where content is cheap to pass -/

theorem walk_all {raw : Bool} {v : Bytes} {f : Nat} (h : ∀ q, Cheap v q (skipC raw v f q)) {Q : Nat → Prop} (hQ : ∀ q, Q q) :
    ∀ n q, Walk raw v f n q Q
  | 0, q => hQ q
  | n + 1, q => ⟨h q, fun r _ => walk_all h hQ n r⟩

theorem walkB_all {raw : Bool} {v : Bytes} {f k : Nat} (h : ∀ q, Cheap v q (skipC raw v f q)) : ∀ g q, WalkB raw v f k g q
  | 0, _ => trivial
  | g + 1, q => .inr (walk_all h (walkB_all h g) k q)

theorem NoHugeAll.walks {v : Bytes} (hn : NoHugeAll v) (hv : v.length < 2 ^ 63) (raw : Bool) (f k p : Nat) : Walks raw v f k p :=
  fun _ _ => ⟨fun _ => walk_all (skipC_cheap hn hv f) (fun _ => trivial) _ _, fun _ g => walkB_all (skipC_cheap hn hv f) g _⟩

theorem getKey_buf {hard : Bool} {f : Nat} {v key : Bytes} {p : Nat} {c : View} (h : View.getKey hard f ⟨v, p⟩ key = .ok c) : c.buf = v := by
  have hN : ∀ n q, View.getKeyN hard f v key n q = .ok c → c.buf = v := by
    intro n
    induction n with
    | zero => intro q h; cases h
    | succ n ih =>
      intro q h
      obtain ⟨k, _, h⟩ := Res.bind_eq_ok.1 h
      obtain ⟨r, _, h⟩ := Res.bind_eq_ok.1 h
      split at h
      · injection h with h; subst h; rfl
      · obtain ⟨r, _, h⟩ := Res.bind_eq_ok.1 h
        exact ih _ h
  have hB : ∀ n q, View.getKeyB hard f v key n q = .ok c → c.buf = v := by
    intro n
    induction n with
    | zero => intro q h; cases h
    | succ n ih =>
      intro q h
      obtain ⟨_, _, h⟩ := Res.bind_eq_ok.1 h
      obtain ⟨_, _, h⟩ := Res.bind_eq_ok.1 h
      split at h
      · cases h
      obtain ⟨k, _, h⟩ := Res.bind_eq_ok.1 h
      obtain ⟨r, _, h⟩ := Res.bind_eq_ok.1 h
      split at h
      · injection h with h; subst h; rfl
      · obtain ⟨r, _, h⟩ := Res.bind_eq_ok.1 h
        exact ih _ h
  obtain ⟨hd, _, h⟩ := Res.bind_eq_ok.1 h
  obtain ⟨_, _, h⟩ := Res.bind_eq_ok.1 h
  dsimp only at h
  split at h
  · exact hB _ _ h
  · exact hN _ _ h

theorem getIdx_buf {f : Nat} {v : Bytes} {p i : Nat} {c : View} (h : View.getIdx f ⟨v, p⟩ i = .ok c) : c.buf = v := by
  have hB : ∀ n j q, View.getIdxB f v i n j q = .ok c → c.buf = v := by
    intro n
    induction n with
    | zero => intro j q h; cases h
    | succ n ih =>
      intro j q h
      obtain ⟨_, _, h⟩ := Res.bind_eq_ok.1 h
      obtain ⟨_, _, h⟩ := Res.bind_eq_ok.1 h
      split at h
      · cases h
      split at h
      · injection h with h; subst h; rfl
      · obtain ⟨r, _, h⟩ := Res.bind_eq_ok.1 h
        exact ih _ _ h
  obtain ⟨hd, _, h⟩ := Res.bind_eq_ok.1 h
  obtain ⟨_, _, h⟩ := Res.bind_eq_ok.1 h
  dsimp only at h
  split at h
  · exact hB _ _ _ h
  · obtain ⟨_, _, h⟩ := Res.bind_eq_ok.1 h
    obtain ⟨q, _, h⟩ := Res.bind_eq_ok.1 h
    injection h with h; subst h; rfl

/-- Any position in bytes without lengths that wrap. -/
theorem within_noHuge {v : Bytes} (hn : NoHugeAll v) (hv : v.length < 2 ^ 63) (hard : Bool) (f : Nat) :
    Costs.Within (reader hard f) (costs hard f) (fun r => r.buf = v) (2 * (v.length + 1)) where
  mapKeys := by
    rintro ⟨_, p⟩ rfl _ _
    exact Nat.le_trans ((hn.walks hv true f 2 p).mapKeys (by omega) hard) (by omega)
  getKey := by
    rintro ⟨_, p⟩ k rfl _ _
    refine ⟨(hn.walks hv false f 2 p).getKey (by omega) hard k, fun c hc => ?_⟩
    rw [(costs_of hard f).getKey] at hc
    exact getKey_buf hc
  arraySize := by
    rintro ⟨_, p⟩ rfl _ _
    exact Nat.le_trans (hn.walks hv false f 1 p).arraySize (by omega)
  getIdx := by
    rintro ⟨_, p⟩ i rfl _ _
    refine ⟨Nat.le_trans ((hn.walks hv false f 1 p).getIdx i) (by omega), fun c hc => ?_⟩
    rw [(costs_of hard f).getIdx] at hc
    exact getIdx_buf hc

end Zer.Cbor
