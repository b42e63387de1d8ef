import Verif.Prefix.MsgPack
import Verif.Prefix.Cbor
import Verif.Prefix.Zera

/-!
# Bytes after a message

`Extends R E`: whatever the reader answers at a position it also answers at any `E`-related one.
Then related positions present the same values.  For each format, the position in `b` and the
position in `b ++ x` are related.
-/

namespace Zer

structure Reader.Extends {ρ : Type} (R : Reader ρ) (E : ρ → ρ → Prop) : Prop where
  isNull : ∀ {r s}, E r s → (R.isNull r).Le (R.isNull s)
  isBool : ∀ {r s}, E r s → (R.isBool r).Le (R.isBool s)
  isInt : ∀ {r s}, E r s → (R.isInt r).Le (R.isInt s)
  isUInt : ∀ {r s}, E r s → (R.isUInt r).Le (R.isUInt s)
  isFloat : ∀ {r s}, E r s → (R.isFloat r).Le (R.isFloat s)
  isString : ∀ {r s}, E r s → (R.isString r).Le (R.isString s)
  isBlob : ∀ {r s}, E r s → (R.isBlob r).Le (R.isBlob s)
  isMap : ∀ {r s}, E r s → (R.isMap r).Le (R.isMap s)
  isArray : ∀ {r s}, E r s → (R.isArray r).Le (R.isArray s)
  asBool : ∀ {r s}, E r s → (R.asBool r).Le (R.asBool s)
  asInt64 : ∀ {r s}, E r s → (R.asInt64 r).Le (R.asInt64 s)
  asUInt64 : ∀ {r s}, E r s → (R.asUInt64 r).Le (R.asUInt64 s)
  asDouble : ∀ {r s}, E r s → (R.asDouble r).Le (R.asDouble s)
  asString : ∀ {r s}, E r s → (R.asString r).Le (R.asString s)
  asStringView : ∀ {r s}, E r s → (R.asStringView r).Le (R.asStringView s)
  asBlob : ∀ {r s}, E r s → (R.asBlob r).Le (R.asBlob s)
  mapKeys : ∀ {r s}, E r s → (R.mapKeys r).Le (R.mapKeys s)
  contains : ∀ {r s}, E r s → ∀ k, (R.contains r k).Le (R.contains s k)
  arraySize : ∀ {r s}, E r s → (R.arraySize r).Le (R.arraySize s)
  getKey : ∀ {r s}, E r s → ∀ k c, R.getKey r k = .ok c → ∃ d, R.getKey s k = .ok d ∧ E c d
  getIdx : ∀ {r s}, E r s → ∀ i c, R.getIdx r i = .ok c → ∃ d, R.getIdx s i = .ok d ∧ E c d
  noKey : ∀ {s}, R.isMap s = .ok true → ∀ k, R.contains s k = .ok false → R.getKey s k = .err .deser
  noIdx : ∀ {s n i}, R.arraySize s = .ok n → n ≤ i → R.getIdx s i = .err .deser

namespace Reader.Extends
variable {ρ : Type} {R : Reader ρ} {E : ρ → ρ → Prop}

theorem shows (X : R.Extends E) {r s : ρ} (e : E r s) {a b c d f g h i : Bool} (hs : R.Shows r a b c d f g h i) :
    R.Shows s a b c d f g h i := by
  obtain ⟨h0, h1, ⟨x, y, h2, h3, h4⟩, h5, h6, h7, h8, h9⟩ := hs
  exact ⟨X.isNull e _ h0, X.isBool e _ h1, ⟨x, y, X.isInt e _ h2, X.isUInt e _ h3, h4⟩, X.isFloat e _ h5, X.isString e _ h6,
    X.isBlob e _ h7, X.isMap e _ h8, X.isArray e _ h9⟩

theorem showsInt (X : R.Extends E) {r s : ρ} (e : E r s) {z : Int} (hs : R.ShowsInt r z) : R.ShowsInt s z := by
  obtain ⟨h0, h1, h2⟩ := hs
  have h0' := X.shows e h0
  obtain ⟨_, _, ⟨x, y, g1, g2, _⟩, _⟩ := h0
  refine ⟨h0', fun h => ?_, fun h => ?_⟩
  · rw [X.isInt e _ g1] at h
    obtain ⟨u, hu, hz⟩ := h1 (by rw [g1, h])
    exact ⟨u, X.asInt64 e _ hu, hz⟩
  · rw [X.isUInt e _ g2] at h
    obtain ⟨u, hu, hz⟩ := h2 (by rw [g2, h])
    exact ⟨u, X.asUInt64 e _ hu, hz⟩

theorem agrees (X : R.Extends E) {p : Prop} {r : ρ} {v : Val} (h : R.AgreesW p r v) : ∀ {s}, E r s → R.AgreesW p s v := by
  classical
  induction h with
  | null h => intro s e; exact .null (X.shows e h)
  | bool h h' => intro s e; exact .bool (X.shows e h) (X.asBool e _ h')
  | int h h' => intro s e; exact .int (X.showsInt e h) (fun hp => ⟨X.isInt e _ (h' hp).1, X.isUInt e _ (h' hp).2⟩)
  | uint h h' => intro s e; exact .uint (X.showsInt e h) (fun hp => ⟨X.isInt e _ (h' hp).1, X.isUInt e _ (h' hp).2⟩)
  | dbl h h' => intro s e; exact .dbl (X.shows e h) (X.asDouble e _ h')
  | str h h' h'' => intro s e; exact .str (X.shows e h) (X.asString e _ h') (X.asStringView e _ h'')
  | blob h h' h'' => intro s e; exact .blob (X.shows e h) (X.asBlob e _ h') h''
  | @arr r xs child h h1 h2 h3 _ ih =>
    intro s e
    have h1' := X.arraySize e _ h1
    have key : ∀ i, ∃ d, i < xs.length → R.getIdx s i = .ok d ∧ E (child i) d := by
      intro i
      by_cases hi : i < xs.length
      · obtain ⟨d, hd⟩ := X.getIdx e i _ (h2 i hi)
        exact ⟨d, fun _ => hd⟩
      · exact ⟨r, fun h => absurd h hi⟩
    have key' := fun i => Classical.choose_spec (key i)
    refine .arr (fun i => Classical.choose (key i)) (X.shows e h) h1' (fun i hi => (key' i hi).1) ?_ ?_
    · intro i hi; exact X.noIdx h1' hi
    · intro i hi; exact ih i hi (key' i hi).2
  | @map r ms child h h1 h2 h3 h4 _ ih =>
    intro s e
    have hs := X.shows e h
    have key : ∀ k, ∃ d, k ∈ ms.map Prod.fst → R.getKey s k = .ok d ∧ E (child k) d := by
      intro k
      by_cases hk : k ∈ ms.map Prod.fst
      · obtain ⟨d, hd⟩ := X.getKey e k _ (h3 k hk)
        exact ⟨d, fun _ => hd⟩
      · exact ⟨r, fun h => absurd h hk⟩
    have key' := fun k => Classical.choose_spec (key k)
    have hc : ∀ k, R.contains s k = .ok (decide (k ∈ ms.map Prod.fst)) := fun k => X.contains e k _ (h2 k)
    refine .map (fun k => Classical.choose (key k)) hs (X.mapKeys e _ h1) hc (fun k hk => (key' k hk).1) ?_ ?_
    · intro k hk
      exact X.noKey hs.2.2.2.2.2.2.1 k (by rw [hc, decide_eq_false hk])
    · intro k v hv
      exact ih k v hv (key' k (firstVal_isSome.2 ⟨v, hv⟩)).2

end Reader.Extends

/-! ## MessagePack -/

namespace MsgPack

open Zer Res

/-- The same bytes, or a non-empty buffer followed by others. -/
def More (r s : Bytes) : Prop := s = r ∨ ∃ m w x, r = m :: w ∧ s = r ++ x

theorem le_first (v t : Bytes) (n : Nat) : (first v n).Le (first (v ++ t) n) := by
  intro a h
  unfold first at h ⊢
  split at h
  · rw [if_pos (by simp; omega), ← h, List.take_append_of_le_length (by omega)]
  · cases h

theorem le_be64 (v t : Bytes) (p : Nat) : (readBe64 v p).Le (readBe64 (v ++ t) p) :=
  .bind (.byteAt _ _ _) fun _ => .bind (.byteAt _ _ _) fun _ => .bind (.byteAt _ _ _) fun _ => .bind (.byteAt _ _ _) fun _ =>
    .bind (.byteAt _ _ _) fun _ => .bind (.byteAt _ _ _) fun _ => .bind (.byteAt _ _ _) fun _ => .bind (.byteAt _ _ _) fun _ => .refl _

theorem onMarker_more (m : UInt8) (w x : Bytes) (t : Nat → Bool) : onMarker ((m :: w) ++ x) t = onMarker (m :: w) t := rfl

theorem le_onMarker {r s : Bytes} (e : More r s) (t : Nat → Bool) :
    (Res.ok (onMarker r t)).Le (Res.ok (onMarker s t)) := by
  rcases e with rfl | ⟨m, w, x, rfl, rfl⟩
  · exact .refl _
  · rw [onMarker_more]; exact .refl _

theorem isMap_more {r s : Bytes} (e : More r s) : isMap s = isMap r := by
  rcases e with rfl | ⟨m, w, x, rfl, rfl⟩ <;> rfl

theorem le_need (v t : Bytes) (n : Nat) :
    (Res.require (decide (n ≤ v.length)) .deser).Le (Res.require (decide (n ≤ (v ++ t).length)) .deser) :=
  .require fun h => by simp at h ⊢; omega

theorem le_nonempty (v t : Bytes) :
    (Res.require (decide (v.length ≠ 0)) .deser).Le (Res.require (decide ((v ++ t).length ≠ 0)) .deser) :=
  .require fun h => by simp at h ⊢; exact .inl h

theorem le_asInt64 (v t : Bytes) : (asInt64 v).Le (asInt64 (v ++ t)) := by
  unfold asInt64
  refine .bind (le_nonempty _ _) fun _ => .bind (.byteAt _ _ _) fun m => ?_
  repeat' refine .ite ?_ ?_
  all_goals first
    | exact .refl _
    | exact .bind (le_need _ _ _) fun _ => .bind (.byteAt _ _ _) fun _ => .refl _
    | exact .bind (le_need _ _ _) fun _ => .bind (le_be16 _ _ _) fun _ => .refl _
    | exact .bind (le_need _ _ _) fun _ => .bind (le_be32 _ _ _) fun _ => .refl _
    | exact .bind (le_need _ _ _) fun _ => .bind (le_be64 _ _ _) fun _ => .refl _

theorem le_asUInt64 (v t : Bytes) : (asUInt64 v).Le (asUInt64 (v ++ t)) := by
  unfold asUInt64
  refine .bind (le_nonempty _ _) fun _ => .bind (.byteAt _ _ _) fun m => ?_
  repeat' refine .ite ?_ ?_
  all_goals first
    | exact .refl _
    | exact .bind (le_need _ _ _) fun _ => .bind (.byteAt _ _ _) fun _ => .refl _
    | exact .bind (le_need _ _ _) fun _ => .bind (le_be16 _ _ _) fun _ => .refl _
    | exact .bind (le_need _ _ _) fun _ => .bind (le_be32 _ _ _) fun _ => .refl _
    | exact .bind (le_need _ _ _) fun _ => .bind (le_be64 _ _ _) fun _ => .refl _
    | exact .bind (le_asInt64 _ _) fun _ => .refl _

/-- A test on the first byte that lets nothing pass when there is none. -/
theorem le_test (v t : Bytes) (f : Nat → Bool) : (Res.require (onMarker v f) .deser).Le (Res.require (onMarker (v ++ t) f) .deser) := by
  cases v with
  | nil => exact .err
  | cons m w => exact .refl _

theorem le_asDouble (v t : Bytes) : (asDouble v).Le (asDouble (v ++ t)) := by
  unfold asDouble
  refine .bind (le_test _ _ _) fun _ => .bind (.byteAt _ _ _) fun m => ?_
  repeat' refine .ite ?_ ?_
  all_goals first
    | exact .refl _
    | exact .bind (le_need _ _ _) fun _ => .bind (le_be32 _ _ _) fun _ => .refl _
    | exact .bind (le_need _ _ _) fun _ => .bind (le_be64 _ _ _) fun _ => .refl _

theorem le_asBool (v t : Bytes) : (asBool v).Le (asBool (v ++ t)) :=
  .bind (le_test _ _ _) fun _ => .bind (.byteAt _ _ _) fun _ => .refl _

theorem le_containsFrom (v t key : Bytes) : ∀ n off, (containsFrom v key n off).Le (containsFrom (v ++ t) key n off) := by
  intro n
  induction n with
  | zero => intro off; exact .refl _
  | succ n ih =>
    intro off a h
    unfold containsFrom at h ⊢
    obtain ⟨ks, h1, h⟩ := Res.bind_eq_ok.1 h
    obtain ⟨ksz, h2, h⟩ := Res.bind_eq_ok.1 h
    obtain ⟨kd, h3, h⟩ := Res.bind_eq_ok.1 h
    obtain ⟨vs, h4, h⟩ := Res.bind_eq_ok.1 h
    obtain ⟨vsz, h5, h⟩ := Res.bind_eq_ok.1 h
    obtain ⟨hit, h6, h⟩ := Res.bind_eq_ok.1 h
    simp only [subspan_more h1, subspan_more h4, le_skip _ _ _ h2, le_first _ _ _ _ h3, le_skip _ _ _ h5, h6, Res.ok_bind]
    exact Res.Le.ite (.refl _) (ih _) a h

theorem le_getKeyFrom (v t key : Bytes) : ∀ n off, (getKeyFrom v key n off).Le (getKeyFrom (v ++ t) key n off) := by
  intro n
  induction n with
  | zero => intro off; exact .refl _
  | succ n ih =>
    intro off a h
    unfold getKeyFrom at h ⊢
    obtain ⟨ks, h1, h⟩ := Res.bind_eq_ok.1 h
    obtain ⟨ksz, h2, h⟩ := Res.bind_eq_ok.1 h
    obtain ⟨kd, h3, h⟩ := Res.bind_eq_ok.1 h
    obtain ⟨vs, h4, h⟩ := Res.bind_eq_ok.1 h
    obtain ⟨vsz, h5, h⟩ := Res.bind_eq_ok.1 h
    obtain ⟨hit, h6, h⟩ := Res.bind_eq_ok.1 h
    simp only [subspan_more h1, subspan_more h4, le_skip _ _ _ h2, le_first _ _ _ _ h3, le_skip _ _ _ h5, h6, Res.ok_bind]
    exact Res.Le.ite (le_first _ _ _) (ih _) a h

theorem le_getKey (v t key : Bytes) : (getKey v key).Le (getKey (v ++ t) key) :=
  .bind (le_test _ _ _) fun _ => .bind (le_mapInfo _ _) fun _ => le_getKeyFrom _ _ _ _ _

theorem le_getIdx (v t : Bytes) (i : Nat) : (getIdx v i).Le (getIdx (v ++ t) i) := by
  unfold getIdx
  refine .bind (le_arrInfo _ _) fun p => ?_
  obtain ⟨n, off⟩ := p
  refine .bind (.refl _) fun _ => .bind (le_skipLoop (fun w => le_skip _ _) _ _) fun o => ?_
  intro a h
  obtain ⟨w, h1, h⟩ := Res.bind_eq_ok.1 h
  obtain ⟨sz, h2, h⟩ := Res.bind_eq_ok.1 h
  simp only [subspan_more h1, le_skip _ _ _ h2, Res.ok_bind]
  exact le_first _ _ _ _ h

theorem More.le {α : Type} {f : Bytes → Res α} (hf : ∀ v t, (f v).Le (f (v ++ t))) {r s : Bytes} (e : More r s) : (f r).Le (f s) := by
  rcases e with rfl | ⟨m, w, x, rfl, rfl⟩
  · exact .refl _
  · exact hf _ _

/-- The answers of the MessagePack reader do not depend on what follows the bytes of the value. -/
theorem reader_extends : reader.Extends More where
  isNull e := le_onMarker e _
  isBool e := le_onMarker e _
  isInt e := le_onMarker e _
  isUInt e := le_onMarker e _
  isFloat e := le_onMarker e _
  isString e := le_onMarker e _
  isBlob e := le_onMarker e _
  isMap e := le_onMarker e _
  isArray e := le_onMarker e _
  asBool e := e.le le_asBool
  asInt64 e := e.le le_asInt64
  asUInt64 e := e.le le_asUInt64
  asDouble e := e.le le_asDouble
  asString e := e.le le_asStringView
  asStringView e := e.le le_asStringView
  asBlob e := e.le le_asBlob
  mapKeys e := e.le le_mapKeys
  contains {r s} e k := by
    have h := isMap_more e
    show (contains r k).Le (contains s k)
    unfold contains
    rw [h]
    refine .ite ?_ (.refl _)
    exact e.le (f := fun v => mapInfo v >>= fun p => containsFrom v k p.1 p.2)
      fun v t => .bind (le_mapInfo _ _) fun _ => le_containsFrom _ _ _ _ _
  arraySize e := e.le fun _ _ => .bind (le_arrInfo _ _) fun _ => .refl _
  getKey e k c h := ⟨c, e.le (fun v t => le_getKey v t k) _ h, .inl rfl⟩
  getIdx e i c h := ⟨c, e.le (fun v t => le_getIdx v t i) _ h, .inl rfl⟩
  noKey {s} hm k h := by
    have key : ∀ n off, containsFrom s k n off = .ok false → getKeyFrom s k n off = .err .deser := by
      intro n
      induction n with
      | zero => intro off _; rfl
      | succ n ih =>
        intro off h
        unfold containsFrom at h
        unfold getKeyFrom
        obtain ⟨ks, h1, h⟩ := Res.bind_eq_ok.1 h
        obtain ⟨ksz, h2, h⟩ := Res.bind_eq_ok.1 h
        obtain ⟨kd, h3, h⟩ := Res.bind_eq_ok.1 h
        obtain ⟨vs, h4, h⟩ := Res.bind_eq_ok.1 h
        obtain ⟨vsz, h5, h⟩ := Res.bind_eq_ok.1 h
        obtain ⟨hit, h6, h⟩ := Res.bind_eq_ok.1 h
        simp only [h1, h2, h3, h4, h5, h6, Res.ok_bind]
        split at h
        · cases h
        · rename_i hh; rw [if_neg hh]; exact ih _ h
    have hm' : isMap s = true := by injection hm
    have h' : contains s k = .ok false := h
    show getKey s k = _
    unfold contains at h'
    unfold getKey
    rw [if_pos hm'] at h'
    obtain ⟨p, h1, h'⟩ := Res.bind_eq_ok.1 h'
    rw [hm', h1]
    exact key _ _ h'
  noIdx {s n i} h hi := by
    have h' : arraySize s = .ok n := h
    show getIdx s i = _
    unfold arraySize at h'
    unfold getIdx
    obtain ⟨p, h1, h'⟩ := Res.bind_eq_ok.1 h'
    obtain ⟨m, off⟩ := p
    injection h' with h'
    subst h'
    rw [h1, Res.ok_bind]
    simp only [decide_eq_false (show ¬ i < m by omega)]
    rfl

end MsgPack

/-! ## CBOR -/

namespace Cbor

open Zer Res

/-- The same position in a longer buffer. -/
def More (r s : View) : Prop := ∃ x, s = ⟨r.buf ++ x, r.pos⟩

theorem le_test (v x : Bytes) (p : Nat) (t : Head → Bool) :
    (readHead false v p >>= fun h => Res.ok (t h)).Le (readHead false (v ++ x) p >>= fun h => Res.ok (t h)) :=
  .bind (le_readHead _ _ _ _) fun _ => .refl _

theorem le_keyAt (hard : Bool) (f : Nat) (v t : Bytes) (q : Nat) : (View.keyAt hard f v q).Le (View.keyAt hard f (v ++ t) q) :=
  .bind (le_readHead _ _ _ _) fun _ => .ite (le_range _ _ _ _ _) (le_asString _ _ _ _ _)

theorem le_containsN (hard : Bool) (f : Nat) (v t key : Bytes) :
    ∀ n q, (View.containsN hard f v key n q).Le (View.containsN hard f (v ++ t) key n q)
  | 0, _ => .refl _
  | n + 1, q => .bind (le_keyAt _ _ _ _ _) fun _ => .ite (.refl _) (.bind (le_skip _ _ _ _ _) fun _ => .bind (le_skip _ _ _ _ _) fun _ =>
      le_containsN hard f v t key n _)

theorem le_containsB (hard : Bool) (f : Nat) (v t key : Bytes) :
    ∀ g q, (View.containsB hard f v key g q).Le (View.containsB hard f (v ++ t) key g q)
  | 0, _ => .diverge
  | g + 1, q => .bind le_inside fun _ => .bind (.byteAt _ _ _) fun _ => .ite (.refl _) (.bind (le_asString _ _ _ _ _) fun _ =>
      .bind (le_skip _ _ _ _ _) fun _ => .ite (.refl _) (.bind (le_skip _ _ _ _ _) fun _ => le_containsB hard f v t key g _))

theorem le_countB (f : Nat) (v t : Bytes) : ∀ g q, (View.countB f v g q).Le (View.countB f (v ++ t) g q)
  | 0, _ => .diverge
  | g + 1, q => .bind le_inside fun _ => .bind (.byteAt _ _ _) fun _ => .ite (.refl _) (.bind (le_skip _ _ _ _ _) fun _ =>
      .bind (le_countB f v t g _) fun _ => .refl _)

theorem le_asDouble (v t : Bytes) (p : Nat) : (View.asDouble ⟨v, p⟩).Le (View.asDouble ⟨v ++ t, p⟩) :=
  .bind (le_readHead _ _ _ _) fun _ => .bind (le_test _ _ _ _) fun _ => .bind (.refl _) fun _ =>
    .ite (.bind (.byteAt _ _ _) fun _ => .bind (.byteAt _ _ _) fun _ => .refl _)
      (.ite (.bind (le_getBe _ _ _ _ _) fun _ => .refl _) (.bind (le_getBe _ _ _ _ _) fun _ => .refl _))

theorem getKeyN_more {hard : Bool} {f : Nat} {v key : Bytes} (t : Bytes) :
    ∀ {n q c}, View.getKeyN hard f v key n q = .ok c → ∃ d, View.getKeyN hard f (v ++ t) key n q = .ok d ∧ More c d
  | 0, _, _, h => by cases h
  | n + 1, q, c, h => by
    simp only [View.getKeyN] at h ⊢
    obtain ⟨k, h1, h⟩ := Res.bind_eq_ok.1 h
    obtain ⟨q1, h2, h⟩ := Res.bind_eq_ok.1 h
    simp only [le_asString _ _ _ t _ _ h1, le_skip _ _ t _ _ _ h2, Res.ok_bind]
    by_cases hk : k = key
    · rw [if_pos hk] at h ⊢
      injection h with h
      exact ⟨_, rfl, t, by rw [← h]⟩
    · rw [if_neg hk] at h ⊢
      obtain ⟨q2, h3, h⟩ := Res.bind_eq_ok.1 h
      simp only [le_skip _ _ t _ _ _ h3, Res.ok_bind]
      exact getKeyN_more t h

theorem getKeyB_more {hard : Bool} {f : Nat} {v key : Bytes} (t : Bytes) :
    ∀ {n q c}, View.getKeyB hard f v key n q = .ok c → ∃ d, View.getKeyB hard f (v ++ t) key n q = .ok d ∧ More c d
  | 0, _, _, h => by cases h
  | n + 1, q, c, h => by
    simp only [View.getKeyB] at h ⊢
    obtain ⟨_, h0, h⟩ := Res.bind_eq_ok.1 h
    obtain ⟨b, h0', h⟩ := Res.bind_eq_ok.1 h
    simp only [le_inside (t := t) _ h0, Res.Le.byteAt _ t _ _ h0', Res.ok_bind]
    by_cases hb : b = 0xff
    · rw [if_pos hb] at h; cases h
    rw [if_neg hb] at h ⊢
    obtain ⟨k, h1, h⟩ := Res.bind_eq_ok.1 h
    obtain ⟨q1, h2, h⟩ := Res.bind_eq_ok.1 h
    simp only [le_asString _ _ _ t _ _ h1, le_skip _ _ t _ _ _ h2, Res.ok_bind]
    by_cases hk : k = key
    · rw [if_pos hk] at h ⊢
      injection h with h
      exact ⟨_, rfl, t, by rw [← h]⟩
    · rw [if_neg hk] at h ⊢
      obtain ⟨q2, h3, h⟩ := Res.bind_eq_ok.1 h
      simp only [le_skip _ _ t _ _ _ h3, Res.ok_bind]
      exact getKeyB_more t h

theorem getIdxB_more {f : Nat} {v : Bytes} {idx : Nat} (t : Bytes) :
    ∀ {g i q c}, View.getIdxB f v idx g i q = .ok c → ∃ d, View.getIdxB f (v ++ t) idx g i q = .ok d ∧ More c d
  | 0, _, _, _, h => by cases h
  | g + 1, i, q, c, h => by
    simp only [View.getIdxB] at h ⊢
    obtain ⟨_, h0, h⟩ := Res.bind_eq_ok.1 h
    obtain ⟨b, h0', h⟩ := Res.bind_eq_ok.1 h
    simp only [le_inside (t := t) _ h0, Res.Le.byteAt _ t _ _ h0', Res.ok_bind]
    by_cases hb : b = 0xff
    · rw [if_pos hb] at h; cases h
    rw [if_neg hb] at h ⊢
    by_cases hk : i = idx
    · rw [if_pos hk] at h ⊢
      injection h with h
      exact ⟨_, rfl, t, by rw [← h]⟩
    · rw [if_neg hk] at h ⊢
      obtain ⟨q2, h3, h⟩ := Res.bind_eq_ok.1 h
      simp only [le_skip _ _ t _ _ _ h3, Res.ok_bind]
      exact getIdxB_more t h

/-- What `contains` takes for the key, `operator[]` takes for the key. -/
theorem asString_of_keyAt {hard : Bool} {f : Nat} {v : Bytes} {q : Nat} {k : Bytes} (h : View.keyAt hard f v q = .ok k) :
    View.asString hard f ⟨v, q⟩ = .ok k := by
  unfold View.keyAt at h
  obtain ⟨hd, h1, h⟩ := Res.bind_eq_ok.1 h
  split at h
  · rename_i hc
    unfold View.asString View.head
    have hb := range_bound h
    have hu : u64 (q + hd.hlen + hd.val) ≤ v.length := Nat.le_trans (Nat.mod_le _ _) hb
    simp only [h1, Res.ok_bind, decide_eq_true hc.1, hc.2, Res.require, View.definite, decide_eq_true hu]
    exact h
  · exact h

theorem noKeyN {hard : Bool} {f : Nat} {v key : Bytes} :
    ∀ {n q}, View.containsN hard f v key n q = .ok false → View.getKeyN hard f v key n q = .err .deser
  | 0, _, _ => rfl
  | n + 1, q, h => by
    simp only [View.containsN] at h
    simp only [View.getKeyN]
    obtain ⟨k, h1, h⟩ := Res.bind_eq_ok.1 h
    by_cases hk : k = key
    · rw [if_pos hk] at h; cases h
    rw [if_neg hk] at h
    obtain ⟨q1, h2, h⟩ := Res.bind_eq_ok.1 h
    obtain ⟨q2, h3, h⟩ := Res.bind_eq_ok.1 h
    simp only [asString_of_keyAt h1, h2, h3, Res.ok_bind, if_neg hk]
    exact noKeyN h

theorem noKeyB {hard : Bool} {f : Nat} {v key : Bytes} :
    ∀ {g q}, View.containsB hard f v key g q = .ok false → View.getKeyB hard f v key g q = .err .deser
  | 0, _, h => by cases h
  | n + 1, q, h => by
    simp only [View.containsB] at h
    simp only [View.getKeyB]
    obtain ⟨_, h0, h⟩ := Res.bind_eq_ok.1 h
    obtain ⟨b, h0', h⟩ := Res.bind_eq_ok.1 h
    simp only [h0, h0', Res.ok_bind]
    by_cases hb : b = 0xff
    · rw [if_pos hb]
    rw [if_neg hb] at h ⊢
    obtain ⟨k, h1, h⟩ := Res.bind_eq_ok.1 h
    obtain ⟨q1, h2, h⟩ := Res.bind_eq_ok.1 h
    by_cases hk : k = key
    · rw [if_pos hk] at h; cases h
    rw [if_neg hk] at h
    obtain ⟨q2, h3, h⟩ := Res.bind_eq_ok.1 h
    simp only [h1, h2, h3, Res.ok_bind, if_neg hk]
    exact noKeyB h

theorem noIdxB {f : Nat} {v : Bytes} {idx : Nat} :
    ∀ {g i q n}, View.countB f v g q = .ok n → n + i ≤ idx → View.getIdxB f v idx g i q = .err .deser
  | 0, _, _, _, h, _ => by cases h
  | g + 1, i, q, n, h, hn => by
    simp only [View.countB] at h
    simp only [View.getIdxB]
    obtain ⟨_, h0, h⟩ := Res.bind_eq_ok.1 h
    obtain ⟨b, h0', h⟩ := Res.bind_eq_ok.1 h
    simp only [h0, h0', Res.ok_bind]
    by_cases hb : b = 0xff
    · rw [if_pos hb]
    rw [if_neg hb] at h ⊢
    obtain ⟨q1, h2, h⟩ := Res.bind_eq_ok.1 h
    obtain ⟨c, h3, h⟩ := Res.bind_eq_ok.1 h
    injection h with h
    rw [if_neg (by omega), h2, Res.ok_bind]
    exact noIdxB h3 (by omega)

/-- The answers of the CBOR reader do not depend on what follows. -/
theorem reader_extends (hard : Bool) (f : Nat) : (reader hard f).Extends More where
  isNull := by rintro ⟨v, p⟩ _ ⟨x, rfl⟩; exact le_test _ _ _ _
  isBool := by rintro ⟨v, p⟩ _ ⟨x, rfl⟩; exact le_test _ _ _ _
  isInt := by rintro ⟨v, p⟩ _ ⟨x, rfl⟩; exact le_test _ _ _ _
  isUInt := by rintro ⟨v, p⟩ _ ⟨x, rfl⟩; exact le_test _ _ _ _
  isFloat := by rintro ⟨v, p⟩ _ ⟨x, rfl⟩; exact le_test _ _ _ _
  isString := by rintro ⟨v, p⟩ _ ⟨x, rfl⟩; exact le_test _ _ _ _
  isBlob := by rintro ⟨v, p⟩ _ ⟨x, rfl⟩; exact le_test _ _ _ _
  isMap := by rintro ⟨v, p⟩ _ ⟨x, rfl⟩; exact le_test _ _ _ _
  isArray := by rintro ⟨v, p⟩ _ ⟨x, rfl⟩; exact le_test _ _ _ _
  asBool := by rintro ⟨v, p⟩ _ ⟨x, rfl⟩; exact .bind (le_readHead _ _ _ _) fun _ => .refl _
  asInt64 := by rintro ⟨v, p⟩ _ ⟨x, rfl⟩; exact .bind (le_readHead _ _ _ _) fun _ => .refl _
  asUInt64 := by rintro ⟨v, p⟩ _ ⟨x, rfl⟩; exact .bind (le_readHead _ _ _ _) fun _ => .refl _
  asDouble := by rintro ⟨v, p⟩ _ ⟨x, rfl⟩; exact le_asDouble _ _ _
  asString := by rintro ⟨v, p⟩ _ ⟨x, rfl⟩; exact le_asString _ _ _ _ _
  asStringView := by
    rintro ⟨v, p⟩ _ ⟨x, rfl⟩
    exact .bind (le_readHead _ _ _ _) fun _ => .bind (.refl _) fun _ => .bind (.refl _) fun _ => le_definite _ _ _ _ _
  asBlob := by
    rintro ⟨v, p⟩ _ ⟨x, rfl⟩
    exact .bind (le_readHead _ _ _ _) fun _ => .bind (.refl _) fun _ => .bind (.refl _) fun _ => le_definite _ _ _ _ _
  mapKeys := by rintro ⟨v, p⟩ _ ⟨x, rfl⟩; exact le_mapKeys _ _ _ _ _
  contains := by
    rintro ⟨v, p⟩ _ ⟨x, rfl⟩ k
    exact .bind (le_readHead _ _ _ _) fun _ => .ite (.ite (le_containsB _ _ _ _ _ _ _) (le_containsN _ _ _ _ _ _ _)) (.refl _)
  arraySize := by
    rintro ⟨v, p⟩ _ ⟨x, rfl⟩
    exact .bind (le_readHead _ _ _ _) fun _ => .bind (.refl _) fun _ => .ite (le_countB _ _ _ _ _) (.refl _)
  getKey := by
    rintro ⟨v, p⟩ _ ⟨x, rfl⟩ k c h
    have h : View.getKey hard f ⟨v, p⟩ k = .ok c := h
    show ∃ d, View.getKey hard f ⟨v ++ x, p⟩ k = .ok d ∧ _
    simp only [View.getKey, View.head] at h ⊢
    obtain ⟨hd, h1, h⟩ := Res.bind_eq_ok.1 h
    obtain ⟨_, h2, h⟩ := Res.bind_eq_ok.1 h
    simp only [le_readHead _ _ x _ _ h1, h2, Res.ok_bind]
    split at h
    · rename_i hi; rw [if_pos hi]; exact getKeyB_more x h
    · rename_i hi; rw [if_neg hi]; exact getKeyN_more x h
  getIdx := by
    rintro ⟨v, p⟩ _ ⟨x, rfl⟩ i c h
    have h : View.getIdx f ⟨v, p⟩ i = .ok c := h
    show ∃ d, View.getIdx f ⟨v ++ x, p⟩ i = .ok d ∧ _
    simp only [View.getIdx, View.head] at h ⊢
    obtain ⟨hd, h1, h⟩ := Res.bind_eq_ok.1 h
    obtain ⟨_, h2, h⟩ := Res.bind_eq_ok.1 h
    simp only [le_readHead _ _ x _ _ h1, h2, Res.ok_bind]
    split at h
    · rename_i hi; rw [if_pos hi]; exact getIdxB_more x h
    · rename_i hi
      rw [if_neg hi]
      obtain ⟨_, h3, h⟩ := Res.bind_eq_ok.1 h
      obtain ⟨q, h4, h⟩ := Res.bind_eq_ok.1 h
      injection h with h
      simp only [h3, le_items (le_skip _ _ x _) _ _ _ h4, Res.ok_bind]
      exact ⟨_, rfl, x, by rw [← h]⟩
  noKey := by
    rintro ⟨v, p⟩ hm k h
    have hm : View.isMap ⟨v, p⟩ = .ok true := hm
    have h : View.contains hard f ⟨v, p⟩ k = .ok false := h
    show View.getKey hard f ⟨v, p⟩ k = _
    simp only [View.contains, View.getKey, View.isMap, View.head] at hm h ⊢
    obtain ⟨hd, h1, h⟩ := Res.bind_eq_ok.1 h
    simp only [h1, Res.ok_bind, Res.pure_eq, Res.ok.injEq, decide_eq_true_eq] at hm
    rw [if_pos hm] at h
    simp only [h1, Res.ok_bind, decide_eq_true hm, Res.require]
    split at h
    · rename_i hi; simp only [hi, if_true]; exact noKeyB h
    · rename_i hi; simp only [hi]; exact noKeyN h
  noIdx := by
    rintro ⟨v, p⟩ n i h hi
    have h : View.arraySize f ⟨v, p⟩ = .ok n := h
    show View.getIdx f ⟨v, p⟩ i = _
    simp only [View.arraySize, View.getIdx, View.head] at h ⊢
    obtain ⟨hd, h1, h⟩ := Res.bind_eq_ok.1 h
    obtain ⟨_, h2, h⟩ := Res.bind_eq_ok.1 h
    simp only [h1, h2, Res.ok_bind]
    split at h
    · rename_i hi'; rw [if_pos hi']; exact noIdxB h (by omega)
    · rename_i hi'
      injection h with h
      rw [if_neg hi', decide_eq_false (by omega)]
      rfl

end Cbor

/-! ## ZERA -/

namespace Zera

open Zer Res

/-- The same position in a longer buffer. -/
def More (r s : View) : Prop := ∃ x, s = { r with buf := r.buf ++ x }

/-- The reader at the same place of a longer buffer. -/
abbrev View.more (r : View) (x : Bytes) : View := { r with buf := r.buf ++ x }

theorem le_readU64 (v t : Bytes) (p : Nat) : (readU64 v p).Le (readU64 (v ++ t) p) :=
  .bind (le_readU32 _ _ _) fun _ => .bind (le_readU32 _ _ _) fun _ => .refl _

namespace View

variable (r : View) (x : Bytes)

theorem le_tag : r.tag.Le (r.more x).tag := .bind (.refl _) fun _ => .byteAt _ _ _
theorem le_flags : r.flags.Le (r.more x).flags := .bind (.refl _) fun _ => .byteAt _ _ _
theorem le_aux : r.aux.Le (r.more x).aux := .bind (.refl _) fun _ => le_readU16 _ _ _
theorem le_a : r.a.Le (r.more x).a := .bind (.refl _) fun _ => le_readU32 _ _ _
theorem le_b : r.b.Le (r.more x).b := .bind (.refl _) fun _ => le_readU32 _ _ _
theorem le_c : r.c.Le (r.more x).c := .bind (.refl _) fun _ => le_readU32 _ _ _

theorem le_arenaBytes (o n : Nat) : (r.arenaBytes o n).Le ((r.more x).arenaBytes o n) := by
  have h : r.arenaLen ≤ (r.more x).arenaLen := by simp [arenaLen]; omega
  exact .bind (.require fun h' => by simp at h' ⊢; omega) fun _ => .bind (.require fun h' => by simp at h' ⊢; omega) fun _ =>
    .bind (.require fun h' => by simp at h' ⊢; omega) fun _ => .refl _

theorem le_requireFlagsOk : r.requireFlagsOk.Le (r.more x).requireFlagsOk :=
  .bind (le_tag r x) fun _ => .bind (le_flags r x) fun _ => .refl _

theorem le_test (f : Nat → Bool) : (r.tag >>= fun t => Res.ok (f t)).Le ((r.more x).tag >>= fun t => Res.ok (f t)) :=
  .bind (le_tag r x) fun _ => .refl _

theorem le_isBlob : r.isBlob.Le (r.more x).isBlob :=
  .bind (le_tag r x) fun _ => .ite (.bind (le_aux r x) fun _ => .refl _) (.refl _)

theorem le_bits : r.bits.Le (r.more x).bits := .bind (le_a r x) fun _ => .bind (le_b r x) fun _ => .refl _

theorem le_asBool : r.asBool.Le (r.more x).asBool :=
  .bind (le_tag r x) fun _ => .bind (.refl _) fun _ => .bind (le_requireFlagsOk r x) fun _ => .bind (le_aux r x) fun _ => .refl _

theorem le_asInt64 : r.asInt64.Le (r.more x).asInt64 :=
  .bind (le_tag r x) fun _ => .bind (.refl _) fun _ => .bind (le_requireFlagsOk r x) fun _ => .bind (le_bits r x) fun _ =>
    .bind (le_tag r x) fun _ => .refl _

theorem le_asUInt64 : r.asUInt64.Le (r.more x).asUInt64 :=
  .bind (le_tag r x) fun _ => .bind (.refl _) fun _ => .bind (le_requireFlagsOk r x) fun _ => .bind (le_bits r x) fun _ =>
    .bind (le_tag r x) fun _ => .refl _

theorem le_asDouble : r.asDouble.Le (r.more x).asDouble :=
  .bind (le_tag r x) fun _ => .bind (.refl _) fun _ => .bind (le_requireFlagsOk r x) fun _ => .bind (le_bits r x) fun _ => .refl _

theorem le_stringRange : r.stringRange.Le (r.more x).stringRange :=
  .bind (le_tag r x) fun _ => .bind (.refl _) fun _ => .bind (le_requireFlagsOk r x) fun _ => .bind (le_flags r x) fun _ =>
    .ite (.bind (le_aux r x) fun _ => .refl _) (.bind (le_a r x) fun _ => .bind (le_b r x) fun _ => le_arenaBytes r x _ _)

theorem le_asStringView : r.asStringView.Le (r.more x).asStringView := .bind (le_stringRange r x) fun _ => .sliceAt _ _ _ _

theorem le_blobRange : r.blobRange.Le (r.more x).blobRange :=
  .bind (le_isBlob r x) fun _ => .bind (.refl _) fun _ => .bind (le_requireFlagsOk r x) fun _ => .bind (le_c r x) fun _ =>
    .bind (.refl _) fun _ => .bind (le_readU32 _ _ _) fun _ => .bind (.refl _) fun _ => .bind (.refl _) fun _ =>
    .bind (.refl _) fun _ => .bind (le_readU64 _ _ _) fun _ => .bind (le_b r x) fun _ => .bind (.refl _) fun _ =>
    .bind (le_a r x) fun _ => le_arenaBytes r x _ _

theorem le_asBlob : r.asBlob.Le (r.more x).asBlob := .bind (le_blobRange r x) fun _ => .sliceAt _ _ _ _

theorem le_arraySize : r.arraySize.Le (r.more x).arraySize :=
  .bind (le_tag r x) fun _ => .bind (.refl _) fun _ => .bind (le_requireFlagsOk r x) fun _ => .bind (le_a r x) fun _ =>
    .bind (.refl _) fun _ => .bind (le_readU32 _ _ _) fun _ => .refl _

theorem le_keysFrom : ∀ n cur, (r.keysFrom n cur).Le ((r.more x).keysFrom n cur)
  | 0, _ => .refl _
  | n + 1, cur => .bind (.bind (le_readU16 _ _ _) fun _ => .bind (.refl _) fun _ => .sliceAt _ _ _ _) fun _ =>
      .bind (.bind (le_readU16 _ _ _) fun _ => .refl _) fun _ => .bind (le_keysFrom n _) fun _ => .refl _

theorem le_mapKeys : r.mapKeys.Le (r.more x).mapKeys :=
  .bind (le_tag r x) fun _ => .bind (.refl _) fun _ => .bind (le_requireFlagsOk r x) fun _ => .bind (le_a r x) fun _ =>
    .bind (.refl _) fun _ => .bind (le_readU32 _ _ _) fun _ => .bind (.refl _) fun _ => le_keysFrom r x _ _

theorem le_keyHit (k : Bytes) (p n : Nat) : (r.keyHit k p n).Le ((r.more x).keyHit k p n) :=
  .ite (.bind (.sliceAt _ _ _ _) fun _ => .refl _) (.refl _)

theorem le_containsFrom (k : Bytes) : ∀ n ofs, (r.containsFrom k n ofs).Le ((r.more x).containsFrom k n ofs)
  | 0, _ => .refl _
  | n + 1, ofs => .bind (.refl _) fun _ => .bind (le_readU16 _ _ _) fun _ => .bind (le_readU16 _ _ _) fun _ => .bind (.refl _) fun _ =>
      .bind (le_keyHit r x k _ _) fun _ => .ite (.refl _) (.bind (.refl _) fun _ => le_containsFrom k n _)

theorem le_contains (k : Bytes) : (r.contains k).Le ((r.more x).contains k) :=
  .bind (le_test r x _) fun _ => .ite (.refl _) (.bind (le_requireFlagsOk r x) fun _ => .bind (le_a r x) fun _ =>
    .bind (.refl _) fun _ => .bind (le_readU32 _ _ _) fun _ => le_containsFrom r x k _ _)

end View

theorem getKeyFrom_more {r : View} {k : Bytes} (x : Bytes) :
    ∀ {n ofs c}, r.getKeyFrom k n ofs = .ok c → (r.more x).getKeyFrom k n ofs = .ok (c.more x)
  | 0, _, _, h => by cases h
  | n + 1, ofs, c, h => by
    simp only [View.getKeyFrom] at h ⊢
    obtain ⟨e, h1, h⟩ := Res.bind_eq_ok.1 h
    obtain ⟨len, h2, h⟩ := Res.bind_eq_ok.1 h
    obtain ⟨_, h3, h⟩ := Res.bind_eq_ok.1 h
    obtain ⟨kp, h4, h⟩ := Res.bind_eq_ok.1 h
    obtain ⟨vp, h5, h⟩ := Res.bind_eq_ok.1 h
    obtain ⟨hit, h6, h⟩ := Res.bind_eq_ok.1 h
    have g1 : (r.more x).envPtrAt (u32 ofs) 4 = .ok e := h1
    have g4 : (r.more x).envPtrAt (u32 (ofs + 4)) len = .ok kp := h4
    have g5 : (r.more x).envPtrAt (u32 (ofs + 4 + len)) 16 = .ok vp := h5
    simp only [g1, g4, g5, le_readU16 _ x _ _ h2, le_readU16 _ x _ _ h3, View.le_keyHit r x _ _ _ _ h6, Res.ok_bind]
    cases hit with
    | true =>
      simp only [if_true] at h ⊢
      injection h with h
      rw [← h]
      rfl
    | false =>
      simp only [Bool.false_eq_true, if_false] at h ⊢
      obtain ⟨y, h7, h⟩ := Res.bind_eq_ok.1 h
      have g7 : (r.more x).envPtrAt (u32 (ofs + (4 + len + 16))) 0 = .ok y := h7
      rw [g7, Res.ok_bind]
      exact getKeyFrom_more x h

theorem envPtrAt_raises (r : View) (o n : Nat) : (∃ p, r.envPtrAt o n = .ok p) ∨ r.envPtrAt o n = .err .deser := by
  unfold View.envPtrAt Res.require
  repeat' split
  all_goals first
    | exact .inl ⟨_, rfl⟩
    | exact .inr rfl

theorem noKeyFrom {r : View} {k : Bytes} :
    ∀ {n ofs}, r.containsFrom k n ofs = .ok false → r.getKeyFrom k n ofs = .err .deser
  | 0, _, _ => rfl
  | n + 1, ofs, h => by
    simp only [View.containsFrom] at h
    simp only [View.getKeyFrom]
    obtain ⟨e, h1, h⟩ := Res.bind_eq_ok.1 h
    obtain ⟨len, h2, h⟩ := Res.bind_eq_ok.1 h
    obtain ⟨_, h3, h⟩ := Res.bind_eq_ok.1 h
    obtain ⟨kp, h4, h⟩ := Res.bind_eq_ok.1 h
    obtain ⟨hit, h6, h⟩ := Res.bind_eq_ok.1 h
    simp only [h1, h2, h3, h4, h6, Res.ok_bind]
    rcases envPtrAt_raises r (u32 (ofs + 4 + len)) 16 with ⟨vp, h5⟩ | h5
    · rw [h5, Res.ok_bind]
      cases hit with
      | true => cases h
      | false =>
        simp only [Bool.false_eq_true, if_false] at h ⊢
        obtain ⟨y, h7, h⟩ := Res.bind_eq_ok.1 h
        rw [h7, Res.ok_bind]
        exact noKeyFrom h
    · rw [h5]; rfl

/-- The answers of the ZERA reader do not depend on what follows the arena. -/
theorem reader_extends : reader.Extends More where
  isNull := by rintro r _ ⟨x, rfl⟩; exact View.le_test r x _
  isBool := by rintro r _ ⟨x, rfl⟩; exact View.le_test r x _
  isInt := by rintro r _ ⟨x, rfl⟩; exact View.le_test r x _
  isUInt := by rintro r _ ⟨x, rfl⟩; exact View.le_test r x _
  isFloat := by rintro r _ ⟨x, rfl⟩; exact View.le_test r x _
  isString := by rintro r _ ⟨x, rfl⟩; exact View.le_test r x _
  isBlob := by rintro r _ ⟨x, rfl⟩; exact View.le_isBlob r x
  isMap := by rintro r _ ⟨x, rfl⟩; exact View.le_test r x _
  isArray := by rintro r _ ⟨x, rfl⟩; exact View.le_test r x _
  asBool := by rintro r _ ⟨x, rfl⟩; exact View.le_asBool r x
  asInt64 := by rintro r _ ⟨x, rfl⟩; exact View.le_asInt64 r x
  asUInt64 := by rintro r _ ⟨x, rfl⟩; exact View.le_asUInt64 r x
  asDouble := by rintro r _ ⟨x, rfl⟩; exact View.le_asDouble r x
  asString := by rintro r _ ⟨x, rfl⟩; exact View.le_asStringView r x
  asStringView := by rintro r _ ⟨x, rfl⟩; exact View.le_asStringView r x
  asBlob := by rintro r _ ⟨x, rfl⟩; exact View.le_asBlob r x
  mapKeys := by rintro r _ ⟨x, rfl⟩; exact View.le_mapKeys r x
  contains := by rintro r _ ⟨x, rfl⟩ k; exact View.le_contains r x k
  arraySize := by rintro r _ ⟨x, rfl⟩; exact View.le_arraySize r x
  getKey := by
    rintro r _ ⟨x, rfl⟩ k c h
    have h : r.getKey k = .ok c := h
    refine ⟨c.more x, ?_, x, rfl⟩
    show (r.more x).getKey k = _
    simp only [View.getKey] at h ⊢
    obtain ⟨t, h1, h⟩ := Res.bind_eq_ok.1 h
    obtain ⟨_, h2, h⟩ := Res.bind_eq_ok.1 h
    obtain ⟨_, h3, h⟩ := Res.bind_eq_ok.1 h
    obtain ⟨o, h4, h⟩ := Res.bind_eq_ok.1 h
    obtain ⟨p, h5, h⟩ := Res.bind_eq_ok.1 h
    obtain ⟨n, h6, h⟩ := Res.bind_eq_ok.1 h
    have g5 : (r.more x).envPtrAt o 4 = .ok p := h5
    simp only [View.le_tag r x _ h1, h2, View.le_requireFlagsOk r x _ h3, View.le_a r x _ h4, g5, le_readU32 _ x _ _ h6, Res.ok_bind]
    exact getKeyFrom_more x h
  getIdx := by
    rintro r _ ⟨x, rfl⟩ i c h
    have h : r.getIdx i = .ok c := h
    refine ⟨c.more x, ?_, x, rfl⟩
    show (r.more x).getIdx i = _
    simp only [View.getIdx] at h ⊢
    obtain ⟨t, h1, h⟩ := Res.bind_eq_ok.1 h
    obtain ⟨_, h2, h⟩ := Res.bind_eq_ok.1 h
    obtain ⟨_, h3, h⟩ := Res.bind_eq_ok.1 h
    obtain ⟨o, h4, h⟩ := Res.bind_eq_ok.1 h
    obtain ⟨p, h5, h⟩ := Res.bind_eq_ok.1 h
    obtain ⟨n, h6, h⟩ := Res.bind_eq_ok.1 h
    obtain ⟨_, h7, h⟩ := Res.bind_eq_ok.1 h
    obtain ⟨vp, h8, h⟩ := Res.bind_eq_ok.1 h
    injection h with h
    have g5 : (r.more x).envPtrAt o 4 = .ok p := h5
    have g8 : (r.more x).envPtrAt (u32 (o + 4 + 16 * i)) 16 = .ok vp := h8
    simp only [View.le_tag r x _ h1, h2, View.le_requireFlagsOk r x _ h3, View.le_a r x _ h4, g5, le_readU32 _ x _ _ h6, h7, g8, Res.ok_bind]
    rw [← h]
    rfl
  noKey := by
    intro r hm k h
    have hm : r.isMap = .ok true := hm
    have h : r.contains k = .ok false := h
    show r.getKey k = _
    simp only [View.contains, hm, Res.ok_bind, Bool.not_true, Bool.false_eq_true, if_false] at h
    simp only [View.isMap] at hm
    obtain ⟨t, h1, hm⟩ := Res.bind_eq_ok.1 hm
    injection hm with hm
    simp only [View.getKey]
    obtain ⟨_, h3, h⟩ := Res.bind_eq_ok.1 h
    obtain ⟨o, h4, h⟩ := Res.bind_eq_ok.1 h
    obtain ⟨p, h5, h⟩ := Res.bind_eq_ok.1 h
    obtain ⟨n, h6, h⟩ := Res.bind_eq_ok.1 h
    simp only [h1, hm, h3, h4, h5, h6, Res.require, if_true, Res.ok_bind]
    exact noKeyFrom h
  noIdx := by
    intro r n i h hi
    have h : r.arraySize = .ok n := h
    show r.getIdx i = _
    simp only [View.arraySize] at h
    simp only [View.getIdx]
    obtain ⟨t, h1, h⟩ := Res.bind_eq_ok.1 h
    obtain ⟨_, h2, h⟩ := Res.bind_eq_ok.1 h
    obtain ⟨_, h3, h⟩ := Res.bind_eq_ok.1 h
    obtain ⟨o, h4, h⟩ := Res.bind_eq_ok.1 h
    obtain ⟨p, h5, h⟩ := Res.bind_eq_ok.1 h
    obtain ⟨m, h6, h⟩ := Res.bind_eq_ok.1 h
    obtain ⟨_, h7, h⟩ := Res.bind_eq_ok.1 h
    injection h with h
    subst h
    simp only [h1, h2, h3, h4, h5, h6, Res.ok_bind, decide_eq_false (Nat.not_lt.2 hi)]
    rfl

/-- Opening a longer buffer. -/
theorem initFrom_more {b : Bytes} {r : View} (h : initFrom b = .ok r) (x : Bytes) : initFrom (b ++ x) = .ok (r.more x) := by
  simp only [initFrom] at h ⊢
  obtain ⟨hd, h1, h⟩ := Res.bind_eq_ok.1 h
  obtain ⟨_, h2, h⟩ := Res.bind_eq_ok.1 h
  obtain ⟨_, h3, h⟩ := Res.bind_eq_ok.1 h
  obtain ⟨_, h4, h⟩ := Res.bind_eq_ok.1 h
  obtain ⟨_, h5, h⟩ := Res.bind_eq_ok.1 h
  obtain ⟨_, h6, h⟩ := Res.bind_eq_ok.1 h
  obtain ⟨_, h7, h⟩ := Res.bind_eq_ok.1 h
  obtain ⟨_, h8, h⟩ := Res.bind_eq_ok.1 h
  obtain ⟨_, h9, h⟩ := Res.bind_eq_ok.1 h
  obtain ⟨_, h10, h⟩ := Res.bind_eq_ok.1 h
  obtain ⟨_, h11, h⟩ := Res.bind_eq_ok.1 h
  injection h with h
  have g5 : Res.require (decide (hd.envSize ≤ (b ++ x).length)) .deser = .ok () := by
    rw [Res.require_eq_ok] at h5 ⊢; simp at h5 ⊢; omega
  have g7 : Res.require (decide (hd.arenaOfs ≤ (b ++ x).length)) .deser = .ok () := by
    rw [Res.require_eq_ok] at h7 ⊢; simp at h7 ⊢; omega
  simp only [le_parseHeader _ x _ h1, h2, h3, h4, g5, h6, g7, h8, h9, h10, h11, Res.ok_bind]
  rw [← h]
  rfl

end Zera

end Zer
