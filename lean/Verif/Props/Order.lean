import Verif.Props.Route

/-!
# Property C114: members come in the order in which they were written

`mapKeys()` of every reader goes through a map from its beginning to its end (zera.hpp:350-401, msgpack.hpp:372-436, cbor.hpp:361-458, json.hpp:24-78,
flex.hpp:250-277), and `write_value` (translate.hpp:51-58) writes the members of a map in this order. FlexBuffers keeps the keys of a map sorted
(`EndMap`, flex.hpp:88), so that the order is lost there, once and for all messages that are made of it.
-/

namespace Zer

/-- What becomes of the order of keys. -/
def Ordered (sorts : Bool) (now then_ : List Bytes) : Prop :=
  if sorts then now.Perm then_ ∧ now.Pairwise (· ≤ ·) else now = then_

/-- A stop of a route of which it is known what it does to the order of the keys of every map. -/
structure Halt where
  leg : Leg
  sorts : Bool
  order : ∀ {v : Val} {p : List Hop} {ms : List (Bytes × Val)}, leg.D v → v.at p = some (.map ms) →
    ∃ ns, (leg.s v).at p = some (.map ns) ∧ Ordered sorts (ns.map Prod.fst) (ms.map Prod.fst)

theorem Ordered.trans {s t : Bool} {a b c : List Bytes} (h : Ordered s a b) (h' : Ordered t b c) : Ordered (t || s) a c := by
  cases s <;> cases t <;> simp only [Ordered, Bool.or_false, Bool.or_true, if_true, if_false, Bool.false_eq_true] at h h' ⊢
  · exact h.trans h'
  · rw [h]; exact h'
  · rw [← h']; exact h
  · exact ⟨h.1.trans h'.1, h.2⟩

/-- A map that stands at the end of a path, after the stops. -/
theorem after_order {f : Nat} {p : List Hop} : ∀ (Ss : List Halt) {v : Val} {ms : List (Bytes × Val)}, Along f v (Ss.map Halt.leg) →
    v.at p = some (.map ms) →
    ∃ ns, (after v (Ss.map Halt.leg)).at p = some (.map ns) ∧ Ordered (Ss.any Halt.sorts) (ns.map Prod.fst) (ms.map Prod.fst)
  | [], v, ms, _, h => ⟨ms, h, rfl⟩
  | S :: Ss, v, ms, ⟨h1, _, _, h4⟩, h => by
    obtain ⟨ns, k1, k2⟩ := S.order h1 h
    have k3 := Val.at_firstWins p k1
    obtain ⟨ns', e, ek⟩ : ∃ ns', (Val.map ns).firstWins = .map ns' ∧ ns'.map Prod.fst = ns.map Prod.fst := by
      refine ⟨_, rfl, ?_⟩
      rw [List.map_map]
      exact Val.firstWinsEntries_keys ns
    rw [e] at k3
    obtain ⟨os, j1, j2⟩ := after_order Ss h4 k3
    rw [ek] at j2
    exact ⟨os, j1, j2.trans k2⟩

/-- **C114** On any route, of any number of stops, through any of the formats: at the end of a path to a map, the keys are listed in the order in which
they were written; if one of the stops is Flex, in the order of their bytes. All of them are listed, as often as they were written. -/
theorem c114_route {f : Nat} {Ss : List Halt} {S : Halt} {v : Val} {b : Bytes} (ha : Along f v ((S :: Ss).map Halt.leg))
    (hb : S.leg.P.serialize v = .ok b) {p : List Hop} {ms : List (Bytes × Val)} (hp : v.at p = some (.map ms)) :
    ∃ (c : Bytes) (r q : (((S :: Ss).map Halt.leg).getLast (by simp)).P.ρ) (ks : List Bytes),
      Proto.route f S.leg.P ((Ss.map Halt.leg).map Leg.P) b = .ok c ∧
      (((S :: Ss).map Halt.leg).getLast (by simp)).P.opn c = .ok r ∧
      (((S :: Ss).map Halt.leg).getLast (by simp)).P.reader.goto p r = .ok q ∧
      (((S :: Ss).map Halt.leg).getLast (by simp)).P.reader.mapKeys q = .ok ks ∧
      Ordered ((S :: Ss).any Halt.sorts) ks (ms.map Prod.fst) := by
  obtain ⟨c, r, h1, -, h3, h4⟩ := c100_route_any (Ss.map Halt.leg) S.leg ha hb
  have split : ∀ (Ts : List Leg) (T : Leg) {u : Val}, Along f u (Ts ++ [T]) → Along f u Ts ∧ T.D (after u Ts) := by
    intro Ts
    induction Ts with
    | nil => intro T u h; exact ⟨trivial, h.1⟩
    | cons A Ts ih =>
      intro T u ⟨k1, k2, k3, k4⟩
      obtain ⟨j1, j2⟩ := ih T k4
      exact ⟨⟨k1, k2, k3, j1⟩, j2⟩
  obtain ⟨T, hT⟩ : ∃ T, T = (S :: Ss).getLast (by simp) := ⟨_, rfl⟩
  obtain ⟨Ts, hTs⟩ : ∃ Ts, Ts = (S :: Ss).dropLast := ⟨_, rfl⟩
  have e : S :: Ss = Ts ++ [T] := by rw [hT, hTs]; exact (List.dropLast_concat_getLast (by simp)).symm
  have eL : ((S :: Ss).map Halt.leg).getLast (by simp) = T.leg := by rw [List.getLast_map (by simp), hT]
  have eD : ((S :: Ss).map Halt.leg).dropLast = Ts.map Halt.leg := by rw [hTs, List.map_dropLast]
  rw [e, List.map_append] at ha
  obtain ⟨s1, s2⟩ := split (Ts.map Halt.leg) T.leg ha
  obtain ⟨ns, k1, k2⟩ := after_order Ts s1 hp
  obtain ⟨os, j1, j2⟩ := T.order s2 k1
  have h4' := h4
  rw [show (S.leg :: Ss.map Halt.leg).dropLast = Ts.map Halt.leg from eD] at h4'
  have j1' : ((S.leg :: Ss.map Halt.leg).getLast (by simp)).s (after v (Ts.map Halt.leg)) = T.leg.s (after v (Ts.map Halt.leg)) := by
    rw [show (S.leg :: Ss.map Halt.leg).getLast (by simp) = T.leg from eL]
  rw [← j1'] at j1
  obtain ⟨q, q1, q2⟩ := Reader.AgreesW.at p h4' j1
  rw [Reader.goto_settled] at q1
  refine ⟨c, r, q, os.map Prod.fst, h1, h3, q1, ?_, ?_⟩
  · cases q2 with
    | map _ _ h _ _ _ _ => exact h
  · rw [e, List.any_append, List.any_cons, List.any_nil, Bool.or_false]
    exact j2.trans k2

/-- What a stop does to the order is all that can be said of it: two lists of keys in the relation to the same list are the same. -/
theorem Ordered.unique {s : Bool} {a b c : List Bytes} (h : Ordered s a c) (h' : Ordered s b c) : a = b := by
  cases s <;> simp only [Ordered, if_true, if_false, Bool.false_eq_true] at h h'
  · exact h.trans h'.symm
  · exact List.Perm.eq_of_pairwise (le := (· ≤ ·)) (fun a b _ _ h1 h2 => List.le_antisymm h1 h2) h.2 h'.2 (h.1.trans h'.1.symm)

/-- C114, with Flex on the route: the order is kept exactly if the keys were written in the order of their bytes. -/
theorem c114_flex_exact {ks ws : List Bytes} (h : Ordered true ks ws) : ks = ws ↔ ws.Pairwise (· ≤ ·) := by
  simp only [Ordered, if_true] at h
  exact ⟨fun e => e ▸ h.2, fun hw => List.Perm.eq_of_pairwise (le := (· ≤ ·)) (fun a b _ _ h1 h2 => List.le_antisymm h1 h2) h.2 hw h.1⟩

/-! ## The formats -/

theorem order_signs {g : Int → Bool} {v : Val} {p : List Hop} {ms : List (Bytes × Val)} (h : v.at p = some (.map ms)) :
    ∃ ns, (v.signs g).at p = some (.map ns) ∧ Ordered false (ns.map Prod.fst) (ms.map Prod.fst) := by
  have k := Val.at_signs g p h
  have e : ∀ ms : List (Bytes × Val), (Val.signs.signsEntries g ms).map Prod.fst = ms.map Prod.fst := by
    intro ms
    induction ms with
    | nil => rfl
    | cons m ms ih => cases m; simp [Val.signs.signsEntries, ih]
  exact ⟨_, k, e ms⟩

/-- ZERA keeps the order. -/
def Zera.stop : Halt := ⟨Zera.leg, false, fun _ h => ⟨_, h, rfl⟩⟩

/-- MessagePack keeps the order. -/
def MsgPack.stop : Halt := ⟨MsgPack.leg, false, fun _ h => order_signs h⟩

/-- CBOR keeps the order. -/
def Cbor.stop (utf8 : Bytes → Bool) (maxDepth fuel : Nat) : Halt := ⟨Cbor.leg utf8 maxDepth fuel, false, fun _ h => order_signs h⟩

/-- JSON keeps the order. -/
def Json.stop {T : Json.Text} (L : T.Law) (dbg : Bool) : Halt := ⟨Json.leg L dbg, false, fun _ h => order_signs h⟩

/-- Flex sorts. -/
def Flex.stop {L : Flex.Lib} (H : L.Law) (dbg : Bool) : Halt where
  leg := Flex.leg H dbg
  sorts := true
  order := fun {v p ms} hd h => by
    refine ⟨_, Val.at_sortKeys p hd.1 h, ?_⟩
    simp only [Ordered, if_true]
    constructor
    · have := (List.mergeSort_perm (Val.sortKeysEntries ms) keyLe).map Prod.fst
      rwa [Val.sortKeysEntries_keys] at this
    · exact List.pairwise_map.2 (keyLe_sorted _)

/-- C114, one message, no Flex: the keys of every map come in the order in which they were written, repeated keys as often as they were written. -/
theorem c114_written {S : Halt} (hs : S.sorts = false) {v : Val} {b : Bytes} (hd : S.leg.D v) (hb : S.leg.P.serialize v = .ok b) {p : List Hop}
    {ms : List (Bytes × Val)} (hp : v.at p = some (.map ms)) :
    ∃ r q, S.leg.P.opn b = .ok r ∧ S.leg.P.reader.goto p r = .ok q ∧ S.leg.P.reader.mapKeys q = .ok (ms.map Prod.fst) := by
  obtain ⟨c, r, q, ks, h1, h2, h3, h4, h5⟩ := c114_route (f := (S.leg.s v).depth) (Ss := []) (S := S) ⟨hd, ⟨b, hb⟩, Nat.le_refl _, trivial⟩ hb hp
  cases h1
  simp only [List.any_cons, List.any_nil, Bool.or_false, hs, Ordered, Bool.false_eq_true, if_false] at h5
  exact ⟨r, q, h2, h3, h5 ▸ h4⟩

/-- C114 is false with Flex on the route: `{"b": 200, "a": 5}` comes out of Flex, MessagePack and ZERA as a map that lists "a" before "b". -/
theorem c114_flex_refuted : ∃ b c r, (Flex.proto Flex.std false).serialize routeVal = .ok b ∧
    Proto.route 2 (Flex.proto Flex.std false) [MsgPack.proto, Zera.proto] b = .ok c ∧ Zera.proto.opn c = .ok r ∧
    Zera.proto.reader.mapKeys r = .ok [[97], [98]] := by
  obtain ⟨ha, -⟩ := c100_route_example
  obtain ⟨b, hb⟩ := ha.2.1
  obtain ⟨c, r, q, ks, h1, h2, h3, h4, h5⟩ := c114_route (f := 2) (S := Flex.stop Flex.std_law false) (Ss := [MsgPack.stop, Zera.stop]) ha hb
    (p := []) (ms := [([98], .int 200), ([97], .uint 5)]) rfl
  cases h3
  have e : ks = [[97], [98]] := Ordered.unique (s := true) h5 (by
    simp only [Ordered, if_true]
    exact ⟨List.Perm.swap _ _ _, by decide⟩)
  exact ⟨b, c, r, hb, h1, h2, e ▸ h4⟩

/-- A map inside a map, with a key written twice. -/
def orderVal : Val := .map [([98], .null), ([97], .map [([100], .null), ([99], .bool true), ([100], .int 1)])]

/-- The hypotheses of `c114_written` can be met: `orderVal` in MessagePack. -/
example : ∃ b, MsgPack.stop.leg.P.serialize orderVal = .ok b ∧ MsgPack.stop.leg.D orderVal ∧
    orderVal.at [.key [97]] = some (.map [([100], .null), ([99], .bool true), ([100], .int 1)]) := by
  refine ⟨_, MsgPack.serialize_eq orderVal, ⟨?_, ?_⟩, ?_⟩
  · simp [orderVal, Val.Sized, Val.sizedEntries]
  · simp [orderVal, Val.Below, Val.Below.belowEntries]
  · simp [orderVal, Val.at, firstVal]

end Zer
