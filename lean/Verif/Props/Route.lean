import Verif.Props.Settle

/-!
# Property C100, routes with stops that change the order of keys

`c100_route` asks of Flex that the keys of the value are in order. Here every stop of a route has the value it makes of what arrives.
-/

namespace Zer

open Proto

theorem Val.at_firstWins : ∀ (p : List Hop) {v w : Val}, v.at p = some w → v.firstWins.at p = some w.firstWins := by
  intro p
  induction p with
  | nil => intro v w h; cases h; rfl
  | cons s p ih =>
    intro v w h
    cases s with
    | idx i =>
      cases v <;> simp only [Val.at] at h <;> try (cases h; done)
      rename_i xs
      by_cases hi : i < xs.length
      · rw [dif_pos hi] at h
        rw [Val.firstWins_arr]
        simp only [Val.at]
        rw [dif_pos (by simpa using hi), List.getElem_map]
        exact ih h
      · rw [dif_neg hi] at h; cases h
    | key k =>
      cases v <;> simp only [Val.at] at h <;> try (cases h; done)
      rename_i ms
      cases hf : firstVal ms k with
      | none => rw [hf] at h; cases h
      | some x =>
        rw [hf] at h
        rw [Val.firstWins_map]
        simp only [Val.at, firstVal_mapKeys (firstVal_isSome.2 ⟨x, hf⟩), hf, Option.getD_some]
        exact ih h

theorem firstVal_sortKeys {ms : List (Bytes × Val)} (hd : (ms.map Prod.fst).Nodup) (k : Bytes) :
    firstVal ((Val.sortKeysEntries ms).mergeSort keyLe) k = (firstVal ms k).map Val.sortKeys := by
  have hp := List.mergeSort_perm (Val.sortKeysEntries ms) keyLe
  cases h : firstVal ms k with
  | none =>
    refine firstVal_none fun hk => ?_
    rw [(hp.map Prod.fst).mem_iff, Val.sortKeysEntries_keys] at hk
    obtain ⟨w, hw⟩ := firstVal_isSome.1 hk
    rw [h] at hw; cases hw
  | some x =>
    refine firstVal_of_nodup ?_ ?_
    · rw [(hp.map Prod.fst).nodup_iff, Val.sortKeysEntries_keys]; exact hd
    · rw [hp.mem_iff, Val.sortKeysEntries_eq, List.mem_map]
      exact ⟨(k, x), firstVal_mem h, rfl⟩

theorem Val.at_sortKeys : ∀ (p : List Hop) {v w : Val}, v.Distinct → v.at p = some w → v.sortKeys.at p = some w.sortKeys := by
  intro p
  induction p with
  | nil => intro v w _ h; cases h; rfl
  | cons s p ih =>
    intro v w hd h
    cases s with
    | idx i =>
      cases v <;> simp only [Val.at] at h <;> try (cases h; done)
      rename_i xs
      simp only [Val.Distinct, Val.distinctList_iff] at hd
      by_cases hi : i < xs.length
      · rw [dif_pos hi] at h
        simp only [Val.sortKeys, Val.sortKeysList_eq, Val.at]
        rw [dif_pos (by simpa using hi), List.getElem_map]
        exact ih (hd _ (List.getElem_mem hi)) h
      · rw [dif_neg hi] at h; cases h
    | key k =>
      cases v <;> simp only [Val.at] at h <;> try (cases h; done)
      rename_i ms
      simp only [Val.Distinct, Val.distinctEntries_iff] at hd
      cases hf : firstVal ms k with
      | none => rw [hf] at h; cases h
      | some x =>
        rw [hf] at h
        simp only [Val.sortKeys, Val.at, firstVal_sortKeys hd.1, hf, Option.map_some]
        exact ih (hd.2 _ (firstVal_mem hf)) h

/-- A stop of a route: a format, what it makes of the values of a domain, and its rule for the signs. -/
structure Leg where
  P : Proto
  s : Val → Val
  D : Val → Prop
  g : Signs
  settles : P.Settles s D
  keeps : ∀ {v : Val} {p : List Hop} {w : Val}, D v → v.at p = some w → w.kind = 2 → (s v).at p = some (w.signed g) ∧ (w.signed g).Same w

/-- The value that leaves a stop: the first value under every key of what it presents. -/
def Leg.out (S : Leg) (v : Val) : Val := (S.s v).firstWins

/-- The value passes along the stops: at each it is in the domain, is written and is not nested deeper than `f`. -/
def Along (f : Nat) : Val → List Leg → Prop
  | _, [] => True
  | v, S :: Ss => S.D v ∧ (∃ b, S.P.serialize v = .ok b) ∧ (S.s v).depth ≤ f ∧ Along f (S.out v) Ss

/-- The value after the stops. -/
def after : Val → List Leg → Val
  | v, [] => v
  | v, S :: Ss => after (S.out v) Ss

/-- The rule of the last stop that has one. -/
def ruleOf : List Leg → Signs → Signs
  | [], a => a
  | S :: Ss, a => ruleOf Ss (S.g <|> a)

/-- C100, any route, keys in any order: the message at the end is the one that the last format writes for the value that the stops
before it make, and it presents this value. -/
theorem c100_route_any {f : Nat} : ∀ (Ss : List Leg) (S : Leg) {v : Val} {b : Bytes}, Along f v (S :: Ss) → S.P.serialize v = .ok b →
    ∃ (c : Bytes) (r : ((S :: Ss).getLast (by simp)).P.ρ),
      route f S.P (Ss.map Leg.P) b = .ok c ∧
      ((S :: Ss).getLast (by simp)).P.serialize (after v (S :: Ss).dropLast) = .ok c ∧
      ((S :: Ss).getLast (by simp)).P.opn c = .ok r ∧
      ((S :: Ss).getLast (by simp)).P.reader.settled.AgreesStrictly r (((S :: Ss).getLast (by simp)).s (after v (S :: Ss).dropLast))
  | [], S, v, b, ha, hb => by
    obtain ⟨r, h1, h2⟩ := S.settles v b ha.1 hb
    exact ⟨b, r, rfl, hb, h1, h2⟩
  | T :: Ss, S, v, b, ⟨h1, h2, h3, h4⟩, hb => by
    have e : S.P.recode T.P f b = T.P.serialize (S.out v) := c100_recode S.settles h1 hb T.P h3
    obtain ⟨c, hc⟩ := h4.2.1
    obtain ⟨d, r, e1, e2, e3, e4⟩ := c100_route_any Ss T h4 hc
    refine ⟨d, r, ?_, e2, e3, e4⟩
    simp only [List.map_cons, route, e, hc, Res.ok_bind, e1]

/-- The number at the end of a path, after the stops. -/
theorem after_at {f : Nat} {p : List Hop} {w : Val} (hn : w.kind = 2) : ∀ (Ss : List Leg) {v : Val} {a : Signs}, Along f v Ss →
    v.at p = some (w.signed a) → (w.signed a).Same w →
    (after v Ss).at p = some (w.signed (ruleOf Ss a)) ∧ (w.signed (ruleOf Ss a)).Same w
  | [], _, _, _, hw, hs => ⟨hw, hs⟩
  | S :: Ss, v, a, ⟨h1, _, _, h4⟩, hw, hs => by
    have hk : ∀ x : Signs, (w.signed x).kind = 2 ∧ (w.signed x).firstWins = w.signed x := by
      intro x
      cases w <;> simp [Val.kind] at hn <;> cases x <;> simp only [Val.signed, Val.signs] <;>
        first | exact ⟨rfl, rfl⟩ | (split <;> exact ⟨rfl, rfl⟩)
    obtain ⟨k1, k2⟩ := S.keeps h1 hw (hk a).1
    rw [Val.signed_signed hs] at k1 k2
    have k3 := Val.at_firstWins p k1
    rw [(hk _).2] at k3
    exact after_at hn Ss h4 k3 (Eq.trans k2 hs)

/-- C100, what is seen at the end of any route: at the end of a path to a number, `isInt` answers by the last rule on the route, and if
the answer is no, `isUInt` answers yes. -/
theorem c100_route_sign {f : Nat} {Ss : List Leg} {S : Leg} {v : Val} {b : Bytes} (ha : Along f v (S :: Ss))
    (hb : S.P.serialize v = .ok b) {p : List Hop} {w : Val} (hw : v.at p = some w) (hn : w.kind = 2) :
    ∃ (c : Bytes) (r q : ((S :: Ss).getLast (by simp)).P.ρ),
      route f S.P (Ss.map Leg.P) b = .ok c ∧
      ((S :: Ss).getLast (by simp)).P.opn c = .ok r ∧
      ((S :: Ss).getLast (by simp)).P.reader.goto p r = .ok q ∧
      ((S :: Ss).getLast (by simp)).P.reader.isInt q = .ok (w.asked (ruleOf (S :: Ss) none)) ∧
      (w.asked (ruleOf (S :: Ss) none) = false → ((S :: Ss).getLast (by simp)).P.reader.isUInt q = .ok true) := by
  obtain ⟨c, r, h1, -, h3, h4⟩ := c100_route_any Ss S ha hb
  have split : ∀ (Ts : List Leg) (T : Leg) {u : Val} {x : Signs}, Along f u (Ts ++ [T]) →
      Along f u Ts ∧ T.D (after u Ts) ∧ ruleOf (Ts ++ [T]) x = (T.g <|> ruleOf Ts x) := by
    intro Ts
    induction Ts with
    | nil => intro T u x h; exact ⟨trivial, h.1, rfl⟩
    | cons A Ts ih =>
      intro T u x ⟨k1, k2, k3, k4⟩
      obtain ⟨j1, j2, j3⟩ := ih T (x := A.g <|> x) k4
      exact ⟨⟨k1, k2, k3, j1⟩, j2, j3⟩
  obtain ⟨T, hT⟩ : ∃ T, T = (S :: Ss).getLast (by simp) := ⟨_, rfl⟩
  obtain ⟨Ts, hTs⟩ : ∃ Ts, Ts = (S :: Ss).dropLast := ⟨_, rfl⟩
  have e : S :: Ss = Ts ++ [T] := by rw [hT, hTs]; exact (List.dropLast_concat_getLast (by simp)).symm
  rw [← hTs] at h4
  rw [e] at ha
  obtain ⟨s1, s2, s3⟩ := split Ts T (x := none) ha
  obtain ⟨k1, k2⟩ := after_at hn Ts (a := none) s1 hw rfl
  have hk : ∀ x : Signs, (w.signed x).kind = 2 := by
    intro x
    cases w <;> simp [Val.kind] at hn <;> cases x <;> simp only [Val.signed, Val.signs] <;>
      first | rfl | (split <;> rfl)
  obtain ⟨k3, k4⟩ := T.keeps s2 k1 (hk _)
  rw [Val.signed_signed k2, ← s3, ← e] at k3
  rw [hT] at k3
  obtain ⟨q, q1, q2, q3⟩ := c100_asked (g := none) h4 k3 (hk _)
  have ea : ∀ x : Signs, (w.signed x).asked none = w.asked x := by
    intro x
    cases w <;> simp [Val.kind] at hn <;> cases x <;> simp only [Val.signed, Val.signs, Val.asked]
    · rename_i i g; cases h : g i.toInt <;> simp
    · rename_i n g; cases h : g n.toNat <;> simp
  rw [ea] at q2 q3
  exact ⟨c, r, q, h1, h3, q1, q2, q3⟩

/-! ## The formats -/

/-- Where the rule keeps the numbers of a value, it keeps the number at the end of a path. -/
theorem keeps_signs {g : Int → Bool} {v w : Val} {p : List Hop} (hv : (v.signs g).Same v) (h : v.at p = some w) :
    (v.signs g).at p = some (w.signs g) ∧ (w.signs g).Same w := by
  have h1 := Val.at_signs g p h
  refine ⟨h1, ?_⟩
  have h2 := Val.at_canon p h1
  rw [show (v.signs g).canon = v.canon from hv, Val.at_canon p h] at h2
  exact (Option.some.inj h2).symm

/-- ZERA: every value. -/
def Zera.leg : Leg where
  P := Zera.proto
  s := id
  D := fun _ => True
  g := none
  settles := Zera.settles
  keeps := fun _ h _ => ⟨h, rfl⟩

/-- MessagePack: signed exactly below 128. -/
def MsgPack.leg : Leg where
  P := MsgPack.proto
  s := Val.signs fun z => decide (z < 128)
  D := fun v => v.Sized ∧ v.Below (2 ^ 32 - 5)
  g := some fun z => decide (z < 128)
  settles := MsgPack.settles
  keeps := fun _ h _ => keeps_signs (Val.same_signs _ (Val.sane_msgpack _)) h

/-- CBOR: all signed. -/
def Cbor.leg (utf8 : Bytes → Bool) (maxDepth fuel : Nat) : Leg where
  P := Cbor.proto utf8 maxDepth false fuel
  s := Val.signs fun _ => true
  D := Cbor.Dom utf8 maxDepth fuel
  g := some fun _ => true
  settles := Cbor.settles
  keeps := fun hd h _ => keeps_signs (Val.same_signs _ (Val.sane_small (fun _ _ => rfl) hd.1)) h

/-- JSON: all signed. -/
def Json.leg {T : Json.Text} (L : T.Law) (dbg : Bool) : Leg where
  P := Json.proto T dbg
  s := Val.signs fun _ => true
  D := fun v => Json.Plain v ∧ Json.KeysOk v
  g := some fun _ => true
  settles := Json.settles L dbg
  keeps := fun hd h _ => keeps_signs (Val.same_signs _ (Val.sane_small (fun _ _ => rfl)
    (Val.Each.mono (fun v h => by cases v <;> first | exact h | trivial) (fun _ h => h) hd.1))) h

/-- Flex: keys in any order, which it sorts. -/
def Flex.leg {L : Flex.Lib} (H : L.Law) (dbg : Bool) : Leg where
  P := Flex.proto L dbg
  s := Val.sortKeys
  D := fun v => v.Distinct ∧ v.NulFree ∧ Flex.Fits v
  g := none
  settles := Flex.settles H dbg
  keeps := fun {v p w} hd h hn => by
    have := Val.at_sortKeys p hd.1 h
    refine ⟨?_, rfl⟩
    rw [this]
    cases w <;> simp [Val.kind] at hn <;> rfl

/-- `{"b": 200, "a": 5u}`: keys out of order. -/
def routeVal : Val := .map [([98], .int 200), ([97], .uint 5)]

/-- C100, an instance: Flex sorts the keys, MessagePack gives the signs, ZERA keeps them. -/
theorem c100_route_example : Along 2 routeVal [Flex.leg Flex.std_law false, MsgPack.leg, Zera.leg] ∧
    after routeVal [Flex.leg Flex.std_law false, MsgPack.leg, Zera.leg] = .map [([97], .int 5), ([98], .uint 200)] := by
  have e : routeVal.sortKeys = .map [([97], .uint 5), ([98], .int 200)] := by
    simp only [routeVal, Val.sortKeys, Val.sortKeysEntries]
    simp [List.mergeSort, keyLe, List.MergeSort.Internal.splitInTwo,
      show ¬ ([98] : Bytes) ≤ [97] by decide]
  have o : (Flex.leg Flex.std_law false).out routeVal = .map [([97], .uint 5), ([98], .int 200)] := by
    show routeVal.sortKeys.firstWins = _
    rw [e]; rfl
  have o' : MsgPack.leg.out (.map [([97], .uint 5), ([98], .int 200)]) = .map [([97], .int 5), ([98], .uint 200)] := by
    have e1 : (200 : Int64).toInt = 200 := by decide
    have e2 : (5 : UInt64).toNat = 5 := by decide
    simp [MsgPack.leg, Leg.out, Val.signs, Val.signs.signsEntries, e1, e2, Val.firstWins, Val.firstWinsEntries, firstVal]
    decide
  have hd : routeVal.Distinct := by simp [routeVal, Val.Distinct, Val.distinctEntries]
  have hn : routeVal.NulFree := by simp [routeVal, Val.NulFree, Val.Each, Val.eachEntries]
  have hf : Flex.Fits routeVal := by unfold Flex.Fits; decide
  obtain ⟨b, r, h1, -⟩ := Flex.c35_flex_round_trip Flex.std_law false hd hn hf
  refine ⟨⟨⟨hd, hn, hf⟩, ⟨b, h1⟩, ?_, ?_⟩, ?_⟩
  · show routeVal.sortKeys.depth ≤ 2
    rw [e]; decide
  · rw [o]
    refine ⟨⟨?_, ?_⟩, ⟨_, rfl⟩, by decide +kernel, ?_⟩
    · simp [Val.Sized, Val.sizedEntries]
    · simp [Val.Below, Val.Below.belowEntries]
    · rw [o']
      exact ⟨trivial, ⟨_, rfl⟩, by decide +kernel, trivial⟩
  · simp only [after, o, o']
    rfl

end Zer
