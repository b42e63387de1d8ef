import Verif.Prefix.MsgPack
import Verif.Prefix.Cbor
import Verif.Prefix.Zera
import Verif.Props.Zera
import Verif.Props.MsgPack
import Verif.Props.Cbor

/-!
# C74: a truncated message is not mistaken for a complete one
-/

namespace Zer

theorem firstVal_nulls {a b k : Bytes} {v : Val} (h : firstVal [(a, .null), (b, .null)] k = some v) : v = .null := by
  simp only [firstVal] at h
  split at h
  · injection h with h; exact h.symm
  · split at h
    · injection h with h; exact h.symm
    · cases h

end Zer

namespace Zer.MsgPack

/-- A map that binds the key `a` twice. -/
def twice : Val := .map [([0x61], .null), ([0x61], .str [0x78, 0x79])]

/-- C74 for MessagePack, for values without repeated keys and with sizes the format can hold: no proper prefix of the
serialization presents a value, the empty one included. Missing: repeated keys (`c74_msgpack_refuted`). -/
theorem c74_msgpack_partial {v : Val} (hs : v.Sized) (hb : v.Below (2 ^ 32 - 5)) (hd : v.Distinct) {b p t : Bytes}
    (h : proto.serialize v = .ok b) (hp : b = p ++ t) (ht : t ≠ []) (w : Val) : ¬ reader.Agrees p w := by
  rw [serialize_eq] at h
  injection h with h
  subst h
  cases p with
  | nil => exact agrees_nil
  | cons x p => exact no_value_cut hb hd (enc_pack v hs) ⟨by simp, t, ht, hp⟩

example : Zera.sample.Sized ∧ Zera.sample.Below (2 ^ 32 - 5) ∧ (Val.arr [.str [0x78], .uint 300]).Distinct := by
  simp [Zera.sample, Val.Sized, Val.sizedEntries, Val.sizedList, Val.Below, Val.Below.belowEntries,
    Val.Below.belowList, Val.Distinct, Val.distinctList]

/-- Reading the serialization of `twice` without its last byte. -/
theorem twice_cut : reader.Agrees [0x82, 0xa1, 0x61, 0xc0, 0xa1, 0x61, 0xa2, 0x78]
    (.map [([0x61], .null), ([0x61], .null)]) := by
  have hc : ∀ k, contains [0x82, 0xa1, 0x61, 0xc0, 0xa1, 0x61, 0xa2, 0x78] k =
      if decide (([0x61] : Bytes) = k) = true then .ok true else if decide (([0x61] : Bytes) = k) = true then .ok true else .ok false := by
    intro k; rfl
  have hg : ∀ k, getKey [0x82, 0xa1, 0x61, 0xc0, 0xa1, 0x61, 0xa2, 0x78] k =
      if decide (([0x61] : Bytes) = k) = true then .ok [0xc0] else if decide (([0x61] : Bytes) = k) = true then Res.ub else .err .deser := by
    intro k; rfl
  have hk : ∀ k, k ∈ [(([0x61] : Bytes), Val.null), ([0x61], .null)].map Prod.fst ↔ [0x61] = k := by
    intro k; simp [eq_comm]
  refine .map (fun _ => [0xc0]) ?_ rfl ?_ ?_ ?_ ?_
  · refine ⟨rfl, rfl, ⟨false, false, rfl, rfl, rfl⟩, rfl, rfl, rfl, rfl, rfl⟩
  · intro k
    refine (hc k).trans ?_
    by_cases h : ([0x61] : Bytes) = k
    · rw [decide_eq_true h, decide_eq_true ((hk k).2 h)]; rfl
    · rw [decide_eq_false h, decide_eq_false (fun h' => h ((hk k).1 h'))]; rfl
  · intro k h
    refine (hg k).trans ?_
    rw [decide_eq_true ((hk k).1 h)]; rfl
  · intro k h
    refine (hg k).trans ?_
    rw [decide_eq_false (fun h' => h ((hk k).2 h'))]; rfl
  · intro k v h
    have := firstVal_nulls h
    subst this
    exact .null ⟨rfl, rfl, ⟨false, false, rfl, rfl, rfl⟩, rfl, rfl, rfl, rfl, rfl⟩

/-- C74 is false for MessagePack when a key is repeated: the last value is shadowed, and its loss is not noticed. -/
theorem c74_msgpack_refuted : ∃ (v w : Val) (b p t : Bytes), v.Sized ∧ v.Below (2 ^ 32 - 5) ∧ proto.serialize v = .ok b ∧
    b = p ++ t ∧ t ≠ [] ∧ reader.Agrees p w := by
  refine ⟨twice, _, [0x82, 0xa1, 0x61, 0xc0, 0xa1, 0x61, 0xa2, 0x78, 0x79], _, [0x79], ?_, ?_, ?_, rfl, by simp, twice_cut⟩
  · simp [twice, Val.Sized, Val.sizedEntries]
  · simp [twice, Val.Below, Val.Below.belowEntries]
  · rw [serialize_eq]; rfl

end Zer.MsgPack

namespace Zer.Cbor

/-- C74 for CBOR: no proper prefix of the serialization presents a value, repeated keys or not. -/
theorem c74_cbor {utf8 : Bytes → Bool} {maxDepth f : Nat} {hard : Bool} {v : Val} {b p t : Bytes}
    (h : (proto utf8 maxDepth hard f).serialize v = .ok b) (hl : b.length < 2 ^ 64) (hf : b.length ≤ f) (hp : b = p ++ t)
    (ht : t ≠ []) (w : Val) : ¬ (reader hard f).Agrees ⟨p, 0⟩ w := by
  have hE := c23_cbor_format h hl
  subst hp
  refine no_value_cut hl hf v hE ⟨[], [], by simp, rfl⟩ ?_ w
  have := List.length_pos_iff.2 ht
  simp; omega

example : (proto (fun _ => true) 1024 true 9).serialize (.map [([0x61], .null), ([0x61], .str [0x78, 0x79])]) =
    .ok [0xa2, 0x61, 0x61, 0xf6, 0x61, 0x61, 0x62, 0x78, 0x79] := by decide +kernel

end Zer.Cbor

namespace Zer.Zera

/-- C74 for ZERA, for values without repeated keys: a proper prefix of the serialization is refused when opened, or it
presents no value. Missing: repeated keys (`c74_zera_refuted`). -/
theorem c74_zera_partial {thr : Nat} (hthr : thr ≤ 12) {v : Val} (hd : v.Distinct) {b p t : Bytes}
    (h : serializeEvs thr (emit v) = .ok b) (hp : b = p ++ t) (ht : t ≠ []) {r : View} (hr : initFrom p = .ok r) (w : Val) :
    ¬ reader.Agrees r w := no_value_cut hthr hd h hp ht hr w

/-- A prefix that does not reach the arena is refused at once, repeated keys or not. -/
theorem c74_zera_refused {thr : Nat} (hthr : thr ≤ 12) {v : Val} {b p t : Bytes} (h : serializeEvs thr (emit v) = .ok b)
    (hp : b = p ++ t) (hl : p.length < alignUp (36 + envCost v) 16) : ∀ r, initFrom p ≠ .ok r := by
  intro r hr
  obtain ⟨hd, x1, x2, -⟩ := initFrom_ok hr
  obtain ⟨env, arena, root, ao, vr, F, hat, hl', hc, -⟩ := serialize_parts hthr h
  obtain ⟨h1, -⟩ := F.opens hat hl'
  obtain ⟨hd', y1, -, y3⟩ := initFrom_ok h1
  have e := le_parseHeader p t _ x1
  rw [← hp, y1] at e
  injection e with e
  subst e
  injection y3 with _ _ z2 _
  rw [← z2, F.arenaOfs_eq, hc] at x2
  simp only [HeaderSize, ArenaBaseAlign] at x2
  rw [show 20 + (16 + envCost v) = 36 + envCost v by omega] at x2
  omega

/-- A map that binds the key `a` twice, the second time to a string of 13 bytes. -/
def twice : Val := .map [([0x61], .null), ([0x61], .str (List.replicate 13 0x78))]

/-- The serialization of `twice` without its last byte. -/
def twiceCut : Bytes := assemble (le32 2 ++ entry [0x61] (makeVr tNull 0 0 0 0 0) ++
  entry [0x61] (makeVr tString 0 0 0 13 0) ++ makeVr tObject 0 0 0 0 0) (List.replicate 12 0x78) 46 96

theorem twice_cut : ∃ r, initFrom twiceCut = .ok r ∧ reader.Agrees r (.map [([0x61], .null), ([0x61], .null)]) := by
  refine ⟨⟨twiceCut, 62, 96, some 66⟩, by decide +kernel, ?_⟩
  have hh : ∀ k q, sliceAt twiceCut q 1 = .ok [0x61] →
      View.keyHit ⟨twiceCut, 62, 96, some 66⟩ k q 1 = .ok (decide (([0x61] : Bytes) = k)) := by
    intro k q hq
    unfold View.keyHit
    by_cases h : 1 = k.length
    · rw [if_pos h, ← h, hq]; rfl
    · rw [if_neg h, decide_eq_false]
      · rfl
      · intro h'; exact h (by rw [← h']; rfl)
  have h1 : sliceAt twiceCut 28 1 = .ok [0x61] := by decide +kernel
  have h2 : sliceAt twiceCut 49 1 = .ok [0x61] := by decide +kernel
  have hc : ∀ k, View.contains ⟨twiceCut, 62, 96, some 66⟩ k =
      if ([0x61] : Bytes) = k then .ok true else .ok false := by
    intro k
    have : View.contains ⟨twiceCut, 62, 96, some 66⟩ k = (View.keyHit ⟨twiceCut, 62, 96, some 66⟩ k 28 1 >>= fun hit =>
      if hit then .ok true else View.keyHit ⟨twiceCut, 62, 96, some 66⟩ k 49 1 >>= fun hit =>
        if hit then .ok true else .ok false) := by rfl
    rw [this, hh _ _ h1, hh _ _ h2]
    by_cases h : ([0x61] : Bytes) = k <;> simp [h]
  have hg : ∀ k, View.getKey ⟨twiceCut, 62, 96, some 66⟩ k =
      if ([0x61] : Bytes) = k then .ok ⟨twiceCut, 62, 96, some 29⟩ else .err .deser := by
    intro k
    have : View.getKey ⟨twiceCut, 62, 96, some 66⟩ k = (View.keyHit ⟨twiceCut, 62, 96, some 66⟩ k 28 1 >>= fun hit =>
      if hit then .ok ⟨twiceCut, 62, 96, some 29⟩ else View.keyHit ⟨twiceCut, 62, 96, some 66⟩ k 49 1 >>= fun hit =>
        if hit then .ok ⟨twiceCut, 62, 96, some 50⟩ else .err .deser) := by rfl
    rw [this, hh _ _ h1, hh _ _ h2]
    by_cases h : ([0x61] : Bytes) = k <;> simp [h]
  have hk : ∀ k, k ∈ [(([0x61] : Bytes), Val.null), ([0x61], .null)].map Prod.fst ↔ [0x61] = k := by
    intro k; simp [eq_comm]
  refine .map (fun _ => ⟨twiceCut, 62, 96, some 29⟩) ?_ (by decide +kernel) ?_ ?_ ?_ ?_
  · refine ⟨by decide +kernel, by decide +kernel, ⟨false, false, by decide +kernel, by decide +kernel, rfl⟩, by decide +kernel,
      by decide +kernel, by decide +kernel, by decide +kernel, by decide +kernel⟩
  · intro k
    refine (hc k).trans ?_
    by_cases h : ([0x61] : Bytes) = k
    · rw [if_pos h, decide_eq_true ((hk k).2 h)]
    · rw [if_neg h, decide_eq_false (fun h' => h ((hk k).1 h'))]
  · intro k h
    refine (hg k).trans ?_
    rw [if_pos ((hk k).1 h)]
  · intro k h
    have h' : ¬ [0x61] = k := fun h' => h ((hk k).2 h')
    refine (hg k).trans ?_
    rw [if_neg h']
  · intro k v h
    have := firstVal_nulls h
    subst this
    exact .null ⟨by decide +kernel, by decide +kernel, ⟨false, false, by decide +kernel, by decide +kernel, rfl⟩, by decide +kernel,
      by decide +kernel, by decide +kernel, by decide +kernel, by decide +kernel⟩

/-- C74 is false for ZERA when a key is repeated. -/
theorem c74_zera_refuted : ∃ (v w : Val) (b p t : Bytes) (r : View), serialize v = .ok b ∧ b = p ++ t ∧ t ≠ [] ∧
    initFrom p = .ok r ∧ reader.Agrees r w := by
  obtain ⟨r, h1, h2⟩ := twice_cut
  have h : serialize twice = .ok (twiceCut ++ [0x78]) := by decide +kernel
  exact ⟨twice, _, twiceCut ++ [0x78], twiceCut, [0x78], r, h, rfl, List.cons_ne_nil _ _, h1, h2⟩

end Zer.Zera
