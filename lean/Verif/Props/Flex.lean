import Verif.Flex.Trans
import Verif.Flex.Key
import Verif.Flex.Any
import Verif.Determined
import Verif.Props.Json

/-!
# Properties of the Flex protocol

Theorems that build maps assume `L.Law`, what `std::sort` guarantees; `std_law` shows that the law can
be met, and `std` is used to run examples. `Fits v` says that the buffer stays below 2^64 bytes.
-/

namespace Zer.Flex
variable {L : Lib}

/-! ### C34: lookup -/

/-- C34: in a map whose keys are sorted, `contains` answers whether the key is stored, `operator[]`
returns a value stored under the key if there is one and raises a DeserializationError otherwise. -/
theorem c34_flex_lookup {r : Ref} {ms : List (Bytes × Doc)} (h : Holds r (.map ms))
    (hs : ms.Pairwise (fun a b => a.1 ≤ b.1)) (k : Bytes) :
    reader.contains r k = .ok (decide (k ∈ ms.map Prod.fst)) ∧
    (k ∈ ms.map Prod.fst → ∃ c d, reader.getKey r k = .ok c ∧ Holds c d ∧ (k, d) ∈ ms) ∧
    (k ∉ ms.map Prod.fst → reader.getKey r k = .err .deser) := by
  refine ⟨(h.same.contains k).trans (contains_sorted hs k), fun hk => ?_, fun hk => ?_⟩
  · rcases getKey_sorted hs k with ⟨d, hd, hm⟩ | ⟨_, h⟩
    · have hr := h.same.getKey k
      rw [hd] at hr
      obtain ⟨c, h1, h2⟩ := hr.ok_right
      exact ⟨c, d, h1, h2, hm⟩
    · exact absurd hk h
  · rcases getKey_sorted hs k with ⟨d, _, h⟩ | ⟨h', _⟩
    · exact absurd (List.mem_map_of_mem (f := Prod.fst) h) hk
    · have hr := h.same.getKey k
      rw [h'] at hr
      exact hr.err_right

/-- C34: with distinct keys the value is the one stored under the key. -/
theorem c34_flex_lookup_distinct {r : Ref} {ms : List (Bytes × Doc)} (h : Holds r (.map ms))
    (hs : ms.Pairwise (fun a b => a.1 ≤ b.1)) (hn : (ms.map Prod.fst).Nodup) {k : Bytes} {d : Doc} (hm : (k, d) ∈ ms) :
    reader.contains r k = .ok true ∧ ∃ c, reader.getKey r k = .ok c ∧ Holds c d := by
  have hk : k ∈ ms.map Prod.fst := List.mem_map_of_mem (f := Prod.fst) hm
  obtain ⟨h1, h2, _⟩ := c34_flex_lookup h hs k
  refine ⟨by rw [h1]; simp only [hk]; rfl, ?_⟩
  obtain ⟨c, e, hc, he, hm'⟩ := h2 hk
  refine ⟨c, hc, ?_⟩
  obtain ⟨i, hi, e1⟩ := List.getElem_of_mem hm
  obtain ⟨j, hj, e2⟩ := List.getElem_of_mem hm'
  have hij : i = j := by
    refine (List.getElem_inj (h₀ := by simpa using hi) (h₁ := by simpa using hj) hn).1 ?_
    simp [e1, e2]
  subst hij
  rw [e1] at e2; injection e2 with _ e2; rw [e2]; exact he

/-- Where the loop stops, the key stands. -/
theorem loop_sound {b : Bytes} {kp kw kn : Nat} {key : Bytes} : ∀ {fuel lo hi mid : Nat}, hi ≤ kn →
    loop b kp kw kn key fuel lo hi = .ok (some mid) → mid < kn ∧ keyAt b kp kw kn mid = .ok key
  | 0, _, _, _, _, h => by cases h
  | fuel + 1, lo, hi, mid, hn, h => by
    unfold loop at h
    split at h
    · rename_i hlt
      have hmid : u64 (lo + hi) / 2 < hi := by
        have : u64 (lo + hi) ≤ lo + hi := Nat.mod_le _ _
        omega
      obtain ⟨sv, h1, h⟩ := Res.bind_eq_ok.1 h
      split at h
      · exact loop_sound hn h
      · exact loop_sound (by omega) h
      · rename_i ho
        injection h with h; injection h with h; subst h
        rw [(order_spec sv key).2.2.1 ho] at h1
        exact ⟨by omega, h1⟩
    · cases h

/-- C34 for any bytes, valid or not: if lookup returns something, it is the value at an index at which
the key is stored (null, where the map has fewer values than keys), and `contains` says yes only if there is such an
index. -/
theorem c34_flex_lookup_any (r : Ref) (k : Bytes) :
    (∀ c, reader.getKey r k = .ok c → ∃ p n kp kw kn i, r.vector = .ok (p, n) ∧ keysAt r.buf p r.bw = .ok (kp, kw, kn) ∧
      i < kn ∧ keyAt r.buf kp kw kn i = .ok k ∧ (n ≤ i → c = nullRef) ∧
      (i < n → ∃ t, byteAt r.buf (p + u64 (n * r.bw) + i) = .ok t ∧ c = ⟨r.buf, p + u64 (i * r.bw), r.bw, 2 ^ (t % 4), t / 4⟩)) ∧
    (reader.contains r k = .ok true → ∃ p n kp kw kn i, r.vector = .ok (p, n) ∧ keysAt r.buf p r.bw = .ok (kp, kw, kn) ∧
      i < kn ∧ keyAt r.buf kp kw kn i = .ok k) := by
  constructor
  · intro c h
    obtain ⟨_, _, h⟩ := Res.bind_eq_ok.1 h
    obtain ⟨⟨p, n⟩, h1, h⟩ := Res.bind_eq_ok.1 h
    obtain ⟨⟨kp, kw, kn⟩, h2, h⟩ := Res.bind_eq_ok.1 h
    obtain ⟨o, h3, h⟩ := Res.bind_eq_ok.1 h
    cases o with
    | none => cases h
    | some mid =>
      obtain ⟨h4, h5⟩ := loop_sound (Nat.le_refl _) h3
      have h : elemAt r.buf p r.bw n mid = .ok c := h
      refine ⟨p, n, kp, kw, kn, mid, h1, h2, h4, h5, fun hn => ?_, fun hn => ?_⟩
      · rw [elemAt, if_pos hn] at h
        injection h with h
        exact h.symm
      · rw [elemAt, if_neg (by omega)] at h
        obtain ⟨t, h6, h⟩ := Res.bind_eq_ok.1 h
        injection h with h
        exact ⟨t, h6, h.symm⟩
  · intro h
    have h : contains r k = .ok true := h
    unfold contains at h
    split at h
    · obtain ⟨⟨p, n⟩, h1, h⟩ := Res.bind_eq_ok.1 h
      obtain ⟨⟨kp, kw, kn⟩, h2, h⟩ := Res.bind_eq_ok.1 h
      obtain ⟨o, h3, h⟩ := Res.bind_eq_ok.1 h
      cases o with
      | none => cases h
      | some mid =>
        obtain ⟨h4, h5⟩ := loop_sound (Nat.le_refl _) h3
        exact ⟨p, n, kp, kw, kn, mid, h1, h2, h4, h5⟩
    · cases h

/-- The buffer of the map `{"a": 1, "b": 2}`. -/
def sampleMap : Bytes := [97, 0, 98, 0, 2, 5, 4, 2, 1, 2, 1, 2, 8, 8, 4, 36, 1]

theorem sampleMap_holds : ∃ r, opn sampleMap = .ok r ∧
    Holds r (.map [([0x61], .uint 1), ([0x62], .uint 2)]) := by
  obtain ⟨b, r, h1, _, h2, h3⟩ := serialize_holds std_law false
    (v := .map [([0x61], .uint 1), ([0x62], .uint 2)]) (by unfold Fits; decide)
  have e : (proto std false).serialize (.map [([0x61], .uint 1), ([0x62], .uint 2)]) = .ok sampleMap := by
    decide +kernel
  rw [e] at h1; injection h1 with h1; subst h1
  exact ⟨r, h2, h3⟩

/-- Two keys, one value: the value of the second key is null. -/
example : (opn [97, 0, 98, 0, 2, 5, 4, 2, 1, 1, 1, 8, 2, 36, 1] >>= fun r => getKey r [98]) = .ok nullRef ∧
    (opn [97, 0, 98, 0, 2, 5, 4, 2, 1, 1, 1, 8, 2, 36, 1] >>= fun r => contains r [98]) = .ok true := by
  decide +kernel

example : ([([0x61], .uint 1), ([0x62], .uint 2)] : List (Bytes × Doc)).Pairwise (fun a b => a.1 ≤ b.1) := by decide

/-- A lookup in an unsorted map can miss: the same buffer with keys "c" and "b", in which "c" is not
found. -/
example : (opn [99, 0, 98, 0, 2, 5, 4, 2, 1, 2, 1, 2, 8, 8, 4, 36, 1] >>= fun r => contains r [99]) = .ok false := by
  decide +kernel

/-! #### The search that never ends

`lo + hi` is a sum of `size_t`. -/

/-- The number of keys that the buffer claims to hold. -/
def manyKeys : Nat := (2 ^ 65 + 4) / 3

/-- From two states the loop goes back and forth. -/
theorem loop_cycle {b : Bytes} {kp kw : Nat} {key a : Bytes} (ha : order a key = .lt)
    (h1 : keyAt b kp kw manyKeys 2 = .ok a) (h2 : keyAt b kp kw manyKeys (manyKeys / 2 + 1) = .ok a) :
    ∀ fuel, loop b kp kw manyKeys key fuel 3 manyKeys = .diverge ∧
      loop b kp kw manyKeys key fuel (manyKeys / 2 + 2) manyKeys = .diverge
  | 0 => ⟨rfl, rfl⟩
  | fuel + 1 => by
    obtain ⟨i1, i2⟩ := loop_cycle ha h1 h2 fuel
    have e1 : u64 (3 + manyKeys) / 2 = manyKeys / 2 + 1 := by decide +kernel
    have e2 : u64 (manyKeys / 2 + 2 + manyKeys) / 2 = 2 := by decide +kernel
    have l1 : 3 < manyKeys := by decide +kernel
    have l2 : manyKeys / 2 + 2 < manyKeys := by decide +kernel
    constructor
    · rw [loop, if_pos l1]
      simp only [e1, h2, Res.ok_bind, ha]
      exact i2
    · rw [loop, if_pos l2]
      simp only [e2, h1, Res.ok_bind, ha]
      exact i1

/-- A buffer of 860 bytes: one key "a" at the beginning; a map whose keys claim to be 255 bytes wide and
`manyKeys` in number, so that the places of the keys wrap around. -/
def loopBuf : Bytes :=
  [97, 0] ++ List.replicate 43 0 ++ le 8 manyKeys ++ List.replicate 417 0 ++ le 8 470 ++ List.replicate 77 0 ++ le 8 555 ++
  List.replicate 162 0 ++ le 8 725 ++ List.replicate 77 0 ++ le 8 810 ++ List.replicate 6 0 ++ le 8 524 ++ le 8 255 ++
  le 8 1 ++ le 8 0 ++ [0] ++ [9, 39, 1]

theorem loopBuf_vector : Ref.vector ⟨loopBuf, 857, 1, 8, 9⟩ = .ok (848, 1) := by decide +kernel

theorem loopBuf_keys : keysAt loopBuf 848 8 = .ok (300, 255, manyKeys) := by decide +kernel

theorem loopBuf_diverges : loop loopBuf 300 255 manyKeys [98] loopFuel 0 manyKeys = .diverge := by
  have k0 : keyAt loopBuf 300 255 manyKeys (manyKeys / 2) = .ok [97] := by decide +kernel
  have k1 : keyAt loopBuf 300 255 manyKeys 1 = .ok [97] := by decide +kernel
  have k2 : keyAt loopBuf 300 255 manyKeys (manyKeys / 2 + 1) = .ok [97] := by decide +kernel
  have k3 : keyAt loopBuf 300 255 manyKeys 2 = .ok [97] := by decide +kernel
  have ha : order [97] [98] = .lt := by decide
  have e0 : u64 (0 + manyKeys) / 2 = manyKeys / 2 := by decide +kernel
  have e1 : u64 (manyKeys / 2 + 1 + manyKeys) / 2 = 1 := by decide +kernel
  have e2 : u64 (2 + manyKeys) / 2 = manyKeys / 2 + 1 := by decide +kernel
  have l0 : 0 < manyKeys := by decide +kernel
  have l1 : manyKeys / 2 + 1 < manyKeys := by decide +kernel
  have l2 : 2 < manyKeys := by decide +kernel
  have c := fun fuel => (loop_cycle ha k3 k2 fuel).2
  generalize loopFuel = fuel
  generalize loopBuf = b at *
  generalize manyKeys / 2 = h at *
  generalize manyKeys = n at *
  rcases fuel with _ | _ | _ | fuel
  · rfl
  · rw [loop, if_pos l0]
    simp only [e0, k0, Res.ok_bind, ha, loop]
  · rw [loop, if_pos l0]
    simp only [e0, k0, Res.ok_bind, ha]
    rw [loop, if_pos l1]
    simp only [e1, k1, Res.ok_bind, ha, loop]
  · rw [loop, if_pos l0]
    simp only [e0, k0, Res.ok_bind, ha]
    rw [loop, if_pos l1]
    simp only [e1, k1, Res.ok_bind, ha]
    rw [loop, if_pos l2]
    simp only [e2, k2, Res.ok_bind, ha]
    exact c fuel

theorem lookup_diverges {r : Ref} {p n kp kw kn : Nat} {k : Bytes} (hm : isMap r = true) (hv : r.vector = .ok (p, n))
    (hk : keysAt r.buf p r.bw = .ok (kp, kw, kn)) (hl : loop r.buf kp kw kn k loopFuel 0 kn = .diverge) :
    reader.contains r k = .diverge ∧ reader.getKey r k = .diverge := by
  show contains r k = .diverge ∧ getKey r k = .diverge
  generalize hF : loopFuel = F at hl
  constructor
  · simp only [contains, hm, if_true, hv, Res.ok_bind, hk, hF, hl, Res.diverge_bind]
  · simp only [getKey, hm, Res.require, if_true, hv, Res.ok_bind, hk, hF, hl, Res.diverge_bind]

/-- C34: lookup does not terminate on every buffer. `contains` and `operator[]` never return on this
one: the position of the root is found, it is a map, and the search for "b" goes around in a circle. -/
theorem c34_flex_search_refuted : ∃ r, opn loopBuf = .ok r ∧ reader.isMap r = .ok true ∧
    reader.contains r [98] = .diverge ∧ reader.getKey r [98] = .diverge := by
  have ho : opn loopBuf = .ok ⟨loopBuf, 857, 1, 8, 9⟩ := by decide +kernel
  exact ⟨_, ho, rfl, lookup_diverges (r := ⟨loopBuf, 857, 1, 8, 9⟩) rfl loopBuf_vector loopBuf_keys loopBuf_diverges⟩

/-- C34, any bytes: lookups end in every map that claims to have no more than 2^63 keys, whether they are sorted, stored in
the buffer or not; and in every map whose keys can be listed. -/
theorem c34_flex_search_ends (r : Ref) (k : Bytes) :
    ((∀ p n kp kw kn, r.vector = .ok (p, n) → keysAt r.buf p r.bw = .ok (kp, kw, kn) → kn ≤ 2 ^ 63) →
      reader.contains r k ≠ .diverge ∧ reader.getKey r k ≠ .diverge) ∧
    (∀ ks, r.buf.length < 2 ^ 60 → reader.mapKeys r = .ok ks → reader.contains r k ≠ .diverge ∧ reader.getKey r k ≠ .diverge) := by
  constructor
  · intro h
    have hl : ∀ p n kp kw kn, r.vector = .ok (p, n) → keysAt r.buf p r.bw = .ok (kp, kw, kn) →
        Returns (loop r.buf kp kw kn k loopFuel 0 kn) := by
      intro p n kp kw kn h1 h2
      have := h p n kp kw kn h1 h2
      exact loop_returns _ _ _ this k _ _ _ (by unfold loopFuel; omega) (Nat.le_refl _)
    constructor
    · show Returns (contains r k)
      unfold contains
      split
      · exact .bind (returns_vector r) fun x hx => .bind (returns_keysAt _ _ _) fun y hy =>
          .bind (hl _ _ _ _ _ hx hy) fun _ _ => returns_pure _
      · exact returns_pure _
    · show Returns (getKey r k)
      refine .bind (returns_require _ _) fun _ _ => .bind (returns_vector r) fun x hx => .bind (returns_keysAt _ _ _) fun y hy =>
        .bind (hl _ _ _ _ _ hx hy) fun o _ => ?_
      cases o with
      | none => exact returns_err _
      | some mid => exact returns_elemAt _ _ _ _ _
  · intro ks hb hk
    exact ⟨reader_total.contains r k ks hb hk, reader_total.getKey r k ks hb hk⟩

example : (opn [99, 0, 98, 0, 2, 5, 4, 2, 1, 2, 1, 2, 8, 8, 4, 36, 1] >>= fun r => r.vector >>= fun x => keysAt r.buf x.1 r.bw) =
    .ok (5, 1, 2) := by decide +kernel

/-! ### C35: round trip -/

/-- C35: every value with distinct keys, none of which contains a NUL, can be serialized, and its
bytes read back as exactly that value with the entries of its maps in the order of their keys. -/
theorem c35_flex_round_trip (H : L.Law) (dbg : Bool) {v : Val} (hd : v.Distinct) (hn : v.NulFree) (hf : Fits v) :
    ∃ b r, (proto L dbg).serialize v = .ok b ∧ opn b = .ok r ∧ reader.AgreesStrictly r v.sortKeys :=
  bytesOf_agrees H dbg (Tree.eval_emit v) hd hn hf

/-- C35: sorting loses nothing: the maps of the sorted value have the same entries. -/
theorem c35_sort_keeps (ms : List (Bytes × Val)) :
    ∃ ns, (Val.map ms).sortKeys = .map ns ∧ ns.Perm (ms.map (fun m => (m.1, m.2.sortKeys))) ∧
      ns.Pairwise (fun a b => a.1 ≤ b.1) := by
  refine ⟨_, rfl, ?_, keyLe_sorted _⟩
  rw [← Val.sortKeysEntries_eq]
  exact List.mergeSort_perm _ _

/-- C35 cannot be had without the conditions: a key is cut at its first NUL, so that what was written
reads as another value. -/
theorem c35_flex_nul_refuted (H : L.Law) (dbg : Bool) :
    ∃ b r, (proto L dbg).serialize (.map [([0x61, 0, 0x62], .null)]) = .ok b ∧ opn b = .ok r ∧
      reader.AgreesStrictly r (.map [([0x61], .null)]) := by
  obtain ⟨b, r, h1, _, h2, h3⟩ := serialize_holds H dbg (v := .map [([0x61, 0, 0x62], .null)]) (by unfold Fits; decide)
  refine ⟨b, r, h1, h2, ?_⟩
  have ha := agrees_doc H (.map [([0x61], .null)]) (by simp [Val.Distinct, Val.distinctEntries])
    (by simp [Val.NulFree, Val.Each, Val.eachEntries])
  have e : (Val.map [([0x61], .null)]).sortKeys = .map [([0x61], .null)] := by
    simp [Val.sortKeys, Val.sortKeysEntries]
  rw [e] at ha
  exact Holds.agrees ha h3

def sampleVal : Val := .map [([0x62], .arr [.int (-5), .uint 7, .null]), ([0x61], .blob [1, 2, 3])]

example : ∃ L : Lib, L.Law ∧ sampleVal.Distinct ∧ sampleVal.NulFree ∧ Fits sampleVal ∧
    sampleVal.sortKeys = .map [([0x61], .blob [1, 2, 3]), ([0x62], .arr [.int (-5), .uint 7, .null])] := by
  refine ⟨std, std_law, ?_, ?_, by unfold Fits; decide, ?_⟩
  · simp [sampleVal, Val.Distinct, Val.distinctEntries, Val.distinctList]
  · simp [sampleVal, Val.NulFree, Val.Each, Val.eachEntries, Val.eachList]
  · simp only [sampleVal, Val.sortKeys, Val.sortKeysEntries, Val.sortKeysList]
    simp [List.mergeSort, keyLe, List.MergeSort.Internal.splitInTwo, List.merge]
    decide

/-! ### C12: equal bytes -/

/-- C12 for Flex: two values with distinct NUL-free keys that have the same bytes are equal up to the
order of map entries. -/
theorem c12_flex_injective (H : L.Law) {K : Lib} (H' : K.Law) (dbg dbg' : Bool) {v w : Val} (hv : v.Distinct)
    (hw : w.Distinct) (nv : v.NulFree) (nw : w.NulFree) (fv : Fits v) (fw : Fits w)
    (h : (proto L dbg).serialize v = (proto K dbg').serialize w) : v.sortKeys = w.sortKeys := by
  obtain ⟨b, r, h1, h2, h3⟩ := c35_flex_round_trip H dbg hv nv fv
  obtain ⟨c, t, k1, k2, k3⟩ := c35_flex_round_trip H' dbg' hw nw fw
  rw [h1, k1] at h
  injection h with h
  subst h
  rw [h2] at k2
  injection k2 with k2
  subst k2
  exact (h3.determined_distinct k3 hv.sortKeys hw.sortKeys).2 trivial

/-- The converse is false: the keys lie in the buffer in the order in which they were written, so that
equal values have different bytes. -/
theorem c12_flex_order_refuted :
    (proto std false).serialize (.map [([0x61], .uint 1), ([0x62], .uint 2)]) ≠
      (proto std false).serialize (.map [([0x62], .uint 2), ([0x61], .uint 1)]) ∧
    (Val.map [([0x61], .uint 1), ([0x62], .uint 2)]).sortKeys =
      (Val.map [([0x62], .uint 2), ([0x61], .uint 1)]).sortKeys := by
  constructor
  · decide +kernel
  · simp only [Val.sortKeys, Val.sortKeysEntries]
    simp [List.mergeSort, keyLe, List.MergeSort.Internal.splitInTwo, List.merge,
      show ([97] : Bytes) ≤ [98] by decide, show ¬ ([98] : Bytes) ≤ [97] by decide]

/-! ### C61: call sequences -/

/-- C61: a well-formed call sequence without NUL in keys is accepted, in every build, and its bytes are
those of the value it spells (so announced sizes do not matter). Missing: raising on every other
sequence (`c61_flex_calls_refuted`). -/
theorem c61_flex_calls_partial (H : L.Law) (dbg : Bool) {es : List Ev} {v : Val} (h : Tree.eval es = some v)
    (hd : v.Distinct) (hn : v.NulFree) (hf : Fits v) :
    ∃ b r, (proto L dbg).bytesOf es = .ok b ∧ (proto L dbg).serialize v = .ok b ∧ opn b = .ok r ∧
      reader.AgreesStrictly r v.sortKeys := by
  obtain ⟨b, r, h1, h2, h3⟩ := bytesOf_agrees H dbg h hd hn hf
  exact ⟨b, r, h1, by rw [← bytesOf_serialize h]; exact h1, h2, h3⟩

example : Tree.eval [Ev.beginMap 7, .key [0x61], .null, .endMap] = some (.map [([0x61], .null)]) := rfl

/-- C61: every well-formed call sequence is accepted, whatever its keys, and gives at most `weigh v + 17`
bytes. -/
theorem c61_flex_accepts (H : L.Law) (dbg : Bool) {es : List Ev} {v : Val} (h : Tree.eval es = some v) :
    ∃ b, (proto L dbg).bytesOf es = .ok b ∧ b.length ≤ weigh v + 17 := by
  obtain ⟨b, h1, h2, _⟩ := bytesOf_eval H dbg h
  exact ⟨b, h1, h2⟩

/-- C61: closing a container that is not the innermost open one raises, in every state. -/
theorem c61_flex_mismatched_end (dbg : Bool) (s : RS) :
    ((∀ st n, s.st ≠ (false, n) :: st) → step L dbg s .endArr = .err .logic) ∧
    ((∀ st n, s.st ≠ (true, n) :: st) → step L dbg s .endMap = .err .logic) := by
  obtain ⟨buf, stack, pool, wrote, st⟩ := s
  constructor
  · intro h
    match st, h with
    | [], _ => rfl
    | (true, n) :: st, _ => rfl
    | (false, n) :: st, h => exact absurd rfl (h st n)
  · intro h
    match st, h with
    | [], _ => rfl
    | (false, n) :: st, _ => rfl
    | (true, n) :: st, h => exact absurd rfl (h st n)

example : step L false (openC true {}) .endArr = .err .logic := rfl

/-- C61 is false. Of two roots the second is dropped without assertions; an array that is never closed
reads outside the builder's stack; a key without value is dropped; one value without a key is stored
under some string that happens to stand there, two make the builder compare keys outside its buffer; a
key in an array is accepted and gives an element of no kind. With assertions all but the last end the
process instead of raising. -/
theorem c61_flex_calls_refuted :
    (Tree.eval [Ev.null, .bool true] = none ∧
      (proto std false).bytesOf [.null, .bool true] = (proto std false).serialize .null ∧
      (proto std true).bytesOf [.null, .bool true] = .err .abort) ∧
    (Tree.eval [Ev.beginArr 1] = none ∧ (proto std false).bytesOf [.beginArr 1] = .ub ∧
      (proto std true).bytesOf [.beginArr 1] = .err .abort) ∧
    (Tree.eval [Ev.beginMap 1, .key [0x61], .endMap] = none ∧
      (proto std false).bytesOf [.beginMap 1, .key [0x61], .endMap] = .ok [97, 0, 0, 3, 1, 1, 0, 0, 36, 1] ∧
      (opn [97, 0, 0, 3, 1, 1, 0, 0, 36, 1] >>= mapKeys) = .ok [] ∧
      (proto std true).bytesOf [.beginMap 1, .key [0x61], .endMap] = .err .abort) ∧
    (Tree.eval [Ev.beginMap 1, .null, .null, .endMap] = none ∧
      (proto std false).bytesOf [.beginMap 1, .null, .null, .endMap] = .ok [1, 0, 1, 1, 1, 0, 0, 2, 36, 1] ∧
      (opn [1, 0, 1, 1, 1, 0, 0, 2, 36, 1] >>= mapKeys) = .ok [[]] ∧
      (proto std true).bytesOf [.beginMap 1, .null, .null, .endMap] = .err .abort) ∧
    (Tree.eval [Ev.beginMap 2, .null, .null, .null, .null, .endMap] = none ∧
      (proto std false).bytesOf [.beginMap 2, .null, .null, .null, .null, .endMap] = .ub ∧
      (proto std true).bytesOf [.beginMap 2, .null, .null, .null, .null, .endMap] = .err .abort) ∧
    (∀ dbg, Tree.eval [Ev.beginArr 1, .key [0x61], .endArr] = none ∧
      (proto std dbg).bytesOf [.beginArr 1, .key [0x61], .endArr] = .ok [97, 0, 1, 3, 16, 2, 40, 1] ∧
      (opn [97, 0, 1, 3, 16, 2, 40, 1] >>= fun r => getIdx r 0 >>= fun c => .ok c.ty) = .ok 4) := by
  decide +kernel

/-- The element of no kind: every predicate is false, every accessor raises, translation fails. -/
theorem c61_flex_stray_key {r : Ref} (h : r.ty = 4) :
    [isNull r, isBool r, isInt r, isUInt r, isFloat r, isString r, isBlob r, isMap r, isArray r] =
      List.replicate 9 false ∧
    ∀ (P : Proto) f, P.translate reader (f + 1) r = .err .runtime := by
  obtain ⟨b, p, pw, bw, ty⟩ := r
  simp only at h
  subst h
  refine ⟨rfl, fun P f => ?_⟩
  simp [Proto.translate, writeValue, reader, isNull, isBool, isInt, isUInt, isFloat, isString, isBlob, isMap, isArray,
    typedType]

/-! ### C62: keys as views -/

/-- A map with one key, given as a view, and the value null. -/
def oneKey (mem : Bytes) (len : Nat) : Res Bytes := do
  let s ← keyView (openC true {}) mem len
  let s ← step std false s .null
  let s ← step std false s .endMap
  finish false s

/-- C62 is false: the byte behind the view is read. If the view ends its allocation, this is outside of
it; if the byte is not NUL, what is stored is not the key: it goes on until a NUL byte follows in the
buffer. -/
theorem c62_flex_key_view_refuted :
    (∀ s, keyView s [0x61] 1 = .ub) ∧
    oneKey [0x61, 0] 1 = (proto std false).serialize (.map [([0x61], .null)]) ∧
    (oneKey [0x61, 0x62, 0] 1 >>= fun b => opn b >>= mapKeys) = .ok [[0x61, 0x62, 1, 3, 1, 1, 1]] := by
  refine ⟨fun s => rfl, by decide +kernel, by decide +kernel⟩

/-- C62, the exact condition: in a state that the writer can be in, the call does what it does for the
characters of the view if and only if a NUL byte follows them in the same allocation (as in a
`std::string` or a literal, which is what `translate`, `zmap` and the dynamic values pass). Missing:
other views. -/
theorem c62_flex_key_view_partial (dbg : Bool) {s : RS} (hp : PoolOk s.buf s.pool) (mem : Bytes) (len : Nat)
    (hn : (0 : UInt8) ∉ mem.take len) :
    keyView s mem len = step L dbg s (.key (mem.take len)) ↔ mem[len]? = some 0 := by
  constructor
  · intro h
    cases hc : mem[len]? with
    | none =>
      obtain ⟨b', u, pool', h1, _⟩ := createKey_ok (N := True) hn [] hp
      rw [List.append_nil] at h1
      simp only [keyView, hc, step, keyBytes, h1, Res.ok_bind, Res.pure_eq] at h
      cases h
    | some c =>
      by_cases h0 : c = 0
      · rw [h0]
      · exact absurd h (keyView_other hp hc h0 hn)
  · exact keyView_nul

example : (0 : UInt8) ∉ ([0x61, 0x62, 0] : Bytes).take 2 ∧ ([0x61, 0x62, 0] : Bytes)[2]? = some 0 := by decide

/-- Every state after calls that can be continued to a document meets the condition. -/
theorem poolOk_run (H : L.Law) (dbg : Bool) {es : List Ev} {t : Tree} (h : Tree.run {} es = some t) :
    ∃ s, (writer L dbg).run {} es = .ok s ∧ PoolOk s.buf s.pool := by
  obtain ⟨s, h1, h2⟩ := run_rel (N := True) H (dbg := dbg) es rel_init h
  exact ⟨s, h1, h2.pool⟩

/-! ### C63: the constructor -/

/-- C63 is false: constructing a reader from any one-byte buffer reads outside the buffer, and so does
looking at the root of a buffer whose last byte is larger than the rest of it. Of buffers that are
opened, the accessors follow offsets out of the bytes. -/
theorem c63_flex_constructor_refuted :
    (∀ x : UInt8, opn [x] = .ub) ∧ (∀ t w : UInt8, 0 < w → opn [t, w] = .ub) ∧
    (opn [9, 20, 1] >>= asString) = .ub ∧ (opn [200, 100, 0, 100, 1] >>= asBlob) = .ub ∧
    (opn [9, 40, 1] >>= arraySize) = .ub ∧ (opn [2, 2, 40, 1] >>= fun r => getIdx r 0) = .ub ∧
    (opn [0, 1, 1, 36, 1] >>= mapKeys) = .ub ∧ (opn [0, 0, 1, 36, 1] >>= fun r => contains r []) = .ub := by
  refine ⟨fun x => rfl, fun t w hw => ?_, by decide +kernel, by decide +kernel, by decide +kernel,
    by decide +kernel, by decide +kernel, by decide +kernel⟩
  have h : getRoot [t, w] = .ub := by
    have hw' : ¬ w.toNat = 0 := by
      intro e
      have : w = 0 := UInt8.toNat_inj.1 e
      subst this; exact absurd hw (by decide)
    simp [getRoot, byteAt, hw']
  rw [opn, if_neg (by simp), h]

/-- C63, all there is to the constructor: it never raises; it reads outside the bytes if and only if there
is one byte, or the last byte is larger than the number of bytes before the last two; an empty buffer
reads as null, and what the writer made as its document. Missing: raising on everything else; nothing is
checked (`c63_flex_constructor_refuted`). -/
theorem c63_flex_constructor_partial (b : Bytes) :
    (opn b = .ub ∨ ∃ r, opn b = .ok r) ∧
    (opn b = .ub ↔ b.length = 1 ∨ ∃ pre t w, b = pre ++ [t, w] ∧ pre.length < w.toNat) ∧
    (b = [] → opn b = .ok nullRef ∧ reader.AgreesStrictly nullRef .null) := by
  have key : ∀ (pre : Bytes) (t w : UInt8), opn (pre ++ [t, w]) =
      if w.toNat ≤ pre.length then .ok (Ref.ofPacked (pre ++ [t, w]) (pre.length - w.toNat) w.toNat t.toNat) else .ub := by
    intro pre t w
    have e1 : byteAt (pre ++ [t, w]) (pre.length + 1) = .ok w.toNat := by simp [byteAt]
    have e2 : byteAt (pre ++ [t, w]) pre.length = .ok t.toNat := by simp [byteAt]
    rw [opn, if_neg (by simp), getRoot]
    simp only [List.length_append, List.length_cons, List.length_nil, Nat.zero_add, Nat.reduceAdd]
    rw [if_neg (by omega), show pre.length + 2 - 1 = pre.length + 1 by omega, show pre.length + 2 - 2 = pre.length by omega,
      e1, e2]
    simp only [Res.ok_bind, Res.pure_eq]
  have shape : b = [] ∨ (∃ x, b = [x]) ∨ ∃ pre t w, b = pre ++ [t, w] := by
    rcases List.eq_nil_or_concat b with rfl | ⟨l, w, rfl⟩
    · exact .inl rfl
    · rcases List.eq_nil_or_concat l with rfl | ⟨pre, t, rfl⟩
      · exact .inr (.inl ⟨w, rfl⟩)
      · exact .inr (.inr ⟨pre, t, w, by simp⟩)
  refine ⟨?_, ?_, ?_⟩
  · rcases shape with rfl | ⟨x, rfl⟩ | ⟨pre, t, w, rfl⟩
    · exact .inr ⟨_, rfl⟩
    · exact .inl rfl
    · rw [key]
      split
      · exact .inr ⟨_, rfl⟩
      · exact .inl rfl
  · rcases shape with rfl | ⟨x, rfl⟩ | ⟨pre, t, w, rfl⟩
    · refine ⟨fun h => (by cases h), fun h => ?_⟩
      rcases h with h | ⟨pre, t, w, h, _⟩
      · cases h
      · simp at h
    · exact ⟨fun _ => .inl rfl, fun _ => rfl⟩
    · rw [key]
      constructor
      · intro h
        split at h
        · cases h
        · exact .inr ⟨pre, t, w, rfl, by omega⟩
      · rintro (h | ⟨pre', t', w', h, hl⟩)
        · simp only [List.length_append, List.length_cons, List.length_nil] at h; omega
        · obtain ⟨rfl, h2⟩ := List.append_inj' h rfl
          simp only [List.cons.injEq, and_true] at h2
          obtain ⟨rfl, rfl⟩ := h2
          rw [if_neg (by omega)]
  · rintro rfl
    exact ⟨rfl, .null ⟨rfl, rfl, ⟨_, _, rfl, rfl, rfl⟩, rfl, rfl, rfl, rfl, rfl⟩⟩

/-! ### C64: typed vectors -/

/-- C64 is false: a typed vector (as other flexbuffers writers produce; of integers, unsigned integers, doubles, keys and
strings, 11 to 15, fixed-size ones, 16 to 24, and of bools, 36) is an array, but of size 0: its elements cannot be
reached, in any buffer. -/
theorem c64_flex_typed_vector_refuted {r : Ref} (h' : 11 ≤ r.ty ∧ r.ty ≤ 24 ∨ r.ty = 36) :
    reader.isArray r = .ok true ∧ reader.arraySize r = .ok 0 ∧ ∀ i, reader.getIdx r i = .err .deser := by
  have h : typedType r.ty = true := by
    simp only [typedType, Bool.or_eq_true, Bool.and_eq_true, decide_eq_true_eq]
    omega
  have h9 : r.ty ≠ 9 := fun e => by rw [e] at h; cases h
  have h10 : r.ty ≠ 10 := fun e => by rw [e] at h; cases h
  have ha : isArray r = true := by simp [isArray, isMap, h, h9]
  have hv : r.vector = .ok (0, 0) := by rw [Ref.vector, if_neg (by omega)]; rfl
  refine ⟨congrArg Res.ok ha, ?_, fun i => ?_⟩
  · show arraySize r = _
    rw [arraySize, ha, hv]; rfl
  · show getIdx r i = _
    rw [getIdx, ha, hv]; rfl

/-- C64: arrays are these types and no others. -/
theorem c64_flex_arrays (r : Ref) : reader.isArray r = .ok true ↔ r.ty = 10 ∨ 11 ≤ r.ty ∧ r.ty ≤ 24 ∨ r.ty = 36 := by
  show Res.ok (isArray r) = _ ↔ _
  rw [Res.ok.injEq]
  simp only [isArray, isMap, typedType, Bool.or_eq_true, Bool.and_eq_true, Bool.not_eq_true', decide_eq_true_eq, decide_eq_false_iff_not]
  omega

/-- The type of the root. -/
theorem opn_finishRoot_ty (b : Bytes) {v : BV} (hv : v.w ≤ 3) (ht : v.ty < 64) : ∃ r, opn (finishRoot b v) = .ok r ∧ r.ty = v.ty := by
  have hw := elemWidth_le3 hv b.length 0
  unfold finishRoot
  simp only
  generalize v.elemWidth b.length 0 = bit at hw
  have hbl := bytes_length v (align b (2 ^ bit)).length (2 ^ bit)
  have hW8 : 2 ^ bit ≤ 2 ^ 3 := Nat.pow_le_pow_right (by decide) hw
  generalize align b (2 ^ bit) = A at hbl
  generalize v.bytes A.length (2 ^ bit) = V at hbl
  have hfl : (A ++ V ++ [UInt8.ofNat (v.packed 0), UInt8.ofNat (2 ^ bit)]).length = A.length + 2 ^ bit + 2 := by
    simp [hbl]; omega
  have hend : At (A ++ V ++ [UInt8.ofNat (v.packed 0), UInt8.ofNat (2 ^ bit)]) (A ++ V).length
      [UInt8.ofNat (v.packed 0), UInt8.ofNat (2 ^ bit)] := At.self_end _ _
  have hav : (A ++ V).length = A.length + 2 ^ bit := by rw [List.length_append, hbl]
  rw [hav] at hend
  have b0 := hend.byteAt (i := 0) (by simp)
  have b1 := hend.byteAt (i := 1) (by simp)
  simp only [List.getElem_cons_zero, List.getElem_cons_succ, Nat.add_zero] at b0 b1
  have hwn : (UInt8.ofNat (2 ^ bit)).toNat = 2 ^ bit := by
    rw [UInt8.toNat_ofNat']; omega
  rw [hwn] at b1
  have e1 : A.length + 2 ^ bit + 2 - 1 = A.length + 2 ^ bit + 1 := by omega
  have e2 : A.length + 2 ^ bit + 2 - 2 = A.length + 2 ^ bit := by omega
  refine ⟨Ref.ofPacked (A ++ V ++ [UInt8.ofNat (v.packed 0), UInt8.ofNat (2 ^ bit)]) A.length (2 ^ bit)
    (UInt8.ofNat (v.packed 0)).toNat, ?_, by
      have := packed_split hv (c := 0) (by omega) ht
      show (UInt8.ofNat (v.packed 0)).toNat / 4 = v.ty
      rw [this.1]; exact this.2.1⟩
  rw [opn, if_neg (by simp), getRoot, hfl, if_neg (by omega), e1, e2, b0, b1]
  simp only [Res.ok_bind]
  rw [if_pos (by omega)]
  simp only [Res.pure_eq, Nat.add_sub_cancel]

/-- C64 is false, on documents: whatever (and however many) signed integers a flexbuffers builder has put into a typed
vector, the reader shows an array without elements. -/
theorem c64_flex_typed_written_refuted (i : Int64) (is : List Int64) :
    ∃ r, (let vals := (i :: is).map fun i => (⟨1, i.toUInt64.toNat, widthI i.toUInt64.toNat⟩ : BV)
      let c := createVector [] vals vals.length 1 true none
      opn (finishRoot c.1 c.2)) = .ok r ∧
    reader.isArray r = .ok true ∧ reader.arraySize r = .ok 0 ∧ ∀ j, reader.getIdx r j = .err .deser := by
  simp only
  generalize hv : ((i :: is).map fun i => (⟨1, i.toUInt64.toNat, widthI i.toUInt64.toNat⟩ : BV)) = vals
  have hw : ∀ v ∈ vals, v.w ≤ 3 := by
    subst hv
    intro v h
    obtain ⟨i, _, rfl⟩ := List.mem_map.1 h
    show widthI _ ≤ 3
    unfold widthI
    split <;> exact widthU_le3 _
  have ht : (createVector [] vals vals.length 1 true none).2.ty = 11 := by subst hv; rfl
  have hw' : (createVector [] vals vals.length 1 true none).2.w ≤ 3 := by
    simp only [createVector]
    exact Nat.max_le.2 ⟨widthU_le3 _, widest_le3 _ _ _ _ hw⟩
  obtain ⟨r, h1, h2⟩ := opn_finishRoot_ty (createVector [] vals vals.length 1 true none).1 hw' (by omega)
  exact ⟨r, h1, c64_flex_typed_vector_refuted (.inl (by omega))⟩

/-- The vector of integers [1, 2, 3] as flexbuffers writes it with type information. -/
example : (opn [3, 1, 2, 3, 3, 44, 1] >>= fun r => .ok r.ty) = .ok 11 := by decide +kernel

/-- C64 for untyped vectors: all elements are reached. Missing: typed vectors. -/
theorem c64_flex_untyped_vector_partial {r : Ref} {xs : List Doc} (h : Holds r (.vec xs)) :
    reader.isArray r = .ok true ∧ reader.arraySize r = .ok xs.length ∧
    (∀ i (hi : i < xs.length), ∃ c, reader.getIdx r i = .ok c ∧ Holds c xs[i]) ∧
    ∀ i, xs.length ≤ i → reader.getIdx r i = .err .deser := by
  refine ⟨congrArg Res.ok h.same.isArray, h.same.arraySize, fun i hi => ?_, fun i hi => ?_⟩
  · have hr := h.same.getIdx i
    have e : Doc.getIdx (.vec xs) i = .ok xs[i] := by simp [Doc.getIdx, Doc.isArray, Doc.elems, hi]
    rw [e] at hr
    exact hr.ok_right
  · have hr := h.same.getIdx i
    have e : Doc.getIdx (.vec xs) i = .err .deser := by simp [Doc.getIdx, Doc.isArray, Doc.elems, hi]
    rw [e] at hr
    exact hr.err_right

/-! ### C11, C59: integer accessors -/

/-- C11 is false for Flex: 300 reads as 44 through `asInt8` or `asUInt8`. -/
theorem c11_flex_narrow_refuted :
    (proto std false).serialize (.int 300) = .ok [44, 1, 5, 2] ∧ (opn [44, 1, 5, 2] >>= asIntN 8) = .ok 44 ∧
    (proto std false).serialize (.uint 300) = .ok [44, 1, 9, 2] ∧ (opn [44, 1, 9, 2] >>= asUIntN 8) = .ok 44 := by
  decide +kernel

/-- C11 for Flex, any bytes: where the 64-bit accessor returns a number, the narrow one returns it
exactly if it fits, and reduced modulo 2^w otherwise. Missing: raising on numbers that do not fit
(`c11_flex_narrow_refuted`). -/
theorem c11_flex_narrow_partial {w : Nat} (hw1 : 1 ≤ w) (r : Ref) :
    (∀ i : Int64, asInt64 r = .ok i →
      (-(2 ^ (w - 1) : Int) ≤ i.toInt → i.toInt < 2 ^ (w - 1) → asIntN w r = .ok i.toInt) ∧
      ∃ y, asIntN w r = .ok y ∧ (2 ^ w : Int) ∣ i.toInt - y) ∧
    (∀ n : UInt64, asUInt64 r = .ok n → (n.toNat < 2 ^ w → asUIntN w r = .ok n.toNat) ∧
      ∃ y : Nat, asUIntN w r = .ok y ∧ (2 ^ w : Int) ∣ n.toNat - y) := by
  have h2 : (2 : Int) ^ w = 2 * 2 ^ (w - 1) := by
    obtain ⟨k, rfl⟩ : ∃ k, w = k + 1 := ⟨w - 1, by omega⟩
    rw [Int.pow_succ]; simp; omega
  have h3 : ((2 ^ w : Nat) : Int) = 2 ^ w := by norm_cast
  refine ⟨fun i hi => ?_, fun n hn => ?_⟩
  · have e : asIntN w r = .ok (i.toInt.bmod (2 ^ w)) := by rw [asIntN, hi]; rfl
    refine ⟨fun a b => ?_, _, e, ?_⟩
    · rw [e, Int.bmod_eq_of_le] <;> rw [h3] <;> omega
    · rw [← h3]
      exact Int.dvd_of_emod_eq_zero (Int.emod_eq_emod_iff_emod_sub_eq_zero.1 (by rw [Int.bmod_emod]))
  · have e : asUIntN w r = .ok (n.toNat % 2 ^ w) := by rw [asUIntN, hn]; rfl
    refine ⟨fun a => ?_, _, e, ?_⟩
    · rw [e, Nat.mod_eq_of_lt a]
    · rw [← h3, Int.natCast_emod]
      exact Int.dvd_of_emod_eq_zero (Int.emod_eq_emod_iff_emod_sub_eq_zero.1 (by rw [Int.emod_emod]))

/-- C59 is false for Flex: 5, written as unsigned, cannot be read as a signed integer, nor the other way
round. -/
theorem c59_flex_int64_refuted :
    (proto std false).serialize (.uint 5) = .ok [5, 8, 1] ∧ (opn [5, 8, 1] >>= asInt64) = .err .deser ∧
    (proto std false).serialize (.int 5) = .ok [5, 4, 1] ∧ (opn [5, 4, 1] >>= asUInt64) = .err .deser := by
  decide +kernel

/-- C59 for Flex: what is returned is the stored number; anything else raises a DeserializationError.
Missing: numbers stored with the other signedness (`c59_flex_int64_refuted`). -/
theorem c59_flex_int64_partial {r : Ref} {d : Doc} (h : Holds r d) :
    ((∃ i, d = .int i ∧ reader.asInt64 r = .ok i) ∨ reader.asInt64 r = .err .deser) ∧
    ((∃ n, d = .uint n ∧ reader.asUInt64 r = .ok n) ∨ reader.asUInt64 r = .err .deser) := by
  show ((∃ i, d = .int i ∧ asInt64 r = _) ∨ asInt64 r = _) ∧ ((∃ n, d = .uint n ∧ asUInt64 r = _) ∨ asUInt64 r = _)
  rw [h.same.asInt64, h.same.asUInt64]
  cases d <;> first
    | exact ⟨.inr rfl, .inr rfl⟩
    | exact ⟨.inl ⟨_, rfl, rfl⟩, .inr rfl⟩
    | exact ⟨.inr rfl, .inl ⟨_, rfl, rfl⟩⟩

/-! ### C27, C28, C29: translation -/

theorem Val.canon_sortKeys : ∀ v : Val, v.sortKeys.canon = v.canon.sortKeys := by
  intro v
  induction v using Val.ind with
  | int i =>
    simp only [Val.sortKeys, Val.canon]
    split <;> rfl
  | arr xs ih =>
    simp only [Val.sortKeys, Val.canon, Val.canonList_eq, Val.sortKeysList_eq, List.map_map]
    congr 1
    exact List.map_congr_left fun x hx => ih x hx
  | map ms ih =>
    simp only [Val.sortKeys, Val.canon, Val.canonEntries_eq, Val.sortKeysEntries_eq]
    congr 1
    rw [List.map_mergeSort (f := fun m : Bytes × Val => (m.1, m.2.canon)) (r := keyLe) (s := keyLe)
      (fun a _ b _ => rfl), List.map_map, List.map_map]
    congr 1
    exact List.map_congr_left fun m hm => by simp [ih m hm]
  | _ => rfl

theorem Val.sortKeys_same {v w : Val} (h : v.Same w) : v.sortKeys.Same w.sortKeys := by
  unfold Val.Same at h ⊢
  rw [Val.canon_sortKeys, h, Val.canon_sortKeys]

theorem nulFree_same {v w : Val} (h : v.Same w) (hw : w.NulFree) : v.NulFree :=
  Val.each_same (fun _ => Iff.rfl) h hw

theorem distinct_canon : ∀ v : Val, v.canon.Distinct ↔ v.Distinct := by
  intro v
  induction v using Val.ind with
  | int i =>
    simp only [Val.canon]
    split <;> exact Iff.rfl
  | arr xs ih =>
    simp only [Val.canon, Val.Distinct, Val.distinctList_iff, Val.canonList_eq, List.mem_map,
      forall_exists_index, and_imp, forall_apply_eq_imp_iff₂]
    exact ⟨fun h x hx => (ih x hx).1 (h x hx), fun h x hx => (ih x hx).2 (h x hx)⟩
  | map ms ih =>
    simp only [Val.canon, Val.Distinct, Val.distinctEntries_iff, Val.canonEntries_keys]
    rw [Val.canonEntries_eq]
    simp only [List.mem_map, forall_exists_index, and_imp, forall_apply_eq_imp_iff₂]
    exact and_congr_right fun _ => ⟨fun h x hx => (ih x hx).1 (h x hx), fun h x hx => (ih x hx).2 (h x hx)⟩
  | _ => exact Iff.rfl

theorem distinct_same {v w : Val} (h : v.Same w) (hw : w.Distinct) : v.Distinct := by
  unfold Val.Same at h
  rw [← distinct_canon, h, distinct_canon]; exact hw

theorem weigh_canon : ∀ v : Val, weigh v.canon = weigh v := by
  intro v
  induction v using Val.ind with
  | int i =>
    simp only [Val.canon]
    split <;> rfl
  | arr xs ih =>
    simp only [Val.canon, weigh, Val.canonList_eq, List.length_map]
    congr 2
    induction xs with
    | nil => rfl
    | cons x xs ih2 =>
      simp only [List.map_cons, weighList, ih x (by simp)]
      rw [ih2 (fun y hy => ih y (by simp [hy]))]
  | map ms ih =>
    simp only [Val.canon, weigh, Val.canonEntries_eq, List.length_map]
    congr 2
    induction ms with
    | nil => rfl
    | cons m ms ih2 =>
      obtain ⟨k, x⟩ := m
      simp only [List.map_cons, weighEntries, ih (k, x) (by simp)]
      rw [ih2 (fun y hy => ih y (by simp [hy]))]
  | _ => rfl

theorem fits_same {v w : Val} (h : v.Same w) (hw : Fits w) : Fits v := by
  unfold Val.Same at h
  unfold Fits at hw ⊢
  rw [← weigh_canon, h, weigh_canon]
  exact hw

/-- The contract of the protocol, for values with sorted keys. -/
theorem proto_roundTrips (H : L.Law) (dbg : Bool) :
    (proto L dbg).RoundTrips True (fun v => v.Distinct ∧ v.NulFree ∧ v.Sorted ∧ Fits v) := by
  intro v b ⟨hd, hn, hs, hf⟩ hb
  obtain ⟨b', r, h1, h2, h3⟩ := c35_flex_round_trip H dbg hd hn hf
  rw [hb] at h1; injection h1 with h1; subst h1
  rw [Val.sortKeys_of_sorted hs] at h3
  exact ⟨r, h2, h3⟩

/-- What comes out when a value is translated into Flex. -/
theorem translate_holds (H : L.Law) (dbg : Bool) {ρ : Type} {R : Reader ρ} {p : Prop} {r : ρ} {v : Val}
    (h : R.AgreesW p r v) (hF : Fits v.firstWins) {f : Nat} (hf : v.depth ≤ f) :
    ∃ v' r', v'.Same v.firstWins ∧ (p → v' = v.firstWins) ∧ (proto L dbg).translate R f r = .ok r' ∧
      Holds r' (toDoc L v') := by
  obtain ⟨v', h1, h2, h3⟩ := writeValue_run v r h
  obtain ⟨b, r', k1, _, k2, k3⟩ := serialize_holds H dbg (fits_same h1 hF)
  refine ⟨v', r', h1, h2, ?_, k3⟩
  have : (proto L dbg).translate R f r = ((proto L dbg).serialize v' >>= opn) := by
    simp only [Proto.translate, Proto.serialize, Proto.bytesOf,
      h3 _ (proto L dbg).writer f hf (proto L dbg).init, bind_assoc]
    rfl
  rw [this, k1]
  exact k2

/-- C27 into Flex from any position of any reader that presents a value with distinct NUL-free keys:
translation succeeds and the result presents the value with sorted keys. -/
theorem c27_to_flex (H : L.Law) (dbg : Bool) {ρ : Type} {R : Reader ρ} {p : Prop} {r : ρ} {v : Val}
    (h : R.AgreesW p r v) (hd : v.Distinct) (hn : v.NulFree) (hF : Fits v) {f : Nat} (hf : v.depth ≤ f) :
    ∃ r', (proto L dbg).translate R f r = .ok r' ∧ reader.Agrees r' v.sortKeys ∧
      (p → reader.AgreesStrictly r' v.sortKeys) := by
  have e := Val.firstWins_of_distinct v hd
  obtain ⟨v', r', h1, h2, h3, h4⟩ := translate_holds H dbg h (by rw [e]; exact hF) hf
  rw [e] at h1 h2
  have ha := Holds.agrees (agrees_doc H v' (distinct_same h1 hd) (nulFree_same h1 hn)) h4
  refine ⟨_, h3, (Reader.AgreesW.agrees ha).same _ (Val.sortKeys_same h1), fun hp => ?_⟩
  rw [← h2 hp]; exact ha

/-- C27 from Flex into any protocol with a round trip: what comes out presents the value with sorted
keys; signedness is kept, so that what is translated is exactly that value. -/
theorem c27_from_flex (H : L.Law) (dbg : Bool) (Q : Proto) {q : Prop} {E : Val → Prop} (hQ : Q.RoundTrips q E)
    {v : Val} (hd : v.Distinct) (hn : v.NulFree) (hF : Fits v) (hE : E v.sortKeys) :
    ∃ b r, (proto L dbg).serialize v = .ok b ∧ opn b = .ok r ∧ ∀ f, v.sortKeys.depth ≤ f →
      Q.translate reader f r = (Q.serialize v.sortKeys >>= Q.opn) ∧
      ∀ r', Q.translate reader f r = .ok r' → Q.reader.AgreesW q r' v.sortKeys := by
  obtain ⟨b, r, h1, h2, h3⟩ := c35_flex_round_trip H dbg hd hn hF
  refine ⟨b, r, h1, h2, fun f hf => ?_⟩
  obtain ⟨v', _, k2, k3⟩ := writeValue_run _ r h3
  have := k2 trivial; subst this
  rw [Val.firstWins_of_distinct _ hd.sortKeys] at k3
  have e : Q.translate reader f r = (Q.serialize v.sortKeys >>= Q.opn) := by
    simp only [Proto.translate, Proto.serialize, Proto.bytesOf, k3 _ Q.writer f hf Q.init, bind_assoc]
  refine ⟨e, fun r' hr => ?_⟩
  rw [e] at hr
  obtain ⟨c, hc, ho⟩ := Res.bind_eq_ok.1 hr
  obtain ⟨r'', ho', ha⟩ := hQ _ c hE hc
  rw [ho] at ho'; injection ho' with ho'; subst ho'
  exact ha

/-- C27 from Flex to ZERA, MessagePack, CBOR and JSON, for a value with sorted keys (for others see
`c27_from_flex`). -/
theorem c27_flex_to_all (H : L.Law) (dbg dbg' : Bool) {T : Json.Text} (J : T.Law) {utf8 : Bytes → Bool}
    {maxDepth fuel : Nat} {v : Val} (hd : v.Distinct) (hn : v.NulFree) (hs : v.Sorted)
    (hF : Fits v) :
    ∃ b r, (proto L dbg).serialize v = .ok b ∧ opn b = .ok r ∧ ∀ f, v.depth ≤ f →
      (∀ c, Zera.proto.serialize v = .ok c →
        ∃ r', Zera.proto.translate reader f r = .ok r' ∧ Zera.reader.AgreesStrictly r' v) ∧
      (v.Sized → v.Below (2 ^ 32 - 5) →
        ∃ c, MsgPack.proto.translate reader f r = .ok c ∧ MsgPack.reader.Agrees c v) ∧
      (v.Small → ∀ c, (Cbor.proto utf8 maxDepth false fuel).serialize v = .ok c → c.length < 2 ^ 64 →
        c.length ≤ fuel →
        (Cbor.proto utf8 maxDepth false fuel).translate reader f r = .ok ⟨c, 0⟩ ∧
        (Cbor.reader false fuel).Agrees ⟨c, 0⟩ v) ∧
      (Json.Textual T v → Json.Plain v → Json.KeysOk v →
        ∃ r', (Json.proto T dbg').translate reader f r = .ok r' ∧ Json.reader.Agrees r' v) := by
  have hD : v.Distinct ∧ v.NulFree ∧ v.Sorted ∧ Fits v := ⟨hd, hn, hs, hF⟩
  obtain ⟨b, r, h1, h2, _⟩ := c35_flex_round_trip H dbg hd hn hF
  have ur : ∀ r', opn b = .ok r' → r' = r := by
    intro r' h; rw [h2] at h; injection h with h; exact h.symm
  refine ⟨b, r, h1, h2, fun f hf => ⟨fun c hc => ?_, fun s1 s2 => ?_, fun sm c hc hl hcf => ?_,
    fun j1 j2 j3 => ?_⟩⟩
  · obtain ⟨b', r', e1, e2, h⟩ := c27_from_flex H dbg Zera.proto Zera.proto_roundTrips hd hn hF trivial
    rw [h1] at e1; injection e1 with e1; subst e1
    obtain rfl := ur r' e2
    rw [Val.sortKeys_of_sorted hs] at h
    obtain ⟨k1, k2⟩ := h f hf
    obtain ⟨z, hz, _⟩ := Zera.proto_roundTrips v c trivial hc
    have e : Zera.proto.translate reader f r' = .ok z := by rw [k1, hc]; exact hz
    exact ⟨z, e, k2 z e⟩
  · obtain ⟨r', hr', h⟩ := MsgPack.c27_to_msgpack (proto L dbg) (proto_roundTrips H dbg) hd hD s1 s2 h1
    obtain rfl := ur r' hr'
    exact h f hf
  · obtain ⟨r', hr', h⟩ := Cbor.c27_to_cbor (proto L dbg) (proto_roundTrips H dbg) hd hD sm h1 hc hl hcf
    obtain rfl := ur r' hr'
    exact h f hf
  · obtain ⟨r', hr', h⟩ := Json.c27_to_json J dbg' (proto L dbg) (proto_roundTrips H dbg) hd hD j1 j2 j3 h1
    obtain rfl := ur r' hr'
    exact h f hf

theorem weighList_eq (xs : List Val) : weighList xs = (xs.map weigh).sum := by
  induction xs with
  | nil => rfl
  | cons x xs ih => simp [weighList, ih]

theorem weighEntries_eq (ms : List (Bytes × Val)) :
    weighEntries ms = (ms.map (fun m => m.1.length + 1 + weigh m.2)).sum := by
  induction ms with
  | nil => rfl
  | cons m ms ih => obtain ⟨k, v⟩ := m; simp [weighEntries, ih]

theorem weigh_sortKeys : ∀ v : Val, weigh v.sortKeys = weigh v := by
  intro v
  induction v using Val.ind with
  | arr xs ih =>
    simp only [Val.sortKeys, weigh, Val.sortKeysList_eq, List.length_map, weighList_eq, List.map_map]
    rw [show xs.map (weigh ∘ Val.sortKeys) = xs.map weigh from List.map_congr_left fun x hx => ih x hx]
  | map ms ih =>
    simp only [Val.sortKeys, weigh, List.length_mergeSort, weighEntries_eq]
    have hp := (List.mergeSort_perm (Val.sortKeysEntries ms) keyLe).map (fun m => m.1.length + 1 + weigh m.2)
    rw [hp.sum_nat, Val.sortKeysEntries_eq, List.map_map, List.length_map]
    rw [show ms.map ((fun m => m.1.length + 1 + weigh m.2) ∘ fun m => (m.1, m.2.sortKeys)) =
      ms.map (fun m => m.1.length + 1 + weigh m.2) from List.map_congr_left fun m hm => by simp [ih m hm]]
  | _ => rfl

theorem fits_sortKeys {v : Val} (h : Fits v) : Fits v.sortKeys := by
  unfold Fits at h ⊢
  rw [weigh_sortKeys]; exact h

/-- C27 into Flex from ZERA, MessagePack, CBOR, JSON and Flex: the result presents the value with sorted
keys. -/
theorem c27_all_to_flex (H : L.Law) (dbg dbg' : Bool) {T : Json.Text} (J : T.Law) {utf8 : Bytes → Bool}
    {maxDepth fuel : Nat} {v : Val} (hd : v.Distinct) (hn : v.NulFree) (hF : Fits v) {f : Nat}
    (hf : v.depth ≤ f) (hf' : v.sortKeys.depth ≤ f) :
    (∀ b, Zera.proto.serialize v = .ok b → ∃ r, Zera.initFrom b = .ok r ∧
      ∃ r', (proto L dbg).translate Zera.reader f r = .ok r' ∧ reader.AgreesStrictly r' v.sortKeys) ∧
    (v.Sized → v.Below (2 ^ 32 - 5) → ∃ b, MsgPack.proto.serialize v = .ok b ∧
      ∃ r', (proto L dbg).translate MsgPack.reader f b = .ok r' ∧ reader.Agrees r' v.sortKeys) ∧
    (v.Small → ∀ b, (Cbor.proto utf8 maxDepth false fuel).serialize v = .ok b → b.length < 2 ^ 64 →
      b.length ≤ fuel →
      ∃ r', (proto L dbg).translate (Cbor.reader false fuel) f ⟨b, 0⟩ = .ok r' ∧ reader.Agrees r' v.sortKeys) ∧
    (Json.Plain v → Json.KeysOk v → ∀ b, (Json.proto T dbg').serialize v = .ok b →
      ∃ r, Json.opn T b = .ok r ∧
        ∃ r', (proto L dbg).translate Json.reader f r = .ok r' ∧ reader.Agrees r' v.sortKeys) ∧
    (∀ b, (proto L dbg').serialize v = .ok b → ∃ r, opn b = .ok r ∧
      ∃ r', (proto L dbg).translate reader f r = .ok r' ∧ reader.AgreesStrictly r' v.sortKeys) := by
  refine ⟨fun b hb => ?_, fun s1 s2 => ⟨_, MsgPack.serialize_eq v, ?_⟩, fun sm b hb hl hbf => ?_,
    fun j1 j2 b hb => ?_, fun b hb => ?_⟩
  · obtain ⟨r, hr, ha⟩ := Zera.proto_roundTrips v b trivial hb
    obtain ⟨r', h1, _, h3⟩ := c27_to_flex H dbg ha hd hn hF hf
    exact ⟨r, hr, r', h1, h3 trivial⟩
  · obtain ⟨r, hr, ha⟩ := MsgPack.proto_roundTrips v _ ⟨s1, s2⟩ (MsgPack.serialize_eq v)
    have : r = MsgPack.pack (emit v) := by injection hr with hr; exact hr.symm
    subst this
    obtain ⟨r', h1, h2, _⟩ := c27_to_flex H dbg ha hd hn hF hf
    exact ⟨r', h1, h2⟩
  · have hD' : Cbor.Dom utf8 maxDepth fuel v := ⟨sm, fun b' hb' => by
      rw [hb] at hb'; injection hb' with hb'; subst hb'; exact ⟨hl, hbf⟩⟩
    obtain ⟨r, hr, ha⟩ := Cbor.proto_roundTrips v b hD' hb
    have : r = ⟨b, 0⟩ := by injection hr with hr; exact hr.symm
    subst this
    obtain ⟨r', h1, h2, _⟩ := c27_to_flex H dbg ha hd hn hF hf
    exact ⟨r', h1, h2⟩
  · obtain ⟨r, hr, ha⟩ := Json.proto_roundTrips J dbg' v b ⟨j1, j2⟩ hb
    obtain ⟨r', h1, h2, _⟩ := c27_to_flex H dbg ha hd hn hF hf
    exact ⟨r, hr, r', h1, h2⟩
  · obtain ⟨b', r, e1, e2, ha⟩ := c35_flex_round_trip H dbg' hd hn hF
    rw [hb] at e1; injection e1 with e1; subst e1
    have hn' : v.sortKeys.NulFree := by
      have : ∀ v : Val, v.NulFree → v.sortKeys.NulFree := by
        intro v
        induction v using Val.ind with
        | arr xs ih =>
          intro h
          simp only [Val.sortKeys, Val.sortKeysList_eq]
          refine ⟨trivial, (Val.eachList_iff _).2 fun x hx => ?_⟩
          rw [List.mem_map] at hx
          obtain ⟨y, hy, rfl⟩ := hx
          exact ih y hy (Val.Each.arr h y hy)
        | map ms ih =>
          intro h
          simp only [Val.sortKeys]
          refine ⟨trivial, (Val.eachEntries_iff _).2 fun m hm => ?_⟩
          rw [(List.mergeSort_perm _ _).mem_iff, Val.sortKeysEntries_eq, List.mem_map] at hm
          obtain ⟨y, hy, rfl⟩ := hm
          exact ⟨(Val.Each.map h y hy).1, ih y hy (Val.Each.map h y hy).2⟩
        | _ => intro _; trivial
      exact this v hn
    obtain ⟨r', h1, _, h3⟩ := c27_to_flex H dbg ha hd.sortKeys hn' (fits_sortKeys hF) hf'
    rw [Val.sortKeys_of_sorted (Val.sorted_sortKeys v)] at h3
    exact ⟨r, e2, r', h1, h3 trivial⟩

example : sampleVal.Distinct ∧ sampleVal.NulFree ∧ Fits sampleVal ∧ sampleVal.depth ≤ 3 ∧ sampleVal.sortKeys.Sorted :=
  ⟨by simp [sampleVal, Val.Distinct, Val.distinctEntries, Val.distinctList],
   by simp [sampleVal, Val.NulFree, Val.Each, Val.eachEntries, Val.eachList], by unfold Fits; decide, by decide,
   Val.sorted_sortKeys _⟩

theorem contains_nul (H : L.Law) (v : Val) {k : Bytes} (hk : (0 : UInt8) ∈ k) :
    Doc.contains (toDoc L v) k = .ok false := by
  cases v with
  | map ms =>
    simp only [toDoc]
    rw [contains_sorted (H.sort_sorted _)]
    have : k ∉ (L.sort (toDocEntries L ms)).map Prod.fst := by
      rw [((H.sort_perm _).map Prod.fst).mem_iff, toDocEntries_eq, List.map_map, List.mem_map]
      rintro ⟨m, _, rfl⟩
      exact cstr_no_nul _ hk
    simp [this]
  | _ => rfl

/-- C27 into Flex is false for every map with a NUL in a key: translation succeeds, and the result does
not present the map, in any order of its entries. -/
theorem c27_flex_nul_refuted (H : L.Law) (dbg : Bool) {ρ : Type} {R : Reader ρ} {p : Prop} {r : ρ}
    {ms : List (Bytes × Val)} (h : R.AgreesW p r (.map ms)) (hF : Fits (Val.map ms).firstWins) {k : Bytes}
    (hk : k ∈ ms.map Prod.fst) (h0 : (0 : UInt8) ∈ k) {f : Nat} (hf : (Val.map ms).depth ≤ f) :
    ∃ r', (proto L dbg).translate R f r = .ok r' ∧
      ∀ ns : List (Bytes × Val), ns.Perm ms → ¬ reader.Agrees r' (.map ns) := by
  obtain ⟨v', r', _, _, h3, h4⟩ := translate_holds H dbg h hF hf
  refine ⟨_, h3, fun ns hp ha => ?_⟩
  cases ha with | map c _ _ h5 _ _ _ =>
  have h6 := h5 k
  rw [show reader.contains r' k = .ok false from (h4.same.contains k).trans (contains_nul H v' h0)] at h6
  simp [((hp.map Prod.fst).mem_iff).2 hk] at h6

example : ∃ b r, Zera.proto.serialize (.map [([0x61, 0, 0x62], .null)]) = .ok b ∧ Zera.initFrom b = .ok r ∧
    Zera.reader.AgreesStrictly r (.map [([0x61, 0, 0x62], .null)]) := by
  obtain ⟨r, h1, h2⟩ := Zera.proto_roundTrips (.map [([0x61, 0, 0x62], .null)]) _ trivial rfl
  exact ⟨_, r, rfl, h1, h2⟩

/-- C28 for Flex sources: on every position that holds a document, `write_value` recurses no deeper than
the size of the document, into any writer whose calls return. -/
theorem c28_flex_source_partial {σ : Type} (W : Writer σ) (hW : ∀ s e, Returns (W.step s e)) {r : Ref} {d : Doc}
    (h : Holds r d) (s : σ) {f : Nat} (hf : sizeOf d < f) : writeValue reader W f r s ≠ .diverge := by
  rw [writeValue_holds W f h]
  exact writeValue_returns Doc.reader_total hW sizeOf (fun _ _ _ _ h => ⟨trivial, Doc.getIdx_size h⟩)
    (fun _ _ _ _ h => ⟨trivial, Doc.getKey_size h⟩) f d s trivial hf

/-- A vector whose only element is the vector itself. -/
def cycleBuf : Bytes := [1, 0, 40, 2, 40, 1]

/-- C28 is false for Flex: on this buffer of six bytes `write_value` calls itself without end, into every
writer that accepts arrays. -/
theorem c28_flex_source_refuted {σ : Type} (W : Writer σ) (hW : ∀ s n, ∃ s', W.step s (.beginArr n) = .ok s') :
    ∃ r, opn cycleBuf = .ok r ∧ ∀ f s, writeValue reader W f r s = .diverge := by
  refine ⟨⟨cycleBuf, 3, 1, 1, 10⟩, by decide +kernel, ?_⟩
  have inner : ∀ f s, writeValue reader W f ⟨cycleBuf, 1, 1, 1, 10⟩ s = .diverge := by
    intro f
    induction f with
    | zero => intro s; rfl
    | succ f ih =>
      intro s
      obtain ⟨s', hs⟩ := hW s 1
      have e1 : arraySize ⟨cycleBuf, 1, 1, 1, 10⟩ = .ok 1 := by decide +kernel
      have e2 : getIdx ⟨cycleBuf, 1, 1, 1, 10⟩ 0 = .ok ⟨cycleBuf, 1, 1, 1, 10⟩ := by decide +kernel
      have : writeValue reader W (f + 1) ⟨cycleBuf, 1, 1, 1, 10⟩ s =
        (arraySize ⟨cycleBuf, 1, 1, 1, 10⟩ >>= fun n => W.step s (.beginArr n) >>= fun s =>
          writeElems reader (writeValue reader W f) ⟨cycleBuf, 1, 1, 1, 10⟩ n 0 s >>= fun s => W.step s .endArr) := rfl
      rw [this, e1]
      simp only [Res.ok_bind, hs, writeElems]
      rw [show reader.getIdx ⟨cycleBuf, 1, 1, 1, 10⟩ 0 = _ from e2]
      simp only [Res.ok_bind, ih, Res.diverge_bind]
  intro f s
  cases f with
  | zero => rfl
  | succ f =>
    obtain ⟨s', hs⟩ := hW s 1
    have e1 : arraySize ⟨cycleBuf, 3, 1, 1, 10⟩ = .ok 1 := by decide +kernel
    have e2 : getIdx ⟨cycleBuf, 3, 1, 1, 10⟩ 0 = .ok ⟨cycleBuf, 1, 1, 1, 10⟩ := by decide +kernel
    have : writeValue reader W (f + 1) ⟨cycleBuf, 3, 1, 1, 10⟩ s =
      (arraySize ⟨cycleBuf, 3, 1, 1, 10⟩ >>= fun n => W.step s (.beginArr n) >>= fun s =>
        writeElems reader (writeValue reader W f) ⟨cycleBuf, 3, 1, 1, 10⟩ n 0 s >>= fun s => W.step s .endArr) := rfl
    rw [this, e1]
    simp only [Res.ok_bind, hs, writeElems]
    rw [show reader.getIdx ⟨cycleBuf, 3, 1, 1, 10⟩ 0 = _ from e2]
    simp only [Res.ok_bind, inner, Res.diverge_bind]

theorem returns_cstrAt (b : Bytes) (p : Nat) : Returns (cstrAt b p) := by
  unfold cstrAt; split
  · exact returns_ok _
  · intro h; cases h

theorem findKey_returns (b : Bytes) (sloc : Nat) : ∀ pool, Returns (findKey b sloc pool)
  | [] => returns_pure _
  | p :: ps => by
    unfold findKey
    refine .bind (returns_cstrAt _ _) fun _ _ => .bind (returns_cstrAt _ _) fun _ _ => ?_
    split
    · exact returns_pure _
    · exact findKey_returns b sloc ps

theorem keyStrings_returns (b : Bytes) : ∀ ps, Returns (keyStrings b ps)
  | [] => returns_pure _
  | p :: ps => .bind (returns_cstrAt _ _) fun _ _ => .bind (keyStrings_returns b ps) fun _ _ => returns_pure _

theorem step_returns (dbg : Bool) (s : RS) (e : Ev) : Returns (step L dbg s e) := by
  have hb : ∀ b vs, Returns (buildMap L dbg b vs) := by
    intro b vs
    unfold buildMap
    split
    · exact returns_err _
    · refine .bind ?_ fun _ _ => returns_pure _
      unfold sortPairs
      split
      · exact returns_pure _
      · exact .bind (keyStrings_returns _ _) fun _ _ => returns_pure _
  cases e <;> simp only [step]
  all_goals first
    | exact returns_ok _
    | skip
  · refine .bind (.bind (findKey_returns _ _ _) fun o _ => ?_) fun _ _ => returns_pure _
    cases o <;> exact returns_pure _
  · unfold endArr; split <;> first | exact returns_ok _ | exact returns_err _
  · unfold endMap; split
    · exact .bind (hb _ _) fun _ _ => returns_pure _
    · exact returns_err _

theorem returns_opn (b : Bytes) : Returns (opn b) := by
  unfold opn
  split
  · exact returns_ok _
  · unfold getRoot
    split
    · intro h; cases h
    · refine .bind (returns_byteAt _ _) fun _ _ => .bind (returns_byteAt _ _) fun _ _ => ?_
      split
      · exact returns_pure _
      · intro h; cases h

theorem finish_returns (dbg : Bool) (s : RS) : Returns (finish dbg s >>= opn) := by
  refine .bind ?_ fun b _ => returns_opn b
  intro h
  unfold finish at h
  generalize (if s.wrote then s.stack else s.stack ++ [⟨0, 0, 0⟩]) = st at h
  simp only at h
  split at h
  · cases h
  · cases st <;> cases h

/-- C28 for Flex to every protocol, and for MessagePack and JSON to Flex. -/
theorem c28_flex_to_all_partial (dbg dbg' : Bool) {T : Json.Text} {utf8 : Bytes → Bool} {maxDepth fuel : Nat} {r : Ref}
    {d : Doc} (h : Holds r d) {f : Nat} (hf : sizeOf d < f) :
    Zera.proto.translate reader f r ≠ .diverge ∧ MsgPack.proto.translate reader f r ≠ .diverge ∧
    (Cbor.proto utf8 maxDepth false fuel).translate reader f r ≠ .diverge ∧
    (Json.proto T dbg').translate reader f r ≠ .diverge ∧ (proto L dbg).translate reader f r ≠ .diverge ∧
    (∀ (b : Bytes) (g : Nat), b.length < g → (proto L dbg).translate MsgPack.reader g b ≠ .diverge) ∧
    (∀ (j : Val) (g : Nat), j.depth < g → (proto L dbg).translate Json.reader g j ≠ .diverge) := by
  have hfin : ∀ s, Returns (Json.finish T s >>= Json.opn T) := by
    intro s
    refine .bind ?_ fun _ _ => ?_
    · unfold Json.finish; split <;> first | exact returns_ok _ | exact returns_err _
    · unfold Json.opn; split <;> first | exact returns_ok _ | exact returns_err _
  refine ⟨?_, ?_, ?_, ?_, ?_, fun b g hg => ?_, fun j g hg => ?_⟩
  · exact Returns.bind (c28_flex_source_partial Zera.writer MsgPack.zeraStep_returns h _ hf)
      fun s _ => MsgPack.zeraFinish_returns s
  · exact Returns.bind (c28_flex_source_partial MsgPack.writer (fun _ _ => returns_ok _) h _ hf)
      fun s _ => Returns.bind (returns_ok _) fun _ _ => returns_ok _
  · exact Returns.bind (c28_flex_source_partial (Cbor.writer utf8 maxDepth) Cbor.step_returns h _ hf)
      fun s _ => Returns.bind (returns_ok _) fun _ _ => returns_ok _
  · exact Returns.bind (c28_flex_source_partial (Json.writer dbg') (Json.step_returns dbg') h _ hf) fun s _ => hfin s
  · exact Returns.bind (c28_flex_source_partial (writer L dbg) (step_returns dbg) h _ hf) fun s _ => finish_returns dbg s
  · exact Returns.bind (MsgPack.c28_msgpack_source (writer L dbg) (step_returns dbg) b _ hg)
      fun s _ => finish_returns dbg s
  · exact Returns.bind (Json.c28_json_source (writer L dbg) (step_returns dbg) j _ hg)
      fun s _ => finish_returns dbg s

/-- C29 for Flex sources: every unsigned integer is translated as itself, into any protocol with a round
trip. -/
theorem c29_flex_uint (H : L.Law) (dbg : Bool) (Q : Proto) {q : Prop} {E : Val → Prop} (hQ : Q.RoundTrips q E)
    (n : UInt64) (hE : E (.uint n)) :
    ∃ b r, (proto L dbg).serialize (.uint n) = .ok b ∧ opn b = .ok r ∧
      Q.translate reader 1 r = (Q.serialize (.uint n) >>= Q.opn) ∧
      ∀ r', Q.translate reader 1 r = .ok r' → Q.reader.AgreesW q r' (.uint n) := by
  obtain ⟨b, r, h1, h2, h3⟩ := c27_from_flex H dbg Q hQ (v := .uint n) trivial trivial (show 0 + 17 < 2 ^ 64 by decide) hE
  exact ⟨b, r, h1, h2, h3 1 (Nat.le_refl _)⟩

/-- C29 into Flex: the unsigned integers of every reader that presents them arrive as the same number. -/
theorem c29_to_flex (H : L.Law) (dbg : Bool) {ρ : Type} {R : Reader ρ} {p : Prop} {r : ρ} {n : UInt64}
    (h : R.AgreesW p r (.uint n)) :
    ∃ r', (proto L dbg).translate R 1 r = .ok r' ∧ reader.ShowsInt r' (n.toNat : Int) := by
  obtain ⟨r', h1, h2, _⟩ := c27_to_flex H dbg h trivial trivial (show 0 + 17 < 2 ^ 64 by decide) (Nat.le_refl _)
  refine ⟨r', h1, ?_⟩
  cases h2 with | uint h3 _ => exact h3

/-! ### C53, C54, C55 -/

/-- C53 for Flex: a serialization without any call reads as null. -/
theorem c53_flex_empty (H : L.Law) (dbg : Bool) :
    ∃ b r, (proto L dbg).bytesOf [] = .ok b ∧ opn b = .ok r ∧ reader.AgreesStrictly r .null :=
  bytesOf_agrees H dbg (v := .null) rfl trivial trivial (show 0 + 17 < 2 ^ 64 by decide)

/-- How many kinds a position has. -/
def kinds (r : Ref) : Nat :=
  ([isNull r, isBool r, isInt r, isUInt r, isFloat r, isString r, isBlob r, isMap r, isArray r].filter id).length

/-- C54 for Flex, any bytes: no position has two kinds (isInt and isUInt counted separately). -/
theorem c54_flex_kinds_any (r : Ref) : kinds r ≤ 1 := by
  obtain ⟨b, p, pw, bw, ty⟩ := r
  by_cases h : ty < 37
  · have := List.all_eq_true.1 (show (List.range 37).all (fun t => decide (kinds ⟨[], 0, 0, 0, t⟩ ≤ 1)) = true by decide) ty
      (List.mem_range.2 h)
    exact of_decide_eq_true this
  · have hn : ∀ t, t < 37 → (decide (ty = t)) = false := fun t ht => decide_eq_false (by omega)
    have h2 : typedType ty = false := by
      simp only [typedType, Bool.or_eq_false_iff, Bool.and_eq_false_iff, decide_eq_false_iff_not]
      omega
    simp only [kinds, isNull, isBool, isInt, isUInt, isFloat, isString, isBlob, isMap, isArray, h2, hn _ (by decide : (0:Nat) < 37),
      hn _ (by decide : (1:Nat) < 37), hn _ (by decide : (2:Nat) < 37), hn _ (by decide : (3:Nat) < 37),
      hn _ (by decide : (5:Nat) < 37), hn _ (by decide : (6:Nat) < 37), hn _ (by decide : (7:Nat) < 37),
      hn _ (by decide : (8:Nat) < 37), hn _ (by decide : (9:Nat) < 37), hn _ (by decide : (10:Nat) < 37),
      hn _ (by decide : (25:Nat) < 37), hn _ (by decide : (26:Nat) < 37)]
    decide

theorem reach_toDoc (H : L.Law) {v : Val} {e : Doc} (h0 : Doc.reader.Reach (toDoc L v) e) : ∃ w, e = toDoc L w := by
  suffices h : ∀ d e, Doc.reader.Reach d e → (∃ v, d = toDoc L v) → ∃ w, e = toDoc L w from h _ _ h0 ⟨v, rfl⟩
  intro r d hr h
  induction hr with
  | refl => exact h
  | idx i _ hc ih =>
    obtain ⟨w, rfl⟩ := ih
    obtain ⟨xs, e, hx⟩ := Doc.getIdx_mem hc
    cases w with
    | arr ys =>
      simp only [toDoc, toDocList_eq, Doc.vec.injEq] at e
      subst e
      have := List.mem_of_getElem? hx
      rw [List.mem_map] at this
      obtain ⟨y, _, rfl⟩ := this
      exact ⟨y, rfl⟩
    | _ => cases e
  | key k _ hc ih =>
    obtain ⟨w, rfl⟩ := ih
    obtain ⟨ms, e, hx⟩ := Doc.getKey_mem hc
    cases w with
    | map ns =>
      simp only [toDoc, Doc.map.injEq] at e
      subst e
      rw [(H.sort_perm _).mem_iff, toDocEntries_eq, List.mem_map] at hx
      obtain ⟨m, _, e⟩ := hx
      injection e with _ e
      exact ⟨m.2, e.symm⟩
    | _ => cases e

/-- C54 for Flex: of everything the writer produced from a value, exactly one kind holds, at the root and
at every position reached from it. -/
theorem c54_flex_kinds (H : L.Law) (dbg : Bool) {v : Val} (hf : Fits v) :
    ∃ b r, (proto L dbg).serialize v = .ok b ∧ opn b = .ok r ∧ ∀ c, reader.Reach r c → kinds c = 1 := by
  obtain ⟨b, r, h1, _, h2, h3⟩ := serialize_holds H dbg hf
  refine ⟨b, r, h1, h2, fun c hc => ?_⟩
  obtain ⟨e, he, hr⟩ := h3.reach hc
  obtain ⟨w, rfl⟩ := reach_toDoc H hr
  have hs := he.same
  simp only [kinds, hs.isNull, hs.isBool, hs.isInt, hs.isUInt, hs.isFloat, hs.isString, hs.isBlob, hs.isMap,
    hs.isArray]
  cases w <;> rfl

/-- C55 for Flex, any bytes: an accessor of the wrong kind raises a DeserializationError (`contains`
answers false), without reading anything. -/
theorem c55_flex_wrong_kind (r : Ref) :
    (isBool r = false → asBool r = .err .deser) ∧
    (isInt r = false → asInt64 r = .err .deser ∧ ∀ w, asIntN w r = .err .deser) ∧
    (isUInt r = false → asUInt64 r = .err .deser ∧ ∀ w, asUIntN w r = .err .deser) ∧
    (isFloat r = false → asDouble r = .err .deser) ∧
    (isString r = false → asString r = .err .deser) ∧
    (isBlob r = false → asBlob r = .err .deser) ∧
    (isArray r = false → arraySize r = .err .deser ∧ ∀ i, getIdx r i = .err .deser) ∧
    (isMap r = false → mapKeys r = .err .deser ∧ ∀ k, getKey r k = .err .deser ∧ contains r k = .ok false) := by
  refine ⟨fun h => ?_, fun h => ?_, fun h => ?_, fun h => ?_, fun h => ?_, fun h => ?_, fun h => ?_, fun h => ?_⟩
  · rw [asBool, h]; rfl
  · have e : asInt64 r = .err .deser := by rw [asInt64, h]; rfl
    exact ⟨e, fun w => by rw [asIntN, e]; rfl⟩
  · have e : asUInt64 r = .err .deser := by rw [asUInt64, h]; rfl
    exact ⟨e, fun w => by rw [asUIntN, e]; rfl⟩
  · rw [asDouble, h]; rfl
  · rw [asString, h]; rfl
  · rw [asBlob, h]; rfl
  · exact ⟨by rw [arraySize, h]; rfl, fun i => by rw [getIdx, h]; rfl⟩
  · exact ⟨by rw [mapKeys, h]; rfl, fun k => ⟨by rw [getKey, h]; rfl, by rw [contains, h]; rfl⟩⟩

example : (opn [1, 1, 8, 3, 40, 1] >>= fun r => .ok (isMap r, isInt r)) = .ok (false, false) := by decide +kernel

/-! ### C30: repeated keys -/

/-- C30 for Flex: whatever is written, repeated keys included, looking up a key that was written
returns a value that was written under it, and a key that was not written is not found. Missing: which
of the values it is (the sort is not stable). -/
theorem c30_flex_repeated_partial (H : L.Law) (dbg : Bool) {ms : List (Bytes × Val)}
    (hn : ∀ m ∈ ms, (0 : UInt8) ∉ m.1) (hf : Fits (.map ms)) :
    ∃ b r, (proto L dbg).serialize (.map ms) = .ok b ∧ opn b = .ok r ∧
      (∀ k, reader.contains r k = .ok (decide (k ∈ ms.map Prod.fst))) ∧
      (∀ k, k ∈ ms.map Prod.fst → ∃ v c, (k, v) ∈ ms ∧ reader.getKey r k = .ok c ∧ Holds c (toDoc L v)) ∧
      ∀ k, k ∉ ms.map Prod.fst → reader.getKey r k = .err .deser := by
  obtain ⟨b, r, h1, _, h2, h3⟩ := serialize_holds H dbg hf
  refine ⟨b, r, h1, h2, ?_⟩
  have hmem : ∀ k d, (k, d) ∈ L.sort (toDocEntries L ms) ↔ ∃ v, (k, v) ∈ ms ∧ d = toDoc L v := by
    intro k d
    rw [(H.sort_perm _).mem_iff, toDocEntries_eq, List.mem_map]
    constructor
    · rintro ⟨m, hm, e⟩
      injection e with e1 e2
      rw [cstr_of_no_nul (hn m hm)] at e1
      subst e1
      exact ⟨m.2, hm, e2.symm⟩
    · rintro ⟨v, hm, rfl⟩
      exact ⟨(k, v), hm, by rw [cstr_of_no_nul (hn _ hm)]⟩
  have hkey : ∀ k, k ∈ (L.sort (toDocEntries L ms)).map Prod.fst ↔ k ∈ ms.map Prod.fst := by
    intro k
    simp only [List.mem_map, Prod.exists, exists_and_right, exists_eq_right, hmem]
    constructor
    · rintro ⟨_, v, h, _⟩; exact ⟨v, h⟩
    · rintro ⟨v, h⟩; exact ⟨_, v, h, rfl⟩
  have hl := fun k => c34_flex_lookup (show Holds r (.map (L.sort (toDocEntries L ms))) from h3) (H.sort_sorted _) k
  refine ⟨fun k => ?_, fun k hk => ?_, fun k hk => ?_⟩
  · rw [(hl k).1]
    simp only [hkey]
  · obtain ⟨c, d, k1, k2, k3⟩ := (hl k).2.1 ((hkey k).2 hk)
    obtain ⟨v, hv, rfl⟩ := (hmem _ _).1 k3
    exact ⟨v, c, hv, k1, k2⟩
  · exact (hl k).2.2 (fun h => hk ((hkey k).1 h))

end Zer.Flex
