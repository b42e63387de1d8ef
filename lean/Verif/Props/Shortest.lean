import Verif.Props.Transcode

/-!
# Property C90: the shortest encoding

How far the bytes of the writers are from the shortest encoding the format permits.
-/

namespace Zer

/-! ## Every half is a single -/

theorem widen32_mkDouble (neg : Bool) {mant p : Nat} (h0 : 0 < mant) (hk : Nat.log2 mant ≤ 23) (h1 : 948 ≤ p + Nat.log2 mant)
    (h2 : p + Nat.log2 mant ≤ 1200) : ∃ f, f < 2 ^ 32 ∧ widen32 f = mkDouble neg mant p := by
  obtain ⟨hl, hu⟩ := log2_bounds h0
  unfold mkDouble
  simp only
  generalize Nat.log2 mant = k at *
  have e1 : 2 ^ k * 2 ^ (23 - k) = 2 ^ 23 := by rw [← Nat.pow_add]; congr 1; omega
  have e2 : 2 ^ (k + 1) * 2 ^ (23 - k) = 2 ^ 24 := by rw [← Nat.pow_add]; congr 1; omega
  have e3 : mant * 2 ^ (52 - k) = mant * 2 ^ (23 - k) * 2 ^ 29 := by
    rw [Nat.mul_assoc, ← Nat.pow_add]; congr 2; omega
  have l1 : 2 ^ 23 ≤ mant * 2 ^ (23 - k) := e1 ▸ Nat.mul_le_mul_right _ hl
  have l2 : mant * 2 ^ (23 - k) < 2 ^ 24 := e2 ▸ Nat.mul_lt_mul_of_pos_right hu (Nat.pow_pos (by omega))
  rw [e3]
  generalize mant * 2 ^ (23 - k) = m at *
  refine ⟨(if neg then 2 ^ 31 else 0) + (p + k - 947) * 2 ^ 23 + (m - 2 ^ 23), ?_, ?_⟩
  · cases neg <;> simp only [Bool.false_eq_true, if_false, if_true] <;> omega
  · rw [widen32_normal neg _ _ (by omega) (by omega) (by omega)]
    cases neg <;> simp only [Bool.false_eq_true, if_false, if_true] <;> omega

theorem half_is_single (h : Nat) : ∃ f, f < 2 ^ 32 ∧ widen32 f = decodeF16 h := by
  unfold decodeF16
  simp only
  generalize decide (h / 2 ^ 15 % 2 = 1) = neg
  have hm : h % 2 ^ 10 < 2 ^ 10 := Nat.mod_lt _ (by omega)
  have he : h / 2 ^ 10 % 2 ^ 5 < 2 ^ 5 := Nat.mod_lt _ (by omega)
  generalize h % 2 ^ 10 = m at *
  generalize h / 2 ^ 10 % 2 ^ 5 = e at *
  split
  · split
    · exact ⟨_, by cases neg <;> decide, widen32_zero neg⟩
    · have := log2_lt_of hm (by omega)
      exact widen32_mkDouble neg (by omega) (by omega) (by omega) (by omega)
  split
  · split
    · exact ⟨0x7fc00000, by decide, by decide +kernel⟩
    · exact ⟨_, by cases neg <;> decide, widen32_inf neg⟩
  · have hl : Nat.log2 (1024 + m) = 10 := log2_eq_of (by omega) (by omega)
    exact widen32_mkDouble neg (by omega) (by omega) (by omega) (by omega)

namespace MsgPack

/-! ## MessagePack -/

open Classical in
mutual
/-- Doubles inside a value that are also singles. -/
noncomputable def singles : Val → Nat
  | .dbl d => if ∃ f, f < 2 ^ 32 ∧ widen32 f = d.toNat then 1 else 0
  | .arr xs => singlesList xs
  | .map ms => singlesEntries ms
  | _ => 0
noncomputable def singlesList : List Val → Nat
  | [] => 0
  | x :: xs => singles x + singlesList xs
noncomputable def singlesEntries : List (Bytes × Val) → Nat
  | [] => 0
  | (_, x) :: ms => singles x + singlesEntries ms
end

theorem packStrHead_le {n : Nat} {h : Bytes} (H : StrHead n h) : (packStrHead n).length ≤ h.length := by
  unfold packStrHead
  cases H <;> simp only [List.length_cons, be_length, List.length_nil] <;> repeat' split
  all_goals (simp only [List.length_cons, beBytes_one, beBytes_two, beBytes_four, be_length, List.length_nil]; omega)

theorem packBinHead_le {n : Nat} {h : Bytes} (H : BinHead n h) : (packBinHead n).length ≤ h.length := by
  unfold packBinHead
  cases H <;> simp only [List.length_cons, be_length, List.length_nil] <;> repeat' split
  all_goals (simp only [List.length_cons, beBytes_one, beBytes_two, beBytes_four, be_length, List.length_nil]; omega)

theorem packArrHead_le {n : Nat} {h : Bytes} (H : ArrHead n h) : (packArrHead n).length ≤ h.length := by
  unfold packArrHead
  cases H <;> simp only [List.length_cons, be_length, List.length_nil] <;> repeat' split
  all_goals (simp only [List.length_cons, beBytes_two, beBytes_four, be_length, List.length_nil]; omega)

theorem packMapHead_le {n : Nat} {h : Bytes} (H : MapHead n h) : (packMapHead n).length ≤ h.length := by
  unfold packMapHead
  cases H <;> simp only [List.length_cons, be_length, List.length_nil] <;> repeat' split
  all_goals (simp only [List.length_cons, beBytes_two, beBytes_four, be_length, List.length_nil]; omega)

theorem packInt_le {z : Int} {b : Bytes} (H : EncInt z b) : (packInt z).length ≤ b.length := by
  unfold packInt packUInt
  cases H <;> simp only [List.length_cons, be_length, List.length_nil] <;> repeat' split
  all_goals (simp only [List.length_cons, beBytes_one, beBytes_two, beBytes_four, beBytes_eight, be_length, List.length_nil]; omega)

theorem packUInt_le {n : Nat} {b : Bytes} (H : EncInt n b) : (packUInt n).length ≤ b.length := by
  have := packInt_le H
  rwa [packInt, if_neg (by omega), if_neg (by omega), Int.toNat_natCast] at this

mutual
theorem pack_le : ∀ (v : Val) {b : Bytes}, Enc v b → (pack (emit v)).length ≤ b.length + 4 * singles v
  | .null, b, h => by simp only [Enc] at h; subst h; simp [pack, emit, packEv]
  | .bool x, b, h => by simp only [Enc] at h; subst h; simp [pack, emit, packEv]
  | .int i, b, h => by
    have := packInt_le (show EncInt i.toInt b from h)
    simp [pack, emit, packEv]; omega
  | .uint n, b, h => by
    have := packUInt_le (show EncInt n.toNat b from h)
    simp [pack, emit, packEv]; omega
  | .dbl d, b, h => by
    simp only [Enc] at h
    simp only [pack, emit, packEv, beBytes_eight, List.map_cons, List.map_nil, List.flatten_cons, List.flatten_nil, List.append_nil,
      List.length_cons, be_length, singles]
    cases h with
    | f64 => simp only [List.length_cons, be_length]; omega
    | f32 h1 h2 => rw [if_pos ⟨_, h1, h2⟩]; simp only [List.length_cons, be_length]; omega
  | .str s, b, h => by
    obtain ⟨hd, h1, rfl⟩ := h
    have := packStrHead_le h1
    simp [pack, emit, packEv]; omega
  | .blob s, b, h => by
    obtain ⟨hd, h1, rfl⟩ := h
    have := packBinHead_le h1
    simp [pack, emit, packEv]; omega
  | .arr xs, b, h => by
    obtain ⟨hd, cs, h1, h2, rfl⟩ := h
    have := packArrHead_le h1
    have := packList_le xs h2
    have e : pack (emit (.arr xs)) = packArrHead xs.length ++ pack (emitList xs) := by simp [pack, emit, packEv]
    rw [e]; simp only [List.length_append, singles]; omega
  | .map ms, b, h => by
    obtain ⟨hd, cs, h1, h2, rfl⟩ := h
    have := packMapHead_le h1
    have := packEntries_le ms h2
    have e : pack (emit (.map ms)) = packMapHead ms.length ++ pack (emitEntries ms) := by simp [pack, emit, packEv]
    rw [e]; simp only [List.length_append, singles]; omega
theorem packList_le : ∀ (xs : List Val) {cs : List Bytes}, EncList xs cs →
    (pack (emitList xs)).length ≤ cs.flatten.length + 4 * singlesList xs
  | [], cs, h => by simp only [EncList] at h; subst h; simp [pack, emitList]
  | x :: xs, cs, h => by
    obtain ⟨c, cs', h1, h2, rfl⟩ := h
    have := pack_le x h1
    have := packList_le xs h2
    simp only [emitList, pack_append, List.flatten_cons, List.length_append, singlesList]; omega
theorem packEntries_le : ∀ (ms : List (Bytes × Val)) {cs : List Bytes}, EncEntries ms cs →
    (pack (emitEntries ms)).length ≤ cs.flatten.length + 4 * singlesEntries ms
  | [], cs, h => by simp only [EncEntries] at h; subst h; simp [pack, emitEntries]
  | (k, x) :: ms, cs, h => by
    obtain ⟨hd, c, cs', h1, h2, h3, rfl⟩ := h
    have := packStrHead_le h1
    have := pack_le x h2
    have := packEntries_le ms h3
    have e : pack (emitEntries ((k, x) :: ms)) = packStrHead k.length ++ (k ++ (pack (emit x) ++ pack (emitEntries ms))) := by
      simp [pack, emitEntries, packEv]
    rw [e]; simp only [List.flatten_cons, List.length_append, singlesEntries]; omega
end

mutual
theorem enc_shortest : ∀ (v : Val), v.Sized → ∃ b, Enc v b ∧ b.length + 4 * singles v = (pack (emit v)).length
  | .dbl d, _ => by
    by_cases h : ∃ f, f < 2 ^ 32 ∧ widen32 f = d.toNat
    · obtain ⟨f, h1, h2⟩ := h
      refine ⟨_, EncDbl.f32 h1 h2, ?_⟩
      simp only [pack, emit, packEv, beBytes_eight, List.map_cons, List.map_nil, List.flatten_cons, List.flatten_nil, List.append_nil,
        List.length_cons, be_length, singles, if_pos (show ∃ f, f < 2 ^ 32 ∧ widen32 f = d.toNat from ⟨f, h1, h2⟩)]
    · refine ⟨_, enc_pack (.dbl d) trivial, ?_⟩
      simp only [singles, if_neg h]; omega
  | .arr xs, h => by
    obtain ⟨cs, h1, h2⟩ := encList_shortest xs h.2
    refine ⟨_, ⟨_, cs, packArrHead_ok h.1, h1, rfl⟩, ?_⟩
    have e : pack (emit (.arr xs)) = packArrHead xs.length ++ pack (emitList xs) := by simp [pack, emit, packEv]
    rw [e]; simp only [List.length_append, singles]; omega
  | .map ms, h => by
    obtain ⟨cs, h1, h2⟩ := encEntries_shortest ms h.2
    refine ⟨_, ⟨_, cs, packMapHead_ok h.1, h1, rfl⟩, ?_⟩
    have e : pack (emit (.map ms)) = packMapHead ms.length ++ pack (emitEntries ms) := by simp [pack, emit, packEv]
    rw [e]; simp only [List.length_append, singles]; omega
  | .null, h => ⟨_, enc_pack _ h, by simp [singles]⟩
  | .bool _, h => ⟨_, enc_pack _ h, by simp [singles]⟩
  | .int _, h => ⟨_, enc_pack _ h, by simp [singles]⟩
  | .uint _, h => ⟨_, enc_pack _ h, by simp [singles]⟩
  | .str _, h => ⟨_, enc_pack _ h, by simp [singles]⟩
  | .blob _, h => ⟨_, enc_pack _ h, by simp [singles]⟩
theorem encList_shortest : ∀ (xs : List Val), Val.sizedList xs →
    ∃ cs, EncList xs cs ∧ cs.flatten.length + 4 * singlesList xs = (pack (emitList xs)).length
  | [], _ => ⟨[], by simp [EncList], by simp [pack, emitList, singlesList]⟩
  | x :: xs, h => by
    obtain ⟨b, h1, h2⟩ := enc_shortest x h.1
    obtain ⟨cs, j1, j2⟩ := encList_shortest xs h.2
    refine ⟨b :: cs, ⟨b, cs, h1, j1, rfl⟩, ?_⟩
    simp only [emitList, pack_append, List.flatten_cons, List.length_append, singlesList]; omega
theorem encEntries_shortest : ∀ (ms : List (Bytes × Val)), Val.sizedEntries ms →
    ∃ cs, EncEntries ms cs ∧ cs.flatten.length + 4 * singlesEntries ms = (pack (emitEntries ms)).length
  | [], _ => ⟨[], by simp [EncEntries], by simp [pack, emitEntries, singlesEntries]⟩
  | (k, x) :: ms, h => by
    obtain ⟨b, h1, h2⟩ := enc_shortest x h.2.1
    obtain ⟨cs, j1, j2⟩ := encEntries_shortest ms h.2.2
    refine ⟨(packStrHead k.length ++ k) :: b :: cs, ⟨_, b, cs, packStrHead_ok h.1, h1, j1, rfl⟩, ?_⟩
    have e : pack (emitEntries ((k, x) :: ms)) = packStrHead k.length ++ (k ++ (pack (emit x) ++ pack (emitEntries ms))) := by
      simp [pack, emitEntries, packEv]
    rw [e]; simp only [List.flatten_cons, List.length_append, singlesEntries]; omega
end

/-- C90 for MessagePack: no encoding of the value is shorter than what is written, except that doubles which are also singles take
four bytes more than they need. The bound is reached. -/
theorem c90_msgpack {v : Val} (hs : v.Sized) {c : Bytes} (hc : proto.serialize v = .ok c) :
    (∀ b, Enc v b → c.length ≤ b.length + 4 * singles v) ∧ ∃ b, Enc v b ∧ b.length + 4 * singles v = c.length := by
  rw [serialize_eq] at hc; injection hc with hc; subst hc
  exact ⟨fun b h => pack_le v h, enc_shortest v hs⟩

/-- C90 for MessagePack: translating any encoding into MessagePack never lengthens it by more than that. -/
theorem c90_msgpack_translate {v : Val} (hd : v.Distinct) (hs : v.Sized) (hl : v.Below (2 ^ 32 - 5)) {b : Bytes} (h : Enc v b)
    (rest : Bytes) {f : Nat} (hf : v.depth ≤ f) :
    ∃ c, proto.recode proto f (b ++ rest) = .ok c ∧ c.length ≤ b.length + 4 * singles v := by
  obtain ⟨c, h1, h2, _⟩ := c89_msgpack_normal hd hs hl h rest hf
  exact ⟨c, h1, (c90_msgpack hs h2).1 b h⟩

/-- C90 is false for MessagePack: 1.5 takes nine bytes, five suffice; a message of five bytes grows when it is translated. -/
theorem c90_msgpack_refuted : Enc (.dbl 0x3ff8000000000000) [0xca, 0x3f, 0xc0, 0, 0] ∧
    ∃ c, proto.serialize (.dbl 0x3ff8000000000000) = .ok c ∧ c.length = 9 ∧ proto.recode proto 1 [0xca, 0x3f, 0xc0, 0, 0] = .ok c :=
  ⟨EncDbl.f32 (f := 0x3fc00000) (by decide) (by decide +kernel), _, rfl, by decide +kernel, by decide +kernel⟩

/-- Values without doubles are written as short as the format permits. -/
example : singles (.map [([0x61], .arr [.int (-5), .str [0x78]])]) = 0 := by
  simp [singles, singlesEntries, singlesList]

end MsgPack

namespace Cbor

open MsgPack (be be_length)

/-! ## CBOR -/

open Classical in
/-- Bytes by which a double is written longer than necessary: halves are written as singles, NaNs always as doubles. -/
noncomputable def excessDbl (d : Nat) : Nat :=
  if ∃ f, f < 2 ^ 16 ∧ decodeF16 f = d then (if dblVal d = .nan then 6 else 2)
  else if (∃ f, f < 2 ^ 32 ∧ widen32 f = d) ∧ dblVal d = .nan then 4 else 0

/-- Bytes by which the head of a container of `n` entries exceeds head and end of one of indefinite length. -/
def excessHead (ind : Bool) (n : Nat) : Nat :=
  if ind then (if n < 2 ^ 8 then 0 else if n < 2 ^ 16 then 1 else if n < 2 ^ 32 then 3 else 7) else 0

/-- Bytes by which a string of `n` bytes is written longer than in chunks: with a head of nine bytes instead of a head and an end of
one byte each, one of five and one of one. -/
def excessText (ind : Bool) (n : Nat) : Nat := if ind = true ∧ 2 ^ 32 ≤ n ∧ n < 2 ^ 32 + 23 then 1 else 0

mutual
/-- Bytes by which a value is written longer than necessary; indefinite lengths are considered if `ind`. -/
noncomputable def excess (ind : Bool) : Val → Nat
  | .dbl d => excessDbl d.toNat
  | .str s => excessText ind s.length
  | .blob s => excessText ind s.length
  | .arr xs => excessHead ind xs.length + excessList ind xs
  | .map ms => excessHead ind ms.length + excessEntries ind ms
  | _ => 0
noncomputable def excessList (ind : Bool) : List Val → Nat
  | [] => 0
  | x :: xs => excess ind x + excessList ind xs
noncomputable def excessEntries (ind : Bool) : List (Bytes × Val) → Nat
  | [] => 0
  | (k, x) :: ms => excessText ind k.length + excess ind x + excessEntries ind ms
end

theorem headBytes_length (m n : Nat) : (headBytes m n).length =
    if n < 24 then 1 else if n < 2 ^ 8 then 2 else if n < 2 ^ 16 then 3 else if n < 2 ^ 32 then 5 else 9 := by
  unfold headBytes
  repeat' split
  all_goals simp only [List.length_cons, beBytes_one, beBytes_two, beBytes_four, beBytes_eight, be_length, List.length_nil]

theorem headBytes_le {m m' n : Nat} {h : Bytes} (H : Hd m n h) : (headBytes m' n).length ≤ h.length := by
  rw [headBytes_length]
  cases H <;> simp only [List.length_cons, be_length, List.length_nil] <;> repeat' split
  all_goals omega

/-- What the heads of the chunks of a string of `n` bytes take at least. -/
def chunkMin (n : Nat) : Nat :=
  if n = 0 then 0 else if n < 24 then 1 else if n < 2 ^ 8 then 2 else if n < 2 ^ 16 then 3 else if n < 2 ^ 16 + 23 then 4
  else if n < 2 ^ 32 then 5 else if n < 2 ^ 32 + 23 then 6 else 7

theorem chunkMin_add (a b : Nat) :
    chunkMin (a + b) ≤ (if a < 24 then 1 else if a < 2 ^ 8 then 2 else if a < 2 ^ 16 then 3 else if a < 2 ^ 32 then 5 else 9) + chunkMin b := by
  have e : ∀ n k, chunkMin n = k → (k = 0 → n = 0) ∧ (k = 1 → n < 24) ∧ (k = 2 → n < 2 ^ 8) ∧ (k = 3 → n < 2 ^ 16) ∧ (k = 4 → n < 2 ^ 16 + 23) ∧
      (k = 5 → n < 2 ^ 32) ∧ (k = 6 → n < 2 ^ 32 + 23) ∧ k ≤ 7 := by
    intro n k h
    unfold chunkMin at h
    repeat' split at h
    all_goals omega
  have g : ∀ n k, (k = 0 → n = 0) → (k = 1 → n < 24) → (k = 2 → n < 2 ^ 8) → (k = 3 → n < 2 ^ 16) → (k = 4 → n < 2 ^ 16 + 23) →
      (k = 5 → n < 2 ^ 32) → (k = 6 → n < 2 ^ 32 + 23) → chunkMin n ≤ k := by
    intro n k _ _ _ _ _ _ _
    unfold chunkMin
    repeat' split
    all_goals omega
  obtain ⟨h0, h1, h2, h3, h4, h5, h6, _⟩ := e b _ rfl
  repeat' split
  all_goals exact g _ _ (by omega) (by omega) (by omega) (by omega) (by omega) (by omega) (by omega)

theorem chunkHeads_le {m : Nat} {s b : Bytes} (H : Chunks m s b) : chunkMin s.length + s.length ≤ b.length := by
  induction H with
  | nil => simp [chunkMin]
  | @cons h s t b H _ ih =>
    have h1 := headBytes_le (m' := m) H
    have h2 := chunkMin_add s.length t.length
    rw [headBytes_length] at h1
    simp only [List.length_append] at ih ⊢
    omega

theorem text_le {ind : Bool} {m : Nat} {s b : Bytes} (H : Text ind m s b) :
    (headBytes m s.length).length + s.length ≤ b.length + excessText ind s.length := by
  cases H with
  | definite h => have := headBytes_le (m' := m) h; simp only [List.length_append]; omega
  | chunked hi h =>
    have h1 := chunkHeads_le h
    have h2 : (headBytes m s.length).length ≤ chunkMin s.length + 2 + excessText ind s.length := by
      rw [headBytes_length]
      unfold chunkMin excessText
      simp only [hi, true_and]
      repeat' split
      all_goals omega
    simp only [List.length_cons, List.length_append, List.length_nil]; omega

theorem text_least {ind : Bool} {m : Nat} {s : Bytes} (hs : s.length < 2 ^ 64) :
    ∃ b, Text ind m s b ∧ (headBytes m s.length).length + s.length = b.length + excessText ind s.length := by
  by_cases h : ind = true ∧ 2 ^ 32 ≤ s.length ∧ s.length < 2 ^ 32 + 23
  · have l1 : (s.take (2 ^ 32 - 1)).length = 2 ^ 32 - 1 := by rw [List.length_take]; omega
    have l2 : (s.drop (2 ^ 32 - 1)).length = s.length - (2 ^ 32 - 1) := by rw [List.length_drop]
    have c1 : Chunks m (s.drop (2 ^ 32 - 1) ++ []) ((headBytes m (s.drop (2 ^ 32 - 1)).length ++ s.drop (2 ^ 32 - 1)) ++ []) :=
      .cons (headBytes_hd (by omega)) .nil
    have c2 : Chunks m (s.take (2 ^ 32 - 1) ++ (s.drop (2 ^ 32 - 1) ++ [])) _ := .cons (headBytes_hd (m := m) (by omega)) c1
    rw [List.append_nil, List.take_append_drop] at c2
    refine ⟨_, .chunked h.1 c2, ?_⟩
    simp only [List.length_cons, List.length_append, List.length_nil, headBytes_length, excessText, if_pos h, l1, l2]
    rw [if_neg (by omega), if_neg (by omega), if_neg (by omega), if_neg (by omega), if_neg (by omega), if_neg (by omega), if_neg (by omega),
      if_pos (by omega), if_pos (by omega)]
    omega
  · refine ⟨_, .definite (headBytes_hd hs), ?_⟩
    simp only [List.length_append, excessText, if_neg h, Nat.add_zero]

theorem group_le {ind : Bool} {m n : Nat} {c b : Bytes} (H : Group ind m n c b) :
    (headBytes m n).length + c.length ≤ b.length + excessHead ind n := by
  cases H with
  | definite h => have := headBytes_le (m' := m) h; simp only [List.length_append]; omega
  | indef h =>
    simp only [List.length_cons, List.length_append, List.length_nil, headBytes_length, excessHead, h, if_true]
    repeat' split
    all_goals omega

theorem group_least {ind : Bool} {m n : Nat} {c : Bytes} (hn : n < 2 ^ 64) :
    ∃ b, Group ind m n c b ∧ (headBytes m n).length + c.length = b.length + excessHead ind n := by
  by_cases h : ind = true ∧ 2 ^ 8 ≤ n
  · refine ⟨_, .indef h.1, ?_⟩
    simp only [List.length_cons, List.length_append, List.length_nil, headBytes_length, excessHead, h.1, if_true]
    repeat' split
    all_goals omega
  · refine ⟨_, .definite (headBytes_hd hn), ?_⟩
    simp only [List.length_append]
    have : excessHead ind n = 0 := by
      unfold excessHead
      cases ind
      · simp
      · rw [if_pos rfl, if_pos]
        rcases Nat.lt_or_ge n (2 ^ 8) with h' | h'
        · exact h'
        · exact absurd ⟨rfl, h'⟩ h
    omega

theorem intBytes_le {i : Int64} {b : Bytes} (H : EncInt i.toInt b) : (intBytes i).length ≤ b.length := by
  unfold intBytes
  rcases H with ⟨h1, h2⟩ | ⟨h1, h2⟩
  · rw [if_pos h1]; exact headBytes_le h2
  · rw [if_neg (by omega)]; exact headBytes_le h2

theorem single_bytes {d : UInt64} (h : ∃ f, f < 2 ^ 32 ∧ widen32 f = d.toNat) (hn : dblVal d.toNat ≠ .nan) : (dblBytes d).length = 5 := by
  obtain ⟨f, h1, h2⟩ := h
  have : shrink32 d.toNat = some f := by
    rw [← h2]; exact shrink32_widen32 h1 (by rw [← dblVal_widen32, h2]; exact hn)
  unfold dblBytes
  rw [this]
  simp only [List.length_cons, beBytes_four, be_length]

theorem dblBytes_length (d : UInt64) : (dblBytes d).length = 5 ∨ (dblBytes d).length = 9 := by
  unfold dblBytes
  split
  · left; simp only [List.length_cons, beBytes_four, be_length]
  · right; simp only [List.length_cons, beBytes_eight, be_length]

theorem shrink32_nan {d : Nat} (hn : dblVal d = .nan) : shrink32 d = none := by
  unfold dblVal ieee at hn
  unfold shrink32
  simp only at hn ⊢
  by_cases h1 : d / 2 ^ 52 % 2 ^ 11 = 2047
  · rw [if_pos h1]
    by_cases h2 : d % 2 ^ 52 = 0
    · rw [if_pos h1, if_pos h2] at hn; cases hn
    · rw [if_neg h2]
  · rw [if_neg h1] at hn
    split at hn <;> cases hn

theorem nan_bytes {d : UInt64} (hn : dblVal d.toNat = .nan) : (dblBytes d).length = 9 := by
  unfold dblBytes
  rw [shrink32_nan hn]
  simp only [List.length_cons, beBytes_eight, be_length]

theorem dblBytes_le {d : UInt64} {b : Bytes} (H : EncDbl d.toNat b) : (dblBytes d).length ≤ b.length + excessDbl d.toNat := by
  have hl := dblBytes_length d
  unfold excessDbl
  cases H with
  | f64 => simp only [List.length_cons, be_length]; omega
  | f32 h1 h2 =>
    simp only [List.length_cons, be_length]
    have hx : ∃ f, f < 2 ^ 32 ∧ widen32 f = d.toNat := ⟨_, h1, h2⟩
    by_cases hn : dblVal d.toNat = .nan
    · simp only [hx, hn, and_self, if_true]
      split <;> omega
    · have := single_bytes hx hn; omega
  | f16 h1 h2 =>
    rw [if_pos ⟨_, h1, h2⟩]
    simp only [List.length_cons, be_length]
    have hx : ∃ f, f < 2 ^ 32 ∧ widen32 f = d.toNat := h2 ▸ half_is_single _
    by_cases hn : dblVal d.toNat = .nan
    · rw [if_pos hn]; omega
    · have := single_bytes hx hn; rw [if_neg hn]; omega

theorem encDbl_least (d : UInt64) : ∃ b, EncDbl d.toNat b ∧ (dblBytes d).length = b.length + excessDbl d.toNat := by
  unfold excessDbl
  by_cases h : ∃ f, f < 2 ^ 16 ∧ decodeF16 f = d.toNat
  · rw [if_pos h]
    obtain ⟨f, h1, h2⟩ := h
    refine ⟨_, .f16 h1 h2, ?_⟩
    simp only [List.length_cons, be_length]
    by_cases hn : dblVal d.toNat = .nan
    · rw [if_pos hn, nan_bytes hn]
    · rw [if_neg hn, single_bytes (h2 ▸ half_is_single _) hn]
  · rw [if_neg h]
    split
    · rename_i h'
      obtain ⟨⟨f, h1, h2⟩, hn⟩ := h'
      refine ⟨_, .f32 h1 h2, ?_⟩
      simp only [List.length_cons, be_length]
      rw [nan_bytes hn]
    · exact ⟨_, dblBytes_enc d, rfl⟩

mutual
theorem encB_le {ind : Bool} : ∀ (v : Val) {b : Bytes}, Enc ind v b → (encB v).length ≤ b.length + excess ind v
  | .null, b, h => by simp only [Enc] at h; subst h; simp [encB]
  | .bool x, b, h => by simp only [Enc] at h; subst h; simp [encB]
  | .int i, b, h => by
    have := intBytes_le (show EncInt i.toInt b from h)
    simp only [encB]; omega
  | .uint n, b, h => by
    simp only [encB]
    rcases (show EncInt n.toNat b from h) with ⟨_, h2⟩ | ⟨h1, _⟩
    · have := headBytes_le (m' := 0) h2
      rw [Int.toNat_natCast] at this; omega
    · omega
  | .dbl d, b, h => by simpa only [encB, excess] using dblBytes_le (show EncDbl d.toNat b from h)
  | .str s, b, h => by
    have := text_le (show Text ind 3 s b from h)
    simp only [encB, List.length_append, excess]; omega
  | .blob s, b, h => by
    have := text_le (show Text ind 2 s b from h)
    simp only [encB, List.length_append, excess]; omega
  | .arr xs, b, h => by
    obtain ⟨cs, h1, h2⟩ := h
    have := group_le h2
    have := encL_le xs h1
    simp only [encB, List.length_append, excess]; omega
  | .map ms, b, h => by
    obtain ⟨cs, h1, h2⟩ := h
    have := group_le h2
    have := encE_le ms h1
    simp only [encB, List.length_append, excess]; omega
theorem encL_le {ind : Bool} : ∀ (xs : List Val) {cs : List Bytes}, EncList ind xs cs →
    (encL xs).flatten.length ≤ cs.flatten.length + excessList ind xs
  | [], cs, h => by simp [encL]
  | x :: xs, cs, h => by
    obtain ⟨c, cs', h1, h2, rfl⟩ := h
    have := encB_le x h1
    have := encL_le xs h2
    simp only [encL, List.flatten_cons, List.length_append, excessList]; omega
theorem encE_le {ind : Bool} : ∀ (ms : List (Bytes × Val)) {cs : List Bytes}, EncEntries ind ms cs →
    (encE ms).flatten.length ≤ cs.flatten.length + excessEntries ind ms
  | [], cs, h => by simp [encE]
  | (k, x) :: ms, cs, h => by
    obtain ⟨ck, c, cs', h1, h2, h3, rfl⟩ := h
    have := text_le h1
    have := encB_le x h2
    have := encE_le ms h3
    simp only [encE, List.flatten_cons, List.length_append, excessEntries]; omega
end

mutual
theorem enc_least (ind : Bool) : ∀ (v : Val), (encB v).length < 2 ^ 64 → ∃ b, Enc ind v b ∧ (encB v).length = b.length + excess ind v
  | .null, _ => ⟨_, rfl, rfl⟩
  | .bool _, _ => ⟨_, rfl, rfl⟩
  | .int i, _ => ⟨_, intBytes_enc i, rfl⟩
  | .uint n, _ => ⟨headBytes 0 n.toNat, .inl ⟨Int.natCast_nonneg _, by rw [Int.toNat_natCast]; exact headBytes_hd n.toNat_lt⟩, rfl⟩
  | .dbl d, _ => encDbl_least d
  | .str s, h => by
    simp only [encB, List.length_append] at h ⊢
    exact text_least (m := 3) (by omega)
  | .blob s, h => by
    simp only [encB, List.length_append] at h ⊢
    exact text_least (m := 2) (by omega)
  | .arr xs, h => by
    have hl := encL_len xs
    simp only [encB, List.length_append] at h
    obtain ⟨cs, h1, h2⟩ := encL_least ind xs (by omega)
    obtain ⟨b, h3, h4⟩ := group_least (ind := ind) (m := 4) (n := xs.length) (c := cs.flatten) (by omega)
    refine ⟨b, ⟨cs, h1, h3⟩, ?_⟩
    simp only [encB, List.length_append, excess]; omega
  | .map ms, h => by
    have hl := encE_len ms
    simp only [encB, List.length_append] at h
    obtain ⟨cs, h1, h2⟩ := encE_least ind ms (by omega)
    obtain ⟨b, h3, h4⟩ := group_least (ind := ind) (m := 5) (n := ms.length) (c := cs.flatten) (by omega)
    refine ⟨b, ⟨cs, h1, h3⟩, ?_⟩
    simp only [encB, List.length_append, excess]; omega
theorem encL_least (ind : Bool) : ∀ (xs : List Val), (encL xs).flatten.length < 2 ^ 64 →
    ∃ cs, EncList ind xs cs ∧ (encL xs).flatten.length = cs.flatten.length + excessList ind xs
  | [], _ => ⟨[], rfl, rfl⟩
  | x :: xs, h => by
    simp only [encL, List.flatten_cons, List.length_append] at h
    obtain ⟨c, h1, h2⟩ := enc_least ind x (by omega)
    obtain ⟨cs, j1, j2⟩ := encL_least ind xs (by omega)
    refine ⟨c :: cs, ⟨c, cs, h1, j1, rfl⟩, ?_⟩
    simp only [encL, List.flatten_cons, List.length_append, excessList]; omega
theorem encE_least (ind : Bool) : ∀ (ms : List (Bytes × Val)), (encE ms).flatten.length < 2 ^ 64 →
    ∃ cs, EncEntries ind ms cs ∧ (encE ms).flatten.length = cs.flatten.length + excessEntries ind ms
  | [], _ => ⟨[], rfl, rfl⟩
  | (k, x) :: ms, h => by
    simp only [encE, List.flatten_cons, List.length_append] at h
    obtain ⟨c, h1, h2⟩ := enc_least ind x (by omega)
    obtain ⟨cs, j1, j2⟩ := encE_least ind ms (by omega)
    obtain ⟨ck, k1, k2⟩ := text_least (ind := ind) (m := 3) (s := k) (by omega)
    refine ⟨ck :: c :: cs, ⟨ck, c, cs, k1, h1, j1, rfl⟩, ?_⟩
    simp only [encE, List.flatten_cons, List.length_append, excessEntries]; omega
end

/-- C90 for CBOR: no encoding of the value is shorter than what is written, except that halves are written as singles, NaNs as doubles,
and (if indefinite lengths are permitted) the number of entries of large containers is written out, and the length of strings of
2^32 to 2^32 + 22 bytes. The bound is reached. -/
theorem c90_cbor {utf8 : Bytes → Bool} {maxDepth fuel : Nat} {hard : Bool} (ind : Bool) {v : Val} {c : Bytes} (hl : c.length < 2 ^ 64)
    (hc : (proto utf8 maxDepth hard fuel).serialize v = .ok c) :
    (∀ b, Enc ind v b → c.length ≤ b.length + excess ind v) ∧ ∃ b, Enc ind v b ∧ b.length + excess ind v = c.length := by
  obtain ⟨rfl, _⟩ := serialize_ok hc
  obtain ⟨b, h1, h2⟩ := enc_least ind v hl
  exact ⟨fun b h => encB_le v h, b, h1, h2.symm⟩

/-- C90 for CBOR: translating any encoding of definite lengths into CBOR never lengthens it by more than that. -/
theorem c90_cbor_translate {utf8 : Bytes → Bool} {maxDepth fuel : Nat} {v : Val} (hd : v.Distinct) (hs : v.Small) {b rest c : Bytes}
    (h : Enc false v b) (hl : (b ++ rest).length < 2 ^ 64) (hg : (b ++ rest).length ≤ fuel) {f : Nat} (hf : v.depth ≤ f)
    (hc : (proto utf8 maxDepth false fuel).serialize v = .ok c) (hl' : c.length < 2 ^ 64) (hg' : c.length ≤ fuel) :
    (proto utf8 maxDepth false fuel).recode (proto utf8 maxDepth false fuel) f (b ++ rest) = .ok c ∧ c.length ≤ b.length + excess false v :=
  ⟨(c89_cbor_normal hd hs h hl hg hf hc hl' hg').1, (c90_cbor false hl' hc).1 b h⟩

/-- C90 is false for CBOR: 1.5 takes five bytes, three suffice. Every array of 256 elements or more has a shorter encoding, of
indefinite length. -/
theorem c90_cbor_refuted : (Enc false (.dbl 0x3ff8000000000000) [0xf9, 0x3e, 0] ∧ (encB (.dbl 0x3ff8000000000000)).length = 5) ∧
    ∀ xs : List Val, 2 ^ 8 ≤ xs.length → (encB (.arr xs)).length < 2 ^ 64 →
      ∃ b, Enc true (.arr xs) b ∧ b.length < (encB (.arr xs)).length := by
  refine ⟨⟨EncDbl.f16 (f := 0x3e00) (by decide) (by decide +kernel), by decide +kernel⟩, fun xs h hl => ?_⟩
  obtain ⟨b, h1, h2⟩ := enc_least true (.arr xs) hl
  refine ⟨b, h1, ?_⟩
  have : 1 ≤ excessHead true xs.length := by
    unfold excessHead
    rw [if_pos rfl, if_neg (by omega)]
    repeat' split
    all_goals omega
  simp only [excess] at h2
  omega

/-- Values without doubles and large containers are written as short as the format permits. -/
example : excess true (.map [([0x61], .arr [.int (-5), .str [0x78]])]) = 0 := by
  simp [excess, excessEntries, excessList, excessHead, excessText]

end Cbor

/-! ## JSON -/

namespace Json

theorem natOf_lt : ∀ {ds : List Nat}, (∀ d ∈ ds, d < 10) → natOf ds < 10 ^ ds.length := by
  intro ds
  induction h : ds.length generalizing ds with
  | zero =>
    intro _
    rw [List.length_eq_zero_iff.1 h]; decide
  | succ n ih =>
    intro hd
    have hne : ds ≠ [] := by rintro rfl; simp at h
    have e := List.dropLast_concat_getLast hne
    rw [← e, natOf_append]
    have h1 := ih (ds := ds.dropLast) (by simp [h]) (fun d hd' => hd d (List.dropLast_subset ds hd'))
    have h2 := hd _ (List.getLast_mem hne)
    rw [Nat.pow_succ]; omega

theorem natOf_ge {ds : List Nat} : ∀ {k : Nat}, ds.length = k + 1 → ds.head? ≠ some 0 → 10 ^ k ≤ natOf ds := by
  intro k
  induction k generalizing ds with
  | zero =>
    intro h h0
    match ds, h with
    | [d], _ =>
      simp only [List.head?_cons, ne_eq, Option.some.injEq] at h0
      simp [natOf]; omega
  | succ n ih =>
    intro h h0
    have hne : ds ≠ [] := by rintro rfl; simp at h
    have e := List.dropLast_concat_getLast hne
    rw [← e, natOf_append]
    have h1 := ih (ds := ds.dropLast) (by simp [h]) (by
      match ds, h with
      | a :: b :: r, _ => simpa using h0)
    rw [Nat.pow_succ]; omega

/-- No digits stand for the number that are fewer than those that are written. -/
theorem decDigits_le {ds : List Nat} (hd : ∀ d ∈ ds, d < 10) (hne : ds ≠ []) : (decDigits (natOf ds)).length ≤ ds.length := by
  obtain ⟨h1, h2, h3, h4⟩ := decDigits_spec (natOf ds)
  by_cases h0 : (decDigits (natOf ds)).head? = some 0
  · rw [h4 h0]
    exact List.length_pos_iff.2 hne
  · obtain ⟨k, hk⟩ : ∃ k, (decDigits (natOf ds)).length = k + 1 := by
      have := List.length_pos_iff.2 h3
      exact ⟨_, (Nat.succ_pred_eq_of_pos this).symm⟩
    have h5 := natOf_ge hk h0
    rw [h1] at h5
    have h6 := Nat.lt_of_le_of_lt h5 (natOf_lt hd)
    have := (Nat.pow_lt_pow_iff_right (a := 10) (by omega)).1 h6
    omega

theorem digs_length (ds : List Nat) : (digs ds).length = ds.length := by simp [digs]

theorem intDec_length (neg : Bool) (n : Nat) : (intDec neg n).text.length = (if neg then 1 else 0) + (decDigits n).length := by
  simp only [intDec, Dec.text, fracText, expText, List.append_nil, List.length_append, digs_length]
  cases neg <;> simp

/-- How much longer the doubles of a value are written than they could be. -/
def excess (w : UInt64 → Nat) (v : Val) : Nat :=
  match v with
  | .dbl d => w d
  | .arr xs => list xs
  | .map ms => entries ms
  | _ => 0
where
  list : List Val → Nat
    | [] => 0
    | x :: xs => excess w x + list xs
  entries : List (Bytes × Val) → Nat
    | [] => 0
    | (_, x) :: ms => excess w x + entries ms

/-- `fmt` exceeds the shortest text of a double by at most `w`. -/
def Near (fmt : UInt64 → Bytes) (w : UInt64 → Nat) : Prop :=
  ∀ (n : Dec) (d : UInt64), n.Ok → n.val = some (.dbl d) → (fmt d).length ≤ n.text.length + w d

section
variable {fmt : UInt64 → Bytes} {w : UInt64 → Nat}

theorem num_le (hw : Near fmt w) {n : Dec} {v : Val} (ho : n.Ok) (h : n.val = some v) :
    ∃ c, printVal fmt v = some c ∧ c.length ≤ n.text.length + excess w v := by
  have hreal : n.real = some v → ∃ c, printVal fmt v = some c ∧ c.length ≤ n.text.length + excess w v := by
    intro hr
    have hr' := hr
    unfold Dec.real at hr
    rw [Option.map_eq_some_iff] at hr
    obtain ⟨d, h1, rfl⟩ := hr
    refine ⟨fmt d, by simp only [printVal, decDouble_finite h1, if_true], ?_⟩
    simp only [excess]
    exact hw n d ho h
  have h0 := h
  unfold Dec.val at h
  split at h
  · have hl : (if n.neg then 1 else 0) + n.int.length ≤ n.text.length := by
      simp only [Dec.text, List.length_append, digs_length]
      cases n.neg <;> simp <;> omega
    have hd := decDigits_le ho.int ho.ne
    split at h
    · rename_i hn
      rw [if_pos hn] at hl
      split at h
      · rename_i hb
        injection h with h; subst h
        refine ⟨_, by rw [printVal], ?_⟩
        simp only [excess, Nat.add_zero]
        have e : (Int64.ofInt (-(natOf n.int : Int))).toInt = -(natOf n.int : Int) :=
          Int64.toInt_ofInt_of_le (by omega) (by omega)
        rw [e]
        unfold writeInt
        rw [intDec_length, Int.natAbs_neg, Int.natAbs_natCast]
        split <;> omega
      · exact hreal h
    · rename_i hn
      rw [if_neg hn] at hl
      split at h
      · rename_i hb
        injection h with h; subst h
        refine ⟨_, by rw [printVal], ?_⟩
        simp only [excess, Nat.add_zero]
        rw [UInt64.toNat_ofNat_of_lt' hb]
        unfold writeInt
        rw [intDec_length, Int.natAbs_natCast, decide_eq_false (by omega)]
        simp only [Bool.false_eq_true, if_false]
        omega
      · exact hreal h
  · exact hreal h

theorem escByte_length (a : UInt8) : (escByte a).length ≤ 6 := by
  unfold escByte
  repeat' split
  all_goals simp

theorem escByte_one {a : UInt8} (h : 0x20 ≤ a.toNat) (h1 : a ≠ 0x22) (h2 : a ≠ 0x5c) : escByte a = [a] := by
  have hne : ∀ b : UInt8, b.toNat < 0x20 → a ≠ b := by
    rintro b hb rfl; omega
  unfold escByte
  rw [if_neg h1, if_neg h2, if_neg (hne 8 (by decide)), if_neg (hne 0xc (by decide)),
    if_neg (hne 0xa (by decide)), if_neg (hne 0xd (by decide)), if_neg (hne 9 (by decide)), if_neg (by omega)]

theorem encode_length (c : Nat) : (encode c).length ≤ 4 := by
  unfold encode
  repeat' split
  all_goals simp

theorem hex4_length {h : Bytes} {n : Nat} (hh : Hex4 h n) : h.length = 4 := by
  obtain ⟨a, b, c, d, _, _, _, _, rfl, _⟩ := hh; rfl

theorem encode_esc {n : Nat} (hs : Scalar n) : ((encode n).flatMap escByte).length ≤ 6 := by
  by_cases h : n < 0x80
  · have e : encode n = [UInt8.ofNat n] := by unfold encode; rw [if_pos h]
    rw [e, List.flatMap_cons, List.flatMap_nil, List.append_nil]
    exact escByte_length _
  · rw [flatMap_esc_plain (encode_high hs (by omega))]
    have := encode_length n; omega

theorem char_le {c x : Bytes} (h : IsChar c x) : (x.flatMap escByte).length ≤ c.length := by
  cases h with
  | @plain c hs h1 h2 h3 =>
    by_cases h : c < 0x80
    · have e : encode c = [UInt8.ofNat c] := by unfold encode; rw [if_pos h]
      rw [e, List.flatMap_cons, List.flatMap_nil, List.append_nil, escByte_one]
      · exact Nat.le_refl _
      · rw [toNat_byte (by omega)]; exact h1
      · intro he; have := congrArg UInt8.toNat he; rw [toNat_byte (by omega)] at this; exact h2 this
      · intro he; have := congrArg UInt8.toNat he; rw [toNat_byte (by omega)] at this; exact h3 this
    · rw [flatMap_esc_plain (encode_high hs (by omega))]
      exact Nat.le_refl _
  | short h =>
    simp only [escapes, List.mem_cons, Prod.mk.injEq, List.not_mem_nil, or_false] at h
    rcases h with ⟨rfl, rfl⟩ | ⟨rfl, rfl⟩ | ⟨rfl, rfl⟩ | ⟨rfl, rfl⟩ | ⟨rfl, rfl⟩ | ⟨rfl, rfl⟩ | ⟨rfl, rfl⟩ | ⟨rfl, rfl⟩ <;> decide
  | hex h hs =>
    have := encode_esc hs
    simp only [List.length_cons, hex4_length h]; omega
  | @pair h l m n h1 h2 h3 h4 h5 h6 =>
    have := encode_esc (n := 0x10000 + (m - 0xd800) * 0x400 + (n - 0xdc00)) ⟨by omega, by omega⟩
    refine Nat.le_trans this ?_
    simp only [List.length_cons, List.length_append, hex4_length h1, hex4_length h4]; omega

theorem chars_le {t s : Bytes} (h : IsChars t s) : (s.flatMap escByte).length ≤ t.length := by
  induction h with
  | nil => exact Nat.le_refl _
  | cons h1 h2 ih =>
    have := char_le h1
    rw [List.flatMap_append, List.length_append, List.length_append]; omega

theorem str_le {b s : Bytes} (h : IsStr b s) : (writeStr s).length ≤ b.length := by
  obtain ⟨t, h, rfl⟩ := h
  have := chars_le h
  simp only [writeStr, List.length_cons, List.length_append, List.length_nil]; omega

mutual
theorem value_le (hw : Near fmt w) : ∀ {b : Bytes} {v : Val}, IsValue b v →
    ∃ c, printVal fmt v = some c ∧ c.length ≤ b.length + excess w v
  | _, _, .null => ⟨_, by rw [printVal], by simp [excess]⟩
  | _, _, .false => ⟨_, by rw [printVal], by simp [excess]⟩
  | _, _, .true => ⟨_, by rw [printVal], by simp [excess]⟩
  | _, _, .num ho h => num_le hw ho h
  | _, _, .str h => ⟨_, by rw [printVal, if_pos (isStr_utf8 h)], by simpa [excess] using str_le h⟩
  | _, _, .arr0 _ => ⟨[0x5b, 0x5d], by rw [printVal, printList]; rfl, by simp [excess, excess.list]⟩
  | _, _, .arr h => by
    obtain ⟨c, h1, h2⟩ := elems_le hw h
    refine ⟨_, by rw [printVal, h1]; rfl, ?_⟩
    simp only [excess, List.length_cons, List.length_append, List.length_nil]; omega
  | _, _, .obj0 _ => ⟨[0x7b, 0x7d], by rw [printVal, printEntries]; rfl, by simp [excess, excess.entries]⟩
  | _, _, .obj h => by
    obtain ⟨c, h1, h2⟩ := members_le hw h
    refine ⟨_, by rw [printVal, h1]; rfl, ?_⟩
    simp only [excess, List.length_cons, List.length_append, List.length_nil]; omega
theorem elems_le (hw : Near fmt w) : ∀ {b : Bytes} {xs : List Val}, IsElems b xs →
    ∃ c, printList fmt xs = some c ∧ c.length ≤ b.length + excess.list w xs
  | _, _, .one _ h _ => by
    obtain ⟨c, h1, h2⟩ := value_le hw h
    refine ⟨c, by simp [printList, h1], ?_⟩
    simp only [excess.list, List.length_append]; omega
  | _, _, .more (vs := vs) _ h _ hs => by
    obtain ⟨c, h1, h2⟩ := value_le hw h
    obtain ⟨d, j1, j2⟩ := elems_le hw hs
    refine ⟨_, by rw [printList, h1, j1], ?_⟩
    simp only [excess.list, List.length_append, List.length_cons]
    split
    · omega
    · simp only [List.length_cons]; omega
theorem members_le (hw : Near fmt w) : ∀ {b : Bytes} {ms : List (Bytes × Val)}, IsMembers b ms →
    ∃ c, printEntries fmt ms = some c ∧ c.length ≤ b.length + excess.entries w ms
  | _, _, .one _ hk _ _ h _ => by
    obtain ⟨c, h1, h2⟩ := value_le hw h
    have := str_le hk
    refine ⟨_, by rw [printEntries, if_pos (isStr_utf8 hk), h1, printEntries], ?_⟩
    simp only [excess.entries, List.length_append, List.length_cons, List.isEmpty_nil, if_true, List.length_nil]; omega
  | _, _, .more (ms := ms) _ hk _ _ h _ hs => by
    obtain ⟨c, h1, h2⟩ := value_le hw h
    obtain ⟨d, j1, j2⟩ := members_le hw hs
    have := str_le hk
    refine ⟨_, by rw [printEntries, if_pos (isStr_utf8 hk), h1, j1], ?_⟩
    simp only [excess.entries, List.length_append, List.length_cons]
    split
    · omega
    · simp only [List.length_cons]; omega
end

mutual
theorem toDom_value : ∀ {b : Bytes} {v : Val}, IsValue b v → toDom v = v
  | _, _, .null => by rw [toDom]
  | _, _, .false => by rw [toDom]
  | _, _, .true => by rw [toDom]
  | _, _, .num (n := n) (v := v) _ h => by
    have hreal : n.real = some v → toDom v = v := by
      intro hr
      unfold Dec.real at hr
      rw [Option.map_eq_some_iff] at hr
      obtain ⟨d, _, rfl⟩ := hr
      rw [toDom]
    unfold Dec.val at h
    split at h
    · split at h
      · split at h
        · injection h with h; subst h; rw [toDom]
        · exact hreal h
      · split at h
        · injection h with h; subst h; rw [toDom]
        · exact hreal h
    · exact hreal h
  | _, _, .str _ => by rw [toDom]
  | _, _, .arr0 _ => by simp [toDom, toDomList]
  | _, _, .arr h => by rw [toDom, toDom_elems h]
  | _, _, .obj0 _ => by simp [toDom, toDomEntries]
  | _, _, .obj h => by rw [toDom, toDom_members h]
theorem toDom_elems : ∀ {b : Bytes} {xs : List Val}, IsElems b xs → toDomList xs = xs
  | _, _, .one _ h _ => by simp [toDomList, toDom_value h]
  | _, _, .more _ h _ hs => by simp [toDomList, toDom_value h, toDom_elems hs]
theorem toDom_members : ∀ {b : Bytes} {ms : List (Bytes × Val)}, IsMembers b ms → toDomEntries ms = ms
  | _, _, .one _ _ _ _ h _ => by simp [toDomEntries, toDom_value h]
  | _, _, .more _ _ _ _ h _ hs => by simp [toDomEntries, toDom_value h, toDom_members hs]
end

/-- C90 for JSON: no text of the value is shorter than what is written, except for the texts of doubles. -/
theorem c90_json (hw : Near fmt w) (dbg : Bool) {b : Bytes} {v : Val} (h : IsText b v) (hk : KeysOk v) :
    ∃ c, (proto (std fmt) dbg).serialize v = .ok c ∧ c.length ≤ b.length + excess w v := by
  obtain ⟨l, t, r, _, h, _, rfl⟩ := h
  obtain ⟨c, h1, h2⟩ := value_le hw h
  refine ⟨c, ?_, ?_⟩
  · rw [serialize_eq, keysB_ok dbg hk, domC_eq hk, toDom_value h, if_pos rfl]
    show (match printVal fmt v with | some b => _ | none => _) = _
    rw [h1]
  · simp only [List.length_append]; omega

theorem near_self (fmt : UInt64 → Bytes) : Near fmt (fun d => (fmt d).length) := fun _ _ _ _ => Nat.le_add_left _ _

/-- C90 for JSON: translating a text into JSON never lengthens it, except at the doubles. -/
theorem c90_json_translate (hfmt : FmtOk fmt) (hw : Near fmt w) (dbg : Bool) {v : Val} {b : Bytes} (h : IsText b v)
    (hd : v.Distinct) (hp : Plain v) (hk : KeysOk v) {f : Nat} (hf : v.depth ≤ f) :
    ∃ c, (proto (std fmt) dbg).recode (proto (std fmt) dbg) f b = .ok c ∧ c.length ≤ b.length + excess w v := by
  obtain ⟨c, h1, h2, _⟩ := c89_json_normal hfmt dbg h hd hp hk hf
  obtain ⟨c', h3, h4⟩ := c90_json hw dbg h hk
  rw [h2] at h3; injection h3 with h3; subst h3
  exact ⟨c, h1, h4⟩

/-- ` [ -0 , "a" ] ` is written as `[0,"a"]`, whatever the texts of doubles. -/
example (fmt : UInt64 → Bytes) : IsText [0x5b, 0x2d, 0x30, 0x2c, 0x20, 0x22, 0x5c, 0x75, 0x30, 0x30, 0x36, 0x31, 0x22, 0x5d] (.arr [.int 0, .str [0x61]]) ∧
    KeysOk (.arr [.int 0, .str [0x61]]) ∧ excess (fun d => (fmt d).length) (.arr [.int 0, .str [0x61]]) = 0 ∧
    printVal fmt (.arr [.int 0, .str [0x61]]) = some [0x5b, 0x30, 0x2c, 0x22, 0x61, 0x22, 0x5d] :=
  ⟨(readText_iff _ _).1 (by rfl), ⟨trivial, trivial, trivial, trivial⟩, rfl, by rfl⟩

end

end Json
end Zer
