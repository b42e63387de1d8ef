import Verif.Cbor.Behind
import Verif.MsgPack.Behind
import Verif.Zera.Behind
import Verif.Props.MsgPack
import Verif.Props.Translate

/-!
# C88: does writing read outside the strings that are handed over?
-/

namespace Zer.Flex

variable {L : Lib}

/-- The outcome of a translation with a NUL behind every string is that of `proto.translate`. -/
theorem writeValue_nul (dbg : Bool) {ρ : Type} (R : Reader ρ) : ∀ (f : Nat) (r : ρ) (s : RS),
    writeValue (R.peeking fun _ => .ok 0) ⟨stepT L dbg⟩ f r s = writeValue R (writer L dbg) f r s
  | 0, _, _ => rfl
  | f + 1, r, s => by
    have hE : ∀ n i s, writeElems (R.peeking fun _ => .ok 0) (writeValue (R.peeking fun _ => .ok 0) ⟨stepT L dbg⟩ f) r n i s =
        writeElems R (writeValue R (writer L dbg) f) r n i s := by
      intro n
      induction n with
      | zero => intro i s; rfl
      | succ n ih =>
        intro i s
        simp only [writeElems, ih, writeValue_nul dbg R f]
        rfl
    have hM : ∀ ks s, writeEntries (R.peeking fun _ => .ok 0) ⟨stepT L dbg⟩ (writeValue (R.peeking fun _ => .ok 0) ⟨stepT L dbg⟩ f) r ks s =
        writeEntries R (writer L dbg) (writeValue R (writer L dbg) f) r ks s := by
      intro ks
      induction ks with
      | nil => intro s; rfl
      | cons k ks ih =>
        intro s
        simp only [writeEntries, ih, writeValue_nul dbg R f]
        rfl
    have hS : (((R.peeking fun _ => .ok 0).asStringView r) >>= fun x => stepT L dbg s (.str x)) =
        (R.asStringView r >>= fun x => step L dbg s (.str x)) := by
      simp only [Reader.peeking, bind_assoc, Res.ok_bind, Res.pure_eq]
      congr 1
      funext x
      exact strView_behind s x 0
    simp only [writeValue, hE, hM]
    rw [show (R.peeking fun _ => .ok 0).asStringView r >>= (fun x => (⟨stepT L dbg⟩ : Writer RS).step s (.str x)) = _ from hS]
    rfl

/-- C88, into Flex, from a source whose strings end with a NUL (JSON: yyjson terminates its strings; Flex: so does flexbuffers):
nothing is read outside the source. -/
theorem c88_flex_terminated (dbg : Bool) {ρ : Type} (R : Reader ρ) (f : Nat) (r : ρ) :
    translateView L dbg R (fun _ => .ok 0) f r = (proto L dbg).translate R f r := by
  simp only [translateView, writeValue_nul]
  rfl

/-- C88, into Flex, from any source: the translation presents the value of the source if every string that is visited has a
byte behind it in its allocation, whichever byte; if one has not, that byte is read all the same. Missing: the latter sources,
for which C88 is false (`c88_cbor_to_flex_refuted`, `c88_zera_to_flex_refuted`, `c88_msgpack_to_flex_refuted`). -/
theorem c88_to_flex_partial (H : L.Law) (dbg : Bool) {ρ : Type} {R : Reader ρ} {behind : ρ → Res UInt8}
    (B : ∀ c, behind c = .ub ∨ ∃ b, behind c = .ok b) {p : Prop} {r : ρ} {v : Val} (h : R.AgreesW p r v) (hd : v.Distinct)
    (hn : v.NulFree) (hF : Fits v) {f : Nat} (hf : v.depth ≤ f) :
    (R.AllBehind behind r → ∃ r', translateView L dbg R behind f r = .ok r' ∧ reader.Agrees r' v.sortKeys ∧
      (p → reader.AgreesStrictly r' v.sortKeys)) ∧
    (¬ R.AllBehind behind r → translateView L dbg R behind f r = .ub) := by
  have e := Val.firstWins_of_distinct v hd
  rcases translateView_holds H dbg B h (by rw [e]; exact hF) hf with ⟨hb, v', r', h1, h2, h3, h4⟩ | ⟨⟨c, x, h1, h2, h3⟩, h4⟩
  · refine ⟨fun _ => ?_, fun hb' => (hb' hb).elim⟩
    rw [e] at h1 h2
    have ha := Holds.agrees (agrees_doc H v' (distinct_same h1 hd) (nulFree_same h1 hn)) h4
    refine ⟨_, h3, (Reader.AgreesW.agrees ha).same _ (Val.sortKeys_same h1), fun hp => ?_⟩
    rw [← h2 hp]; exact ha
  · refine ⟨fun hb => ?_, fun _ => h4⟩
    obtain ⟨b, hb⟩ := hb c x h1 h2
    rw [h3] at hb; cases hb

/-- C88 for the Flex writer, any memory, any view of its first `len` bytes: a view that ends where its allocation ends is read
past the end; otherwise the document is exactly the string, whichever byte follows it. -/
theorem c88_flex_string_view (H : L.Law) (dbg : Bool) (mem : Bytes) (len : Nat) :
    (mem.length ≤ len → ∀ s, strView s mem len = .ub) ∧
    (len < mem.length → len + 33 < 2 ^ 64 → ∃ s b r, strView {} mem len = .ok s ∧ finish dbg s = .ok b ∧ opn b = .ok r ∧
      reader.AgreesStrictly r (.str (mem.take len))) := by
  refine ⟨fun h s => ?_, fun h hl => ?_⟩
  · rw [strView, List.getElem?_eq_none h]
  · have hm : mem[len]? = some mem[len] := List.getElem?_eq_getElem h
    have h0 : ({} : Tree).step (.str (mem.take len)) = some { root := some (.str (mem.take len)) } := rfl
    have hr : Rel False L { root := some (.str (mem.take len)) } (pushBlob {} (createBlob [] 5 (mem.take len) [mem[len]])) :=
      pushBlob_rel rel_init h0 (good_str _ _ _ fun h => h.elim) (by simp only [weigh, List.length_cons, List.length_nil]; omega)
    obtain ⟨b, j1, j2, j3⟩ := finish_rel (dbg := dbg) hr rfl
    have hw : weigh (.str (mem.take len)) + 17 < 2 ^ 64 := by
      simp only [weigh, List.length_take]; omega
    obtain ⟨r, j4, j5⟩ := j3 (Nat.lt_of_le_of_lt j2 hw)
    refine ⟨_, b, r, ?_, j1, j4, Holds.agrees (agrees_doc H (.str (mem.take len)) trivial trivial) j5⟩
    simp only [strView, hm]

/-- Both cases occur: "ab" in an allocation of two bytes, and in one of three. -/
example : strView {} [0x61, 0x62] 2 = .ub ∧ 2 < ([0x61, 0x62, 0x63] : Bytes).length := ⟨rfl, by decide⟩

/-- C88, CBOR to Flex, any value with any definite-length encoding, in a buffer that ends with it: the byte behind the buffer is read
exactly if the value ends in a string (`Val.endsInStr`); otherwise the value is translated. -/
theorem c88_cbor_to_flex_refuted (H : L.Law) (dbg : Bool) {v : Val} (hd : v.Distinct) (hn : v.NulFree) (hs : v.Small) (hF : Fits v)
    {b : Bytes} (he : Cbor.Enc false v b) (hl : b.length < 2 ^ 64) {fuel f : Nat} (hf : b.length ≤ fuel) (hdep : v.depth ≤ f) :
    (v.endsInStr = true → translateView L dbg (Cbor.reader false fuel) Cbor.View.behind f ⟨b, 0⟩ = .ub) ∧
    (v.endsInStr = false → ∃ r', translateView L dbg (Cbor.reader false fuel) Cbor.View.behind f ⟨b, 0⟩ = .ok r' ∧
      reader.Agrees r' v.sortKeys) := by
  have ha : At b 0 b := ⟨[], [], by simp, rfl⟩
  have hag : (Cbor.reader false fuel).Agrees ⟨b, 0⟩ v :=
    Cbor.Enc.agrees (ind := false) (hard := false) hl hf v he ha hs (fun h => by cases h)
  obtain ⟨h1, h2⟩ := c88_to_flex_partial H dbg Cbor.View.behind_cases hag hd hn hF hdep
  refine ⟨fun h => h2 fun hb => ?_, fun h => ?_⟩
  · obtain ⟨c, x, k1, k2, k3⟩ := Cbor.Enc.noneBehind hl hf v he ha hs hd (by omega) h
    obtain ⟨y, hy⟩ := hb c x k1 k2
    rw [k3] at hy; cases hy
  · obtain ⟨r', k1, k2, _⟩ := h1 (Cbor.Enc.allBehind hl hf v he ha hs (.inr h))
    exact ⟨r', k1, k2⟩

/-- The hypotheses are met, in both cases: `{"a": "x"}` and `["x", 1]` as the CBOR writer encodes them. -/
example : (Cbor.encB (.map [([0x61], .str [0x78])]) = [0xa1, 0x61, 0x61, 0x61, 0x78] ∧
      Cbor.Enc false (.map [([0x61], .str [0x78])]) (Cbor.encB (.map [([0x61], .str [0x78])])) ∧
      (Val.map [([0x61], .str [0x78])]).endsInStr = true) ∧
    (Cbor.Enc false (.arr [.str [0x78], .uint 1]) (Cbor.encB (.arr [.str [0x78], .uint 1])) ∧
      (Val.arr [.str [0x78], .uint 1]).endsInStr = false) :=
  ⟨⟨by decide, Cbor.encB_enc _ (by decide), by decide⟩, Cbor.encB_enc _ (by decide), by decide⟩

/-- C88, MessagePack to Flex, any value with any encoding, `t` behind it in its allocation: a byte outside the allocation is read
exactly if the value ends in a string and nothing follows; otherwise the value is translated. -/
theorem c88_msgpack_to_flex_refuted (H : L.Law) (dbg : Bool) {v : Val} (hd : v.Distinct) (hn : v.NulFree) (hb : v.Below (2 ^ 32 - 5))
    (hF : Fits v) {b : Bytes} (he : MsgPack.Enc v b) (t : Bytes) {f : Nat} (hdep : v.depth ≤ f) :
    (v.endsInStr = true ∧ t = [] → translateView L dbg MsgPack.readerS MsgPack.Span.behind f ⟨b, t⟩ = .ub) ∧
    (v.endsInStr = false ∨ t ≠ [] → ∃ r', translateView L dbg MsgPack.readerS MsgPack.Span.behind f ⟨b, t⟩ = .ok r' ∧
      reader.Agrees r' v.sortKeys) := by
  have hag : MsgPack.readerS.Agrees ⟨b, t⟩ v :=
    MsgPack.readerS_over.agrees (MsgPack.agrees_of_enc v b [] hb he) ⟨b, t⟩ (by simp)
  obtain ⟨h1, h2⟩ := c88_to_flex_partial H dbg MsgPack.Span.behind_cases hag hd hn hF hdep
  refine ⟨?_, fun h => ?_⟩
  · rintro ⟨h, rfl⟩
    refine h2 fun hb' => ?_
    obtain ⟨c, x, k1, k2, k3⟩ := MsgPack.Enc.noneBehind v hb he hd h
    obtain ⟨y, hy⟩ := hb' c x k1 k2
    rw [k3] at hy; cases hy
  · have := MsgPack.Enc.allBehind v [] t hb he h.symm
    rw [List.append_nil] at this
    obtain ⟨r', k1, k2, _⟩ := h1 this
    exact ⟨r', k1, k2⟩

/-- The hypotheses are met, in both cases: `{"a": "x"}` and `["x", 1]`. -/
example : (MsgPack.Enc (.map [([0x61], .str [0x78])]) [0x81, 0xa1, 0x61, 0xa1, 0x78] ∧ (Val.map [([0x61], .str [0x78])]).endsInStr = true) ∧
    (MsgPack.Enc (.arr [.str [0x78], .uint 1]) [0x92, 0xa1, 0x78, 1] ∧ (Val.arr [.str [0x78], .uint 1]).endsInStr = false) := by
  refine ⟨⟨?_, by decide⟩, ?_, by decide⟩
  · exact ⟨[0x81], [[0xa1, 0x61], [0xa1, 0x78]], .fix (by decide),
      ⟨[0xa1], [0xa1, 0x78], [], .fix (by decide), ⟨[0xa1], .fix (by decide), rfl⟩, rfl, rfl⟩, rfl⟩
  · exact ⟨[0x92], [[0xa1, 0x78], [1]], .fix (by decide),
      ⟨[0xa1, 0x78], [[1]], ⟨[0xa1], .fix (by decide), rfl⟩, ⟨[1], [], .posfix (by decide) (by decide), rfl, rfl⟩, rfl⟩, rfl⟩

end Zer.Flex

namespace Zer.Zera

/-- C88, ZERA to Flex, any value that serializes, with any inline threshold: a byte outside the message is read exactly if its
arena ends with a string (`strEnd`); otherwise the value is translated. -/
theorem c88_zera_to_flex_refuted {L : Flex.Lib} (H : L.Law) (dbg : Bool) {thr : Nat} (hthr : thr ≤ 12) {v : Val} (hd : v.Distinct)
    (hn : v.NulFree) (hF : Flex.Fits v) {b : Bytes} (hb : serializeEvs thr (emit v) = .ok b) {f : Nat} (hdep : v.depth ≤ f) :
    ∃ r, initFrom b = .ok r ∧
      (strEnd thr 0 false v = true → Flex.translateView L dbg reader View.behind f r = .ub) ∧
      (strEnd thr 0 false v = false → ∃ r', Flex.translateView L dbg reader View.behind f r = .ok r' ∧
        Flex.reader.AgreesStrictly r' v.sortKeys) := by
  obtain ⟨env, arena, ao, vr, F, hL, hstr⟩ := serialize_laid hthr hb
  have hl := hL.length
  have hat : At (env ++ vr) env.length vr := At.self_end _ _
  obtain ⟨h1, hH⟩ := F.opens hat hl
  have hag : reader.AgreesStrictly _ v := agrees_of_aligned (Repr.agreesAligned v hH rfl hat (by simpa using hL.repr.mono vr []))
  obtain ⟨k1, k2⟩ := Flex.c88_to_flex_partial H dbg View.behind_cases hag hd hn hF hdep
  refine ⟨_, h1, fun h => k2 fun hb' => ?_, fun h => ?_⟩
  · rw [h] at hL
    obtain ⟨c, x, j1, j2, j3⟩ := hL.noneBehind vr hd _ _ hH rfl hat rfl
    obtain ⟨y, hy⟩ := hb' c x j1 j2
    rw [j3] at hy; cases hy
  · rw [h] at hL
    have hroom : ∀ s, v = .str s → HeaderSize + env.length + 16 < b.length := by
      intro s hs
      have henv := hstr ⟨s, hs⟩
      have h5 := F.arenaOfs_eq
      subst henv
      have h6 : alignUp (HeaderSize + ([] ++ vr).length) ArenaBaseAlign = 48 := by
        rw [List.nil_append, hl]; decide
      rw [h6] at h5
      have := hH.arenaAt.bound
      simp only [h5] at this
      simp only [HeaderSize, List.length_nil]
      omega
    obtain ⟨r', j1, _, j3⟩ := k1 (hL.allBehind hl rfl _ _ hH rfl hat hroom)
    exact ⟨r', j1, j3 trivial⟩

/-- Both cases occur: an array of a string of 16 bytes and an empty blob ends with the string (nothing is added for the blob),
one of a string of 13 bytes and an empty blob does not (the blob is aligned). -/
example :
    (strEnd 12 0 false (.arr [.str (List.replicate 16 97), .blob []]) = true ∧
      ∃ b, serializeEvs 12 (emit (.arr [.str (List.replicate 16 97), .blob []])) = .ok b) ∧
    (strEnd 12 0 false (.arr [.str (List.replicate 13 97), .blob []]) = false ∧
      ∃ b, serializeEvs 12 (emit (.arr [.str (List.replicate 13 97), .blob []])) = .ok b) :=
  ⟨⟨by decide, _, rfl⟩, by decide, _, rfl⟩

end Zer.Zera
