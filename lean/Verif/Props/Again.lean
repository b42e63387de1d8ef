import Verif.Props.Normal
import Verif.Props.Size

/-!
# Property C116: what has been translated is left as it is

A message in any format, also one that is longer than it need be, has repeated keys or bytes behind it, is translated into a form that the next
translation into the same format does not change.
-/

namespace Zer

/-- `writeValue_run`, and nothing is shadowed by different values in what is written: the members under one key are all read at the same position. -/
theorem writeValue_alike {ρ : Type} {p : Prop} {R : Reader ρ} : ∀ (v : Val) (r : ρ), R.AgreesW p r v →
    ∃ v', v'.Same v.firstWins ∧ v'.firstWins = v' ∧
      ∀ (σ : Type) (W : Writer σ) (f : Nat), v.depth ≤ f → ∀ s : σ,
        writeValue R W f r s = W.run s (emit v') := by
  intro v
  induction v using Val.ind with
  | null =>
    intro r h
    cases h with | null hs =>
    obtain ⟨h1, _⟩ := hs
    refine ⟨.null, rfl, rfl, fun σ W f hf s => ?_⟩
    obtain ⟨f, rfl⟩ : ∃ g, f = g + 1 := ⟨f - 1, by simp [Val.depth] at hf; omega⟩
    simp [writeValue, h1, emit]
  | bool b =>
    intro r h
    cases h with | bool hs hb =>
    obtain ⟨h1, h2, _⟩ := hs
    refine ⟨.bool b, rfl, rfl, fun σ W f hf s => ?_⟩
    obtain ⟨f, rfl⟩ : ∃ g, f = g + 1 := ⟨f - 1, by simp [Val.depth] at hf; omega⟩
    simp [writeValue, h1, h2, hb, emit]
  | int i =>
    intro r h
    cases h with | int hs hstrict =>
    obtain ⟨⟨h1, h2, ⟨ib, ub, h3, h4, hor⟩, _⟩, hi, hu⟩ := hs
    cases ib with
    | true =>
      obtain ⟨x, hx, hxe⟩ := hi h3
      have : x = i := Int64.toInt_inj.1 hxe
      subst this
      refine ⟨.int x, rfl, rfl, fun σ W f hf s => ?_⟩
      obtain ⟨f, rfl⟩ : ∃ g, f = g + 1 := ⟨f - 1, by simp [Val.depth] at hf; omega⟩
      simp [writeValue, h1, h2, h3, hx, emit]
    | false =>
      simp only [Bool.false_or] at hor
      subst hor
      obtain ⟨y, hy, hye⟩ := hu h4
      refine ⟨.uint y, Val.canon_int_of hye, rfl, fun σ W f hf s => ?_⟩
      · obtain ⟨f, rfl⟩ : ∃ g, f = g + 1 := ⟨f - 1, by simp [Val.depth] at hf; omega⟩
        simp [writeValue, h1, h2, h3, h4, hy, emit]
  | uint n =>
    intro r h
    cases h with | uint hs hstrict =>
    obtain ⟨⟨h1, h2, ⟨ib, ub, h3, h4, hor⟩, _⟩, hi, hu⟩ := hs
    cases ib with
    | true =>
      obtain ⟨x, hx, hxe⟩ := hi h3
      refine ⟨.int x, Val.canon_int_eq hxe, rfl, fun σ W f hf s => ?_⟩
      · obtain ⟨f, rfl⟩ : ∃ g, f = g + 1 := ⟨f - 1, by simp [Val.depth] at hf; omega⟩
        simp [writeValue, h1, h2, h3, hx, emit]
    | false =>
      simp only [Bool.false_or] at hor
      subst hor
      obtain ⟨y, hy, hye⟩ := hu h4
      have : y = n := UInt64.toNat.inj (Int.ofNat.inj hye)
      subst this
      refine ⟨.uint y, rfl, rfl, fun σ W f hf s => ?_⟩
      obtain ⟨f, rfl⟩ : ∃ g, f = g + 1 := ⟨f - 1, by simp [Val.depth] at hf; omega⟩
      simp [writeValue, h1, h2, h3, h4, hy, emit]
  | dbl d =>
    intro r h
    cases h with | dbl hs hb =>
    obtain ⟨h1, h2, ⟨ib, ub, h3, h4, hor⟩, h5, _⟩ := hs
    simp only [Bool.or_eq_false_iff] at hor
    obtain ⟨rfl, rfl⟩ := hor
    refine ⟨.dbl d, rfl, rfl, fun σ W f hf s => ?_⟩
    obtain ⟨f, rfl⟩ : ∃ g, f = g + 1 := ⟨f - 1, by simp [Val.depth] at hf; omega⟩
    simp [writeValue, h1, h2, h3, h4, h5, hb, emit]
  | str x =>
    intro r h
    cases h with | str hs _ hb =>
    obtain ⟨h1, h2, ⟨ib, ub, h3, h4, hor⟩, h5, h6, _⟩ := hs
    simp only [Bool.or_eq_false_iff] at hor
    obtain ⟨rfl, rfl⟩ := hor
    refine ⟨.str x, rfl, rfl, fun σ W f hf s => ?_⟩
    obtain ⟨f, rfl⟩ : ∃ g, f = g + 1 := ⟨f - 1, by simp [Val.depth] at hf; omega⟩
    simp [writeValue, h1, h2, h3, h4, h5, h6, hb, emit]
  | blob x =>
    intro r h
    cases h with | blob hs hb _ =>
    obtain ⟨h1, h2, ⟨ib, ub, h3, h4, hor⟩, h5, h6, h7, _⟩ := hs
    simp only [Bool.or_eq_false_iff] at hor
    obtain ⟨rfl, rfl⟩ := hor
    refine ⟨.blob x, rfl, rfl, fun σ W f hf s => ?_⟩
    obtain ⟨f, rfl⟩ : ∃ g, f = g + 1 := ⟨f - 1, by simp [Val.depth] at hf; omega⟩
    simp [writeValue, h1, h2, h3, h4, h5, h6, h7, hb, emit]
  | arr xs ih =>
    intro r h
    cases h with | arr child hs hn hg _ hc =>
    obtain ⟨h1, h2, ⟨ib, ub, h3, h4, hor⟩, h5, h6, h7, h8, h9⟩ := hs
    simp only [Bool.or_eq_false_iff] at hor
    obtain ⟨rfl, rfl⟩ := hor
    have hex : ∀ i : Nat, ∃ w : Val, ∀ hi : i < xs.length,
        w.Same xs[i].firstWins ∧ w.firstWins = w ∧
        ∀ (σ : Type) (W : Writer σ) (f : Nat), xs[i].depth ≤ f → ∀ s : σ,
          writeValue R W f (child i) s = W.run s (emit w) := by
      intro i
      by_cases hi : i < xs.length
      · obtain ⟨w, hw⟩ := ih xs[i] (List.getElem_mem _) (child i) (hc i hi)
        exact ⟨w, fun _ => hw⟩
      · exact ⟨.null, fun h => absurd h hi⟩
    let g : Nat → Val := fun i => Classical.choose (hex i)
    have hgs := fun i => Classical.choose_spec (hex i)
    have hlist : ∀ {P : Val → Val → Prop}, (∀ i (hi : i < xs.length), P (g i) xs[i]) →
        ∀ i (h1 : i < ((List.range' 0 xs.length).map g).length) (h2 : i < xs.length),
          P ((List.range' 0 xs.length).map g)[i] xs[i] := by
      intro P h i h1 h2
      simpa using h i h2
    refine ⟨.arr ((List.range' 0 xs.length).map g), ?_, ?_, ?_⟩
    · simp only [Val.Same, Val.firstWins_arr, Val.canon, Val.canonList_eq]
      congr 1
      apply List.ext_getElem (by simp)
      intro i hi hi'
      simp only [List.length_map] at hi'
      have := (hgs i hi').1
      simpa [g, Val.Same] using this
    · rw [Val.firstWins_arr]
      congr 1
      rw [List.map_map]
      apply List.map_congr_left
      intro i hi
      have hi' : i < xs.length := by simpa using List.mem_range'_1.1 hi
      exact (hgs i hi').2.1
    · intro σ W f hf s
      obtain ⟨f, rfl⟩ : ∃ g, f = g + 1 := ⟨f - 1, by simp [Val.depth] at hf; omega⟩
      simp only [Val.depth, Nat.add_le_add_iff_right] at hf
      simp only [writeValue, h1, h2, h3, h4, h5, h6, h7, h8, h9, hn, emit, Res.ok_bind,
        Bool.false_eq_true, if_false, if_true, Writer.run_cons, W.run_append]
      rw [show ((List.range' 0 xs.length).map g).length = xs.length by simp]
      congr 1; funext s1
      rw [writeElems_run (W := W) (child := child) (f := g) xs.length 0 s1
        (fun j _ hj => hg j (by omega))
        (fun j _ hj s => (hgs j (by omega)).2.2 σ W f
          (Nat.le_trans (Val.depth_le_list (List.getElem_mem _)) hf) s)]
      congr 1; funext s2
      simp
  | map ms ih =>
    intro r h
    cases h with | map child hs hk _ hg _ hc =>
    obtain ⟨h1, h2, ⟨ib, ub, h3, h4, hor⟩, h5, h6, h7, h8, _⟩ := hs
    simp only [Bool.or_eq_false_iff] at hor
    obtain ⟨rfl, rfl⟩ := hor
    have hex : ∀ k : Bytes, ∃ w : Val, ∀ v, firstVal ms k = some v →
        w.Same v.firstWins ∧ w.firstWins = w ∧
        ∀ (σ : Type) (W : Writer σ) (f : Nat), v.depth ≤ f → ∀ s : σ,
          writeValue R W f (child k) s = W.run s (emit w) := by
      intro k
      cases hv : firstVal ms k with
      | some v =>
        obtain ⟨w, hw⟩ := ih (k, v) (firstVal_mem hv) (child k) (hc k v hv)
        exact ⟨w, fun v' e => by injection e with e; subst e; exact hw⟩
      | none => exact ⟨.null, fun _ h => by cases h⟩
    let g : Bytes → Val := fun i => Classical.choose (hex i)
    have hgs := fun i => Classical.choose_spec (hex i)
    refine ⟨.map ((ms.map Prod.fst).map (fun k => (k, g k))), ?_, ?_, ?_⟩
    · rw [Val.firstWins_map]
      simp only [Val.Same, Val.canon, Val.canonEntries_eq, List.map_map]
      congr 1
      apply List.map_congr_left
      intro m hm
      obtain ⟨v, hv⟩ := firstVal_isSome.1 (List.mem_map_of_mem (f := Prod.fst) hm)
      have := (hgs m.1 v hv).1
      simpa [g, Val.Same, hv] using this
    · rw [Val.firstWins_map]
      congr 1
      have e : List.map Prod.fst (List.map (fun k => (k, g k)) (ms.map Prod.fst)) = ms.map Prod.fst := by
        rw [List.map_map]; exact List.map_id _
      rw [e]
      apply List.map_congr_left
      intro k hk
      obtain ⟨v, hv⟩ := firstVal_isSome.1 hk
      rw [firstVal_mapKeys hk, Option.getD_some]
      exact congrArg _ (hgs k v hv).2.1
    · intro σ W f hf s
      obtain ⟨f, rfl⟩ : ∃ g, f = g + 1 := ⟨f - 1, by simp [Val.depth] at hf; omega⟩
      simp only [Val.depth, Nat.add_le_add_iff_right] at hf
      simp only [writeValue, h1, h2, h3, h4, h5, h6, h7, h8, hk, emit, Res.ok_bind,
        Bool.false_eq_true, if_false, if_true, Writer.run_cons, W.run_append]
      rw [show ((ms.map Prod.fst).map (fun k => (k, g k))).length = (ms.map Prod.fst).length by simp]
      congr 1; funext s1
      rw [writeEntries_run (W := W) (child := child) (f := g) (ms.map Prod.fst) s1
        (fun k hk' => hg k hk')
        (fun k hk' s => by
          obtain ⟨v, hv⟩ := firstVal_isSome.1 hk'
          exact (hgs k v hv).2.2 σ W f (Nat.le_trans (Val.depth_le_entries (firstVal_mem hv)) hf) s)]
      congr 1; funext s2
      simp

/-- A position that presents a value is rewritten as a value that presents itself. -/
theorem Proto.rewrite_alike (P : Proto) {ρ : Type} {R : Reader ρ} {p : Prop} {r : ρ} {v : Val} (h : R.AgreesW p r v) {f : Nat} (hf : v.depth ≤ f) :
    ∃ v', v'.Same v.firstWins ∧ v'.firstWins = v' ∧ P.rewrite R f r = P.serialize v' := by
  obtain ⟨v', h1, h2, h3⟩ := writeValue_alike v r h
  exact ⟨v', h1, h2, by rw [Proto.rewrite, h3 _ P.writer f hf P.init]; rfl⟩

/-- **C116** Any bytes in any format, translated into a format whose bytes do not show the signedness of integers or whose readers do: translated once
more into the same format, the bytes stay as they are. -/
theorem c116_again {P : Proto} {q : Prop} {D : Val → Prop} (hP : P.RoundTrips q D) (hB : P.Blind ∨ q) {ρ : Type} {R : Reader ρ} {I : ρ → Prop}
    (H : R.Fits I) {r : ρ} (hI : I r) {f : Nat} {b : Bytes} (h : P.rewrite R f r = .ok b)
    (hD : ∀ x, R.Agrees r x → P.serialize x = .ok b → D x) :
    ∃ r', P.opn b = .ok r' ∧ P.rewrite P.reader f r' = .ok b := by
  obtain ⟨s, hs, -⟩ := Res.bind_eq_ok.1 h
  obtain ⟨v, hv, dv⟩ := presents_of_writeValue H hI hs
  obtain ⟨x, h1, h2, h3⟩ := P.rewrite_alike hv dv
  rw [h] at h3
  obtain ⟨r', h4, h5⟩ := hP x b (hD x (Reader.Agrees.same _ hv.firstWins (Eq.symm h1)) h3.symm) h3.symm
  have dx : x.depth ≤ f := by
    rw [Val.depth_same h1]
    exact Nat.le_trans (Val.depth_firstWins v) dv
  obtain ⟨y, k1, k2, k3⟩ := P.rewrite_run h5 dx
  refine ⟨r', h4, ?_⟩
  rw [k3, h3]
  rw [h2] at k1 k2
  rcases hB with hB | hq
  · exact hB k1
  · rw [k2 hq]

/-! ## The formats -/

/-- C116 into ZERA, from any bytes in any format; there is no condition. -/
theorem Zera.c116_zera {ρ : Type} {R : Reader ρ} {I : ρ → Prop} (H : R.Fits I) {r : ρ} (hI : I r) {f : Nat} {b : Bytes}
    (h : Zera.proto.rewrite R f r = .ok b) : Zera.proto.recode Zera.proto f b = .ok b := by
  obtain ⟨r', h1, h2⟩ := c116_again Zera.proto_roundTrips (.inr trivial) H hI h fun _ _ _ => trivial
  show (Zera.proto.opn b >>= fun r => Zera.proto.rewrite Zera.reader f r) = _
  rw [h1]; exact h2

namespace MsgPack

mutual
theorem below_of_size {n : Nat} : ∀ v : Val, v.items + v.texts + v.keyBytes < n → v.Below n
  | .str s, h => by simp only [Val.Below, Val.texts, Val.items] at h ⊢; omega
  | .blob s, h => by simp only [Val.Below, Val.texts, Val.items] at h ⊢; omega
  | .arr xs, h => by
    simp only [Val.texts, Val.items, Val.keyBytes] at h
    simp only [Val.Below]
    exact belowList_of_size xs (by omega)
  | .map ms, h => by
    simp only [Val.texts, Val.items, Val.keyBytes] at h
    simp only [Val.Below]
    exact belowEntries_of_size ms (by omega)
  | .null, _ | .bool _, _ | .int _, _ | .uint _, _ | .dbl _, _ => by simp [Val.Below]
theorem belowList_of_size {n : Nat} : ∀ xs : List Val, Val.itemsList xs + Val.textsList xs + Val.keyBytesList xs < n → Val.Below.belowList n xs
  | [], _ => by simp [Val.Below.belowList]
  | x :: xs, h => by
    simp only [Val.itemsList, Val.textsList, Val.keyBytesList] at h
    exact ⟨below_of_size x (by omega), belowList_of_size xs (by omega)⟩
theorem belowEntries_of_size {n : Nat} : ∀ ms : List (Bytes × Val),
    Val.itemsEntries ms + Val.textsEntries ms + Val.keyBytesEntries ms < n → Val.Below.belowEntries n ms
  | [], _ => by simp [Val.Below.belowEntries]
  | (k, v) :: ms, h => by
    simp only [Val.itemsEntries, Val.textsEntries, Val.keyBytesEntries] at h
    exact ⟨by omega, below_of_size v (by omega), belowEntries_of_size ms (by omega)⟩
end

theorem length_le_itemsList : ∀ xs : List Val, xs.length ≤ Val.itemsList xs
  | [] => Nat.le_refl _
  | x :: xs => by
    have := length_le_itemsList xs
    have : 1 ≤ x.items := by cases x <;> simp [Val.items]
    simp only [List.length_cons, Val.itemsList]; omega
theorem length_le_itemsEntries : ∀ ms : List (Bytes × Val), ms.length ≤ Val.itemsEntries ms
  | [] => Nat.le_refl _
  | (k, v) :: ms => by
    have := length_le_itemsEntries ms
    simp only [List.length_cons, Val.itemsEntries]; omega

mutual
theorem sized_of_size : ∀ v : Val, v.items + v.texts + v.keyBytes < 2 ^ 32 → v.Sized
  | .str s, h => by simp only [Val.Sized, Val.texts, Val.items] at h ⊢; omega
  | .blob s, h => by simp only [Val.Sized, Val.texts, Val.items] at h ⊢; omega
  | .arr xs, h => by
    simp only [Val.texts, Val.items, Val.keyBytes] at h
    have := length_le_itemsList xs
    exact ⟨by omega, sizedList_of_size xs (by omega)⟩
  | .map ms, h => by
    simp only [Val.texts, Val.items, Val.keyBytes] at h
    have := length_le_itemsEntries ms
    exact ⟨by omega, sizedEntries_of_size ms (by omega)⟩
  | .null, _ | .bool _, _ | .int _, _ | .uint _, _ | .dbl _, _ => by simp [Val.Sized]
theorem sizedList_of_size : ∀ xs : List Val, Val.itemsList xs + Val.textsList xs + Val.keyBytesList xs < 2 ^ 32 → Val.sizedList xs
  | [], _ => by simp [Val.sizedList]
  | x :: xs, h => by
    simp only [Val.itemsList, Val.textsList, Val.keyBytesList] at h
    exact ⟨sized_of_size x (by omega), sizedList_of_size xs (by omega)⟩
theorem sizedEntries_of_size : ∀ ms : List (Bytes × Val),
    Val.itemsEntries ms + Val.textsEntries ms + Val.keyBytesEntries ms < 2 ^ 32 → Val.sizedEntries ms
  | [], _ => by simp [Val.sizedEntries]
  | (k, v) :: ms, h => by
    simp only [Val.itemsEntries, Val.textsEntries, Val.keyBytesEntries] at h
    exact ⟨by omega, sized_of_size v (by omega), sizedEntries_of_size ms (by omega)⟩
end

/-- C116 into MessagePack, from any bytes in any format, if less than 4 GiB - 5 come out. -/
theorem c116_msgpack {ρ : Type} {R : Reader ρ} {I : ρ → Prop} (H : R.Fits I) {r : ρ} (hI : I r) {f : Nat} {b : Bytes}
    (h : proto.rewrite R f r = .ok b) (hb : b.length < 2 ^ 32 - 5) : proto.recode proto f b = .ok b := by
  obtain ⟨r', h1, h2⟩ := c116_again proto_roundTrips (.inl blind) H hI h fun x _ e => by
    have := (c97_msgpack e).1
    exact ⟨sized_of_size x (by omega), below_of_size x (by omega)⟩
  show (proto.opn b >>= fun r => proto.rewrite reader f r) = _
  rw [h1]; exact h2

end MsgPack

/-- C116 into CBOR, from any bytes in any format, if no unsigned number from 2^63 on is presented. -/
theorem Cbor.c116_cbor_partial {utf8 : Bytes → Bool} {maxDepth fuel : Nat} {ρ : Type} {R : Reader ρ} {I : ρ → Prop} (H : R.Fits I) {r : ρ} (hI : I r)
    {f : Nat} {b : Bytes} (h : (Cbor.proto utf8 maxDepth false fuel).rewrite R f r = .ok b) (hb : b.length < 2 ^ 64) (hf : b.length ≤ fuel)
    (hs : ∀ v, R.Agrees r v → v.Small) :
    (Cbor.proto utf8 maxDepth false fuel).recode (Cbor.proto utf8 maxDepth false fuel) f b = .ok b := by
  obtain ⟨r', h1, h2⟩ := c116_again Cbor.proto_roundTrips (.inl (Cbor.blind false)) H hI h fun x hx e =>
    ⟨hs x hx, fun b' e' => by rw [e] at e'; obtain rfl := Res.ok.inj e'; exact ⟨hb, hf⟩⟩
  show ((Cbor.proto utf8 maxDepth false fuel).opn b >>= fun r => (Cbor.proto utf8 maxDepth false fuel).rewrite (Cbor.reader false fuel) f r) = _
  rw [h1]; exact h2

/-- C116 into JSON, from any bytes in any format that present nothing JSON cannot carry (C32). -/
theorem Json.c116_json_partial {fmt : UInt64 → Bytes} (hfmt : Json.FmtOk fmt) (dbg : Bool) {ρ : Type} {R : Reader ρ} {I : ρ → Prop} (H : R.Fits I)
    {r : ρ} (hI : I r) {f : Nat} {b : Bytes} (h : (Json.proto (Json.std fmt) dbg).rewrite R f r = .ok b)
    (hs : ∀ v, R.Agrees r v → Json.Plain v ∧ Json.KeysOk v) :
    (Json.proto (Json.std fmt) dbg).recode (Json.proto (Json.std fmt) dbg) f b = .ok b := by
  obtain ⟨r', h1, h2⟩ := c116_again (Json.proto_roundTrips (Json.std_law hfmt) dbg) (.inl (Json.blind fmt dbg)) H hI h fun x hx _ => hs x hx
  show ((Json.proto (Json.std fmt) dbg).opn b >>= fun r => (Json.proto (Json.std fmt) dbg).rewrite Json.reader f r) = _
  rw [h1]; exact h2

/-- C116 for any bytes read as MessagePack: what is translated into MessagePack is left as it is from then on. -/
theorem MsgPack.c116_any {f : Nat} {x b : Bytes} (h : MsgPack.proto.recode MsgPack.proto f x = .ok b) (hb : b.length < 2 ^ 32 - 5) :
    MsgPack.proto.recode MsgPack.proto f b = .ok b :=
  MsgPack.c116_msgpack MsgPack.fits trivial (r := x) h hb

/-- C116 for any bytes read as ZERA. -/
theorem Zera.c116_any {f : Nat} {x b : Bytes} (h : Zera.proto.recode Zera.proto f x = .ok b) : Zera.proto.recode Zera.proto f b = .ok b := by
  obtain ⟨r, h1, h2⟩ := Res.bind_eq_ok.1 h
  exact Zera.c116_zera Zera.fits ⟨x, r, h1, .refl⟩ h2

/-- `{"a": 5, "a": 7}` with numbers longer than they need be and a byte behind: the first translation changes it, the second does not. -/
example : MsgPack.proto.recode MsgPack.proto 3 [0x82, 0xa1, 0x61, 0xcd, 0, 5, 0xa1, 0x61, 0x07, 0xc1] = .ok [0x82, 0xa1, 0x61, 5, 0xa1, 0x61, 5] ∧
    MsgPack.proto.recode MsgPack.proto 3 [0x82, 0xa1, 0x61, 5, 0xa1, 0x61, 5] = .ok [0x82, 0xa1, 0x61, 5, 0xa1, 0x61, 5] := by
  decide +kernel

/-- C116 is false into Flex: a map whose keys are not in order is written in the order of the source, and read in the order of the keys, so that the
second translation moves its values. -/
theorem Flex.c116_flex_refuted : ∃ b c, (Flex.proto Flex.std false).rewrite MsgPack.reader 2 [0x82, 0xa1, 0x62, 0x02, 0xa1, 0x61, 0x01] = .ok b ∧
    (Flex.proto Flex.std false).recode (Flex.proto Flex.std false) 2 b = .ok c ∧ c ≠ b :=
  ⟨_, _, rfl, rfl, by decide +kernel⟩

/-- C116 into Flex, from any bytes in any format that present documents with distinct keys without NUL: the second translation may put the keys in order,
the third changes nothing; if they are in order, the second changes nothing. Missing: repeated keys and keys with NUL. -/
theorem Flex.c116_flex_partial {L : Flex.Lib} (HL : L.Law) (dbg : Bool) {ρ : Type} {R : Reader ρ} {I : ρ → Prop} (H : R.Fits I) {r : ρ} (hI : I r)
    {f : Nat} {b : Bytes} (h : (Flex.proto L dbg).rewrite R f r = .ok b)
    (hs : ∀ v, R.Agrees r v → v.Distinct ∧ v.NulFree ∧ Flex.Fits v) :
    (∃ c, (Flex.proto L dbg).recode (Flex.proto L dbg) f b = .ok c ∧ (Flex.proto L dbg).recode (Flex.proto L dbg) f c = .ok c) ∧
    ((∀ v, R.Agrees r v → v.Sorted) → (Flex.proto L dbg).recode (Flex.proto L dbg) f b = .ok b) := by
  obtain ⟨s, hs', -⟩ := Res.bind_eq_ok.1 h
  obtain ⟨v, hv, dv⟩ := presents_of_writeValue H hI hs'
  obtain ⟨x, h1, h2, h3⟩ := (Flex.proto L dbg).rewrite_alike hv dv
  rw [h] at h3
  have hx : R.Agrees r x := Reader.Agrees.same _ hv.firstWins (Eq.symm h1)
  have dx : x.depth ≤ f := by
    rw [Val.depth_same h1]
    exact Nat.le_trans (Val.depth_firstWins v) dv
  obtain ⟨k1, k2, k3⟩ := hs x hx
  obtain ⟨⟨c, c1, _, c2⟩, c3⟩ := c89_flex_partial HL dbg k1 k2 k3 dx h3.symm
  exact ⟨⟨c, c1, c2⟩, fun hsort => (c3 (hsort x hx)).1⟩

/-- C116 is false into CBOR for numbers from 2^63 on: they come back as negative. -/
theorem Cbor.c116_cbor_refuted : ∃ b c, (Cbor.proto (fun _ => true) 9 false 99).rewrite MsgPack.reader 1 [0xcf, 255, 255, 255, 255, 255, 255, 255, 255] = .ok b ∧
    (Cbor.proto (fun _ => true) 9 false 99).recode (Cbor.proto (fun _ => true) 9 false 99) 1 b = .ok c ∧ c ≠ b :=
  ⟨_, _, rfl, rfl, by decide +kernel⟩

end Zer
