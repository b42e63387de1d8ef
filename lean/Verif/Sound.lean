import Verif.Props.Lookup
import Verif.Props.Json
import Verif.Amplify

/-!
# What a translation that succeeds says about its source

`write_value` (translate.hpp:33-72) asks for the kind, reads the value or lists the children, and recurs. If no question
raises, the position presents a value, provided that the answers of the reader fit together.
-/

namespace Zer

variable {ρ : Type}

/-- The answers of a reader fit together, at every position of `I`; what they are does not matter. -/
structure Reader.Fits (R : Reader ρ) (I : ρ → Prop) : Prop where
  kinds : ∀ {r}, I r → (∀ (σ : Type) (W : Writer σ) f s t, writeValue R W f r s ≠ .ok t) ∨
    ∃ a b c d e g h i, R.Shows r a b c d e g h i ∧ ([a, b, c, d, e, g, h, i && !g].filter id).length ≤ 1
  ints : ∀ {r x}, I r → R.isInt r = .ok true → R.asInt64 r = .ok x → R.isUInt r = .ok true →
    ∃ y, R.asUInt64 r = .ok y ∧ (y.toNat : Int) = x.toInt
  strs : ∀ {r s}, I r → R.asStringView r = .ok s → R.asString r = .ok s
  size : ∀ {r n i}, I r → R.arraySize r = .ok n → n ≤ i → R.getIdx r i = .err .deser
  keys : ∀ {r ks}, I r → R.mapKeys r = .ok ks → (∀ k ∈ ks, ∃ c, R.getKey r k = .ok c) → ∀ k, R.contains r k = .ok (decide (k ∈ ks))
  missing : ∀ {r k}, I r → R.contains r k = .ok false → R.getKey r k = .err .deser
  idx : ∀ {r i c}, I r → R.getIdx r i = .ok c → I c
  key : ∀ {r k c}, I r → R.getKey r k = .ok c → I c

theorem writeElems_ok {σ : Type} {R : Reader ρ} {rec : ρ → σ → Res σ} {r : ρ} : ∀ {n i : Nat} {s t : σ},
    writeElems R rec r n i s = .ok t → ∀ j, i ≤ j → j < i + n → ∃ c u u', R.getIdx r j = .ok c ∧ rec c u = .ok u' := by
  intro n
  induction n with
  | zero => intro i s t _ j h1 h2; omega
  | succ n ih =>
    intro i s t h j h1 h2
    obtain ⟨c, h3, h⟩ := Res.bind_eq_ok.1 h
    obtain ⟨u, h4, h⟩ := Res.bind_eq_ok.1 h
    by_cases e : j = i
    · subst e; exact ⟨c, s, u, h3, h4⟩
    · exact ih h j (by omega) (by omega)

theorem writeEntries_ok {σ : Type} {R : Reader ρ} {W : Writer σ} {rec : ρ → σ → Res σ} {r : ρ} : ∀ {ks : List Bytes} {s t : σ},
    writeEntries R W rec r ks s = .ok t → ∀ k ∈ ks, ∃ c u u', R.getKey r k = .ok c ∧ rec c u = .ok u' := by
  intro ks
  induction ks with
  | nil => intro s t _ k hk; cases hk
  | cons a ks ih =>
    intro s t h k hk
    obtain ⟨s1, -, h⟩ := Res.bind_eq_ok.1 h
    obtain ⟨c, h3, h⟩ := Res.bind_eq_ok.1 h
    obtain ⟨u, h4, h⟩ := Res.bind_eq_ok.1 h
    rcases List.mem_cons.1 hk with rfl | hk
    · exact ⟨c, s1, u, h3, h4⟩
    · exact ih h k hk

theorem depthList_le {m : Nat} : ∀ {xs : List Val}, (∀ x ∈ xs, x.depth ≤ m) → Val.depthList xs ≤ m
  | [], _ => Nat.zero_le _
  | x :: xs, h => Nat.max_le.2 ⟨h x List.mem_cons_self, depthList_le fun y hy => h y (List.mem_cons_of_mem _ hy)⟩

theorem depthEntries_le {m : Nat} : ∀ {ms : List (Bytes × Val)}, (∀ k v, (k, v) ∈ ms → v.depth ≤ m) → Val.depthEntries ms ≤ m
  | [], _ => Nat.zero_le _
  | (k, v) :: ms, h => Nat.max_le.2 ⟨h k v List.mem_cons_self, depthEntries_le fun a y hy => h a y (List.mem_cons_of_mem _ hy)⟩

/-- An array whose size and elements are known. -/
theorem agrees_arr_of {R : Reader ρ} {r : ρ} {n : Nat} (hs : R.Shows r false false false false false false false true)
    (hn : R.arraySize r = .ok n) (ho : ∀ i, n ≤ i → R.getIdx r i = .err .deser)
    {m : Nat} (hc : ∀ i, i < n → ∃ c v, R.getIdx r i = .ok c ∧ R.Agrees c v ∧ v.depth ≤ m) :
    ∃ v, R.Agrees r v ∧ v.depth ≤ m + 1 := by
  have hc' : ∀ i, ∃ p : ρ × Val, i < n → R.getIdx r i = .ok p.1 ∧ R.Agrees p.1 p.2 ∧ p.2.depth ≤ m := by
    intro i
    by_cases h : i < n
    · obtain ⟨c, v, h⟩ := hc i h; exact ⟨(c, v), fun _ => h⟩
    · exact ⟨(r, .null), fun h' => absurd h' h⟩
  have ⟨g, hg⟩ := Classical.axiomOfChoice hc'
  refine ⟨.arr ((List.range n).map (fun i => (g i).2)), .arr (fun i => (g i).1) hs (by simpa using hn) ?_ ?_ ?_, ?_⟩
  · intro i hi; exact (hg i (by simpa using hi)).1
  · intro i hi; exact ho i (by simpa using hi)
  · intro i hi; simpa using (hg i (by simpa using hi)).2.1
  · simp only [Val.depth]
    refine Nat.succ_le_succ (depthList_le fun x hx => ?_)
    obtain ⟨i, h1, rfl⟩ := List.mem_map.1 hx
    exact (hg i (List.mem_range.1 h1)).2.2

theorem firstVal_graph {g : Bytes → Val} {ks : List Bytes} {k : Bytes} {v : Val}
    (h : firstVal (ks.map (fun k => (k, g k))) k = some v) : k ∈ ks ∧ v = g k := by
  have := firstVal_mem h
  obtain ⟨a, h1, h2⟩ := List.mem_map.1 this
  injection h2 with h2 h3
  subst h2; exact ⟨h1, h3.symm⟩

/-- A map whose keys and values are known. -/
theorem agrees_map_of {R : Reader ρ} {r : ρ} {ks : List Bytes} (hs : R.Shows r false false false false false false true false)
    (hk : R.mapKeys r = .ok ks) (hq : ∀ k, R.contains r k = .ok (decide (k ∈ ks))) (ho : ∀ k, k ∉ ks → R.getKey r k = .err .deser)
    {m : Nat} (hc : ∀ k, k ∈ ks → ∃ c v, R.getKey r k = .ok c ∧ R.Agrees c v ∧ v.depth ≤ m) :
    ∃ v, R.Agrees r v ∧ v.depth ≤ m + 1 := by
  have hc' : ∀ k, ∃ p : ρ × Val, k ∈ ks → R.getKey r k = .ok p.1 ∧ R.Agrees p.1 p.2 ∧ p.2.depth ≤ m := by
    intro k
    by_cases h : k ∈ ks
    · obtain ⟨c, v, h⟩ := hc k h; exact ⟨(c, v), fun _ => h⟩
    · exact ⟨(r, .null), fun h' => absurd h' h⟩
  have ⟨g, hg⟩ := Classical.axiomOfChoice hc'
  have e : (ks.map (fun k => (k, (g k).2))).map Prod.fst = ks := by simp [Function.comp_def]
  refine ⟨.map (ks.map (fun k => (k, (g k).2))), .map (fun k => (g k).1) hs (by rw [e]; exact hk) ?_ ?_ ?_ ?_, ?_⟩
  · intro k; rw [e]; exact hq k
  · intro k h; rw [e] at h; exact (hg k h).1
  · intro k h; rw [e] at h; exact ho k h
  · intro k v h
    obtain ⟨h1, rfl⟩ := firstVal_graph (g := fun k => (g k).2) h
    exact (hg k h1).2.1
  · simp only [Val.depth]
    refine Nat.succ_le_succ (depthEntries_le fun k v hx => ?_)
    obtain ⟨i, h1, h2⟩ := List.mem_map.1 hx
    injection h2 with h2 h3
    subst h2; subst h3
    exact (hg i h1).2.2

/-- What can be translated presents a value. -/
theorem presents_of_writeValue {R : Reader ρ} {I : ρ → Prop} (H : R.Fits I) {σ : Type} {W : Writer σ} : ∀ {f : Nat} {r : ρ} {s t : σ},
    I r → writeValue R W f r s = .ok t → ∃ v, R.Agrees r v ∧ v.depth ≤ f := by
  intro f
  induction f with
  | zero => intro r s t _ h; cases h
  | succ f ih =>
    intro r s t hI h
    rcases H.kinds hI with hk | ⟨a1, a2, a3, a4, a5, a6, a7, a8, hs, hone⟩
    · exact (hk _ W _ _ _ h).elim
    · have hs' := hs
      obtain ⟨h1, h2, ⟨ib, ub, h3, h4, rfl⟩, h5, h6, h7, h8, h9⟩ := hs'
      simp only [writeValue, h1, h2, h3, h4, h5, h6, h7, h8, h9, Res.ok_bind] at h
      cases a1 with
      | true =>
        cases a2 <;> cases ib <;> cases ub <;> cases a4 <;> cases a5 <;> cases a6 <;> cases a7 <;> cases a8 <;> simp at hone
        exact ⟨_, .null hs, by simp [Val.depth]⟩
      | false =>
      simp only [Bool.false_eq_true, if_false] at h
      cases a2 with
      | true =>
        cases ib <;> cases ub <;> cases a4 <;> cases a5 <;> cases a6 <;> cases a7 <;> cases a8 <;> simp at hone
        obtain ⟨b, hb, -⟩ := Res.bind_eq_ok.1 h
        exact ⟨_, .bool hs hb, by simp [Val.depth]⟩
      | false =>
      simp only [Bool.false_eq_true, if_false] at h
      cases ib with
      | true =>
        cases a4 <;> cases a5 <;> cases a6 <;> cases a7 <;> cases a8 <;> simp at hone
        obtain ⟨x, hx, -⟩ := Res.bind_eq_ok.1 h
        exact ⟨.int x, .int ⟨hs, fun _ => ⟨x, hx, rfl⟩, fun hu => H.ints hI h3 hx hu⟩ (fun h => h.elim), by simp [Val.depth]⟩
      | false =>
      simp only [Bool.false_eq_true, if_false] at h
      cases ub with
      | true =>
        cases a4 <;> cases a5 <;> cases a6 <;> cases a7 <;> cases a8 <;> simp at hone
        obtain ⟨x, hx, -⟩ := Res.bind_eq_ok.1 h
        exact ⟨.uint x, .uint ⟨hs, (fun hu => by rw [h3] at hu; cases hu), fun _ => ⟨x, hx, rfl⟩⟩ (fun h => h.elim), by simp [Val.depth]⟩
      | false =>
      simp only [Bool.false_eq_true, if_false] at h
      cases a4 with
      | true =>
        cases a5 <;> cases a6 <;> cases a7 <;> cases a8 <;> simp at hone
        obtain ⟨x, hx, -⟩ := Res.bind_eq_ok.1 h
        exact ⟨_, .dbl hs hx, by simp [Val.depth]⟩
      | false =>
      simp only [Bool.false_eq_true, if_false] at h
      cases a5 with
      | true =>
        cases a6 <;> cases a7 <;> cases a8 <;> simp at hone
        obtain ⟨x, hx, -⟩ := Res.bind_eq_ok.1 h
        exact ⟨_, .str hs (H.strs hI hx) hx, by simp [Val.depth]⟩
      | false =>
      simp only [Bool.false_eq_true, if_false] at h
      cases a6 with
      | true =>
        cases a7 with
        | true => simp at hone
        | false =>
        obtain ⟨x, hx, -⟩ := Res.bind_eq_ok.1 h
        exact ⟨_, .blob hs hx (fun h => h.elim), by simp [Val.depth]⟩
      | false =>
      simp only [Bool.false_eq_true, if_false] at h
      cases a7 with
      | true =>
        cases a8 <;> simp at hone
        simp only [if_true] at h
        obtain ⟨ks, hk, h⟩ := Res.bind_eq_ok.1 h
        obtain ⟨s1, -, h⟩ := Res.bind_eq_ok.1 h
        obtain ⟨s2, h, -⟩ := Res.bind_eq_ok.1 h
        have hq := H.keys hI hk (fun k hm => by obtain ⟨c, -, -, h, -⟩ := writeEntries_ok h k hm; exact ⟨c, h⟩)
        refine agrees_map_of hs hk hq (fun k hn => H.missing hI ?_) (fun k hm => ?_)
        · rw [hq k, decide_eq_false hn]
        · obtain ⟨c, u, u', h10, h11⟩ := writeEntries_ok h k hm
          obtain ⟨v, hv⟩ := ih (H.key hI h10) h11
          exact ⟨c, v, h10, hv⟩
      | false =>
      simp only [Bool.false_eq_true, if_false] at h
      cases a8 with
      | true =>
        simp only [if_true] at h
        obtain ⟨n, hn, h⟩ := Res.bind_eq_ok.1 h
        obtain ⟨s1, -, h⟩ := Res.bind_eq_ok.1 h
        obtain ⟨s2, h, -⟩ := Res.bind_eq_ok.1 h
        refine agrees_arr_of hs hn (fun i hi => H.size hI hn hi) (fun i hi => ?_)
        obtain ⟨c, u, u', h10, h11⟩ := writeElems_ok h i (Nat.zero_le _) (by omega)
        obtain ⟨v, hv⟩ := ih (H.idx hI h10) h11
        exact ⟨c, v, h10, hv⟩
      | false => cases h

/-- What a translation that succeeds has written. -/
theorem wrote_of_writeValue {R : Reader ρ} {I : ρ → Prop} (H : R.Fits I) {σ : Type} {W : Writer σ} {f : Nat} {r : ρ} {s t : σ}
    (hI : I r) (h : writeValue R W f r s = .ok t) :
    ∃ v v', R.Agrees r v ∧ v'.Same v.firstWins ∧ W.run s (emit v') = .ok t := by
  obtain ⟨v, hv, hd⟩ := presents_of_writeValue H hI h
  obtain ⟨v', h1, -, h2⟩ := writeValue_run v r hv
  exact ⟨v, v', hv, h1, by rw [← h2 σ W f hd s, h]⟩

end Zer

namespace Zer

theorem kinds_weaken : ∀ {a b c d e g h i : Bool}, ([a, b, c, d, e, g, h, i].filter id).length ≤ 1 →
    ([a, b, c, d, e, g, h, i && !g].filter id).length ≤ 1 := by decide

/-- If `isNull` raises, the translation does. -/
theorem writeValue_isNull {ρ : Type} {R : Reader ρ} {r : ρ} (h : ∀ b, R.isNull r ≠ .ok b) (σ : Type) (W : Writer σ) (f : Nat) (s t : σ) :
    writeValue R W f r s ≠ .ok t := by
  intro e
  cases f with
  | zero => cases e
  | succ f =>
    simp only [writeValue] at e
    obtain ⟨b, hb, -⟩ := Res.bind_eq_ok.1 e
    exact h b hb

end Zer

namespace Zer.MsgPack

theorem fits : reader.Fits (fun _ => True) where
  kinds {r} _ := .inr ⟨_, _, _, _, _, _, _, _, ⟨rfl, rfl, ⟨isInt r, isUInt r, rfl, rfl, rfl⟩, rfl, rfl, rfl, rfl, rfl⟩,
    kinds_weaken (c54_msgpack_kinds_exclusive r)⟩
  ints {r x} _ h1 h2 h3 := by
    have h1 : isInt r = true := by injection h1
    have h2 : asInt64 r = .ok x := h2
    have h3 : isUInt r = true := by injection h3
    show ∃ y, asUInt64 r = .ok y ∧ _
    cases r with
    | nil => cases h1
    | cons m t =>
      simp only [isInt, isUInt, onMarker, decide_eq_true_eq] at h1 h3
      have hm : m.toNat ≤ 0x7f := by omega
      have hb : byteAt (m :: t) 0 = .ok m.toNat := rfl
      have hq : Res.require (decide ((m :: t).length ≠ 0)) .deser = .ok () := by simp [Res.require]
      simp only [asInt64, hq, hb, Res.ok_bind, if_pos hm, Res.pure_eq] at h2
      injection h2 with h2
      subst h2
      refine ⟨UInt64.ofNat m.toNat, ?_, ?_⟩
      · simp only [asUInt64, hq, hb, Res.ok_bind, if_pos hm, Res.pure_eq]
      · rw [i64_toInt (by omega) (by omega), u64_toNat (by omega)]
  strs _ h := h
  size {r n i} _ h hi := (c76_msgpack_partial r).2.2.2.2 n i h hi
  keys {r ks} _ h _ k := (c76_msgpack_partial r).2.2.2.1 ks h k
  missing {r k} _ h := (c76_msgpack_partial r).2.2.1 k h
  idx _ _ := trivial
  key _ _ := trivial

end Zer.MsgPack

namespace Zer.Zera

theorem fits : reader.Fits (fun r => ∃ b v, initFrom b = .ok v ∧ reader.Reach v r) where
  kinds {r} _ := by
    cases ht : r.tag with
    | ok t =>
      by_cases h7 : t = tTyped
      · subst h7
        cases hx : r.aux with
        | ok x =>
          refine .inr ⟨false, false, false, false, false, decide (x = dtU8), false, false, ?_, ?_⟩
          · refine ⟨?_, ?_, ⟨false, false, ?_, ?_, rfl⟩, ?_, ?_, ?_, ?_, ?_⟩ <;>
              simp [reader, View.isNull, View.isBool, View.isInt, View.isUInt, View.isFloat, View.isString, View.isBlob, View.isMap,
                View.isArray, ht, hx, tNull, tBool, tI64, tU64, tF64, tString, tTyped, tObject, tArray]
          · cases decide (x = dtU8) <;> decide
        | _ =>
          refine .inl fun σ W f s t e => ?_
          cases f with
          | zero => cases e
          | succ f =>
            simp [writeValue, reader, View.isNull, View.isBool, View.isInt, View.isUInt, View.isFloat, View.isString, View.isBlob, View.isMap,
                View.isArray, ht, hx, tNull, tBool, tI64, tU64, tF64, tString, tTyped, tObject, tArray] at e
      · refine .inr ⟨decide (t = tNull), decide (t = tBool), decide (t = tI64) || decide (t = tU64), decide (t = tF64), decide (t = tString),
          false, decide (t = tObject), decide (t = tArray), ?_, ?_⟩
        · refine ⟨?_, ?_, ⟨decide (t = tI64), decide (t = tU64), ?_, ?_, rfl⟩, ?_, ?_, ?_, ?_, ?_⟩ <;>
              simp [reader, View.isNull, View.isBool, View.isInt, View.isUInt, View.isFloat, View.isString, View.isBlob, View.isMap,
                View.isArray, ht, h7]
        · rcases Nat.lt_or_ge t 16 with h | h
          · have key : ∀ t : Fin 16, ([decide (t.1 = tNull), decide (t.1 = tBool), decide (t.1 = tI64) || decide (t.1 = tU64), decide (t.1 = tF64),
                decide (t.1 = tString), false, decide (t.1 = tObject), decide (t.1 = tArray) && !false].filter id).length ≤ 1 := by decide
            exact key ⟨t, h⟩
          · simp [show ¬ t = tNull by simp [tNull]; omega, show ¬ t = tBool by simp [tBool]; omega, show ¬ t = tI64 by simp [tI64]; omega,
              show ¬ t = tU64 by simp [tU64]; omega, show ¬ t = tF64 by simp [tF64]; omega, show ¬ t = tString by simp [tString]; omega,
              show ¬ t = tObject by simp [tObject]; omega, show ¬ t = tArray by simp [tArray]; omega]
    | _ => exact .inl (writeValue_isNull fun b h => by simp [reader, View.isNull, ht] at h)
  ints {r x} _ h1 _ h3 := by
    have h1 : r.isInt = .ok true := h1
    have h3 : r.isUInt = .ok true := h3
    simp only [View.isInt, View.isUInt] at h1 h3
    obtain ⟨t, ht, h1⟩ := Res.bind_eq_ok.1 h1
    rw [ht, Res.ok_bind] at h3
    injection h1 with h1
    injection h3 with h3
    simp only [decide_eq_true_eq] at h1 h3
    subst h1
    simp [tI64, tU64] at h3
  strs _ h := h
  size {r n i} hI h hi := by obtain ⟨b, v, h1, h2⟩ := hI; exact (c76_zera_partial h1 h2).2.2.2.2.1 n i h hi
  keys {r ks} hI h _ k := by obtain ⟨b, v, h1, h2⟩ := hI; exact ((c76_zera_partial h1 h2).2.2.2.1 ks h k).1
  missing {r k} hI h := by obtain ⟨b, v, h1, h2⟩ := hI; exact (c76_zera_partial h1 h2).2.2.1 k h
  idx hI h := by obtain ⟨b, v, h1, h2⟩ := hI; exact ⟨b, v, h1, h2.idx _ h⟩
  key hI h := by obtain ⟨b, v, h1, h2⟩ := hI; exact ⟨b, v, h1, h2.key _ h⟩

end Zer.Zera

namespace Zer.Cbor

/-- Where the answers of the CBOR reader fit together: below `r` every map lists what it contains and every unsigned
number is below 2^63. -/
def Fair (hard : Bool) (f : Nat) (r : View) : Prop := ∀ w, (reader hard f).Reach r w →
  (∀ ks, View.mapKeys hard f w = .ok ks → ∀ k, View.contains hard f w k = .ok (decide (k ∈ ks))) ∧
  (∀ n, View.asUInt64 w = .ok n → n.toNat < 2 ^ 63)

theorem fits {hard : Bool} {f : Nat} (B : Bytes) (hl : B.length < 2 ^ 64) (hf : B.length ≤ f) :
    (reader hard f).Fits (fun r => r.buf = B ∧ ∃ r0, Fair hard f r0 ∧ (reader hard f).Reach r0 r) where
  kinds {r} _ := by
    rcases c54_cbor_kinds_exclusive hard f r with ⟨a, b, c, d, e, g, h, i, h1, h2⟩ | h
    · exact .inr ⟨a, b, c, d, e, g, h, i, h1, kinds_weaken h2⟩
    · exact .inl (writeValue_isNull fun b e => by
        have e : r.isNull = .ok b := e
        rw [h.1] at e; cases e)
  ints {r x} hI h1 h2 h3 := by
    have h2 : r.asInt64 = .ok x := h2
    have h3 : r.isUInt = .ok true := h3
    show ∃ y, r.asUInt64 = .ok y ∧ _
    simp only [View.isUInt] at h3
    obtain ⟨hd, hh, h3⟩ := Res.bind_eq_ok.1 h3
    injection h3 with h3
    have hm : hd.major = 0 := by simpa using h3
    have hu : r.asUInt64 = .ok (UInt64.ofNat hd.val) := by
      simp [View.asUInt64, hh, hm]
    simp [View.asInt64, hh, hm] at h2
    subst h2
    obtain ⟨-, r0, h0, hr⟩ := hI
    have hb := (h0 r hr).2 _ hu
    refine ⟨_, hu, ?_⟩
    have e1 : (UInt64.ofNat hd.val).toNat = hd.val % 2 ^ 64 := UInt64.toNat_ofNat'
    have e2 : (Int64.ofInt (hd.val : Int)).toInt = (hd.val : Int).bmod (2 ^ 64) := Int64.toInt_ofInt
    rw [e1] at hb ⊢
    rw [e2, Int.bmod_def]
    omega
  strs {r s} _ h := by
    have h : View.asStringView hard r = .ok s := h
    show View.asString hard f r = .ok s
    simp only [View.asStringView] at h
    obtain ⟨hd, hh, h⟩ := Res.bind_eq_ok.1 h
    obtain ⟨_, h1, h⟩ := Res.bind_eq_ok.1 h
    obtain ⟨_, h2, h⟩ := Res.bind_eq_ok.1 h
    have : hd.indef = false := by simpa using Res.require_eq_ok.1 h2
    simp only [View.asString, hh, h1, Res.ok_bind, this, Bool.false_eq_true, if_false, h]
  size {r n i} hI h hi := (c76_cbor_partial (hard := hard) r (by rw [hI.1]; exact hl) (by rw [hI.1]; exact hf)).2.2 n i h hi
  keys {r ks} hI h _ k := by obtain ⟨-, r0, h0, hr⟩ := hI; exact (h0 r hr).1 ks h k
  missing {r k} hI h := (c76_cbor_partial (hard := hard) r (by rw [hI.1]; exact hl) (by rw [hI.1]; exact hf)).2.1 k h
  idx {r i c} hI h := by obtain ⟨hb, r0, h0, hr⟩ := hI; exact ⟨(getIdx_le h).1.trans hb, r0, h0, hr.idx _ h⟩
  key {r k c} hI h := by obtain ⟨hb, r0, h0, hr⟩ := hI; exact ⟨(getKey_le h).1.trans hb, r0, h0, hr.key _ h⟩

end Zer.Cbor

namespace Zer.Json

/-- No number of the document is above `INT64_MAX`. -/
def Modest : Val → Prop := Val.Each (fun v => ∀ n, v = .uint n → n.toNat < 2 ^ 63) (fun _ => True)

theorem fits : reader.Fits Modest where
  kinds {r} _ := by
    obtain ⟨q, hq⟩ : ∃ q, isBlob r = .ok q := by rcases isBlob_returns r with h | h <;> exact ⟨_, h⟩
    refine .inr ⟨_, _, _, _, _, q, _, _, ⟨rfl, rfl, ⟨isInt r, isUInt r, rfl, rfl, rfl⟩, rfl, rfl, hq, rfl, rfl⟩, ?_⟩
    cases q with
    | false => cases r <;> first | exact Nat.le_refl 1 | exact Nat.zero_le 1
    | true => cases r <;> first | exact Nat.le_refl 1 | cases hq
  ints {r x} hI _ h2 h3 := by
    cases r with
    | uint n =>
      have h2 : Res.ok n.toInt64 = .ok x := h2
      injection h2 with h2
      subst h2
      refine ⟨n, rfl, ?_⟩
      have hn : n.toNat < 2 ^ 63 := hI.self n rfl
      have : n.toInt64.toInt = (n.toNat : Int).bmod (2 ^ 64) := BitVec.toInt_eq_toNat_bmod _
      rw [this, Int.bmod_def]
      omega
    | _ => cases h3
  strs _ h := h
  size {r n i} _ h hi := (c76_json r).counted n i h hi
  keys {r ks} _ h _ k := (c76_json r).listed ks h k
  missing {r k} _ h := (c76_json r).missing k h
  idx {r i c} hI h := by
    cases r with
    | arr xs =>
      have h : (match xs[i]? with | some v => Res.ok v | none => .err .deser) = .ok c := h
      split at h
      · rename_i v hv
        injection h with h; subst h
        exact hI.arr _ (List.mem_of_getElem? hv)
      · cases h
    | _ => cases h
  key {r k c} hI h := by
    cases r with
    | map ms =>
      have h : (match firstVal ms k with | some v => Res.ok v | none => .err .deser) = .ok c := h
      split at h
      · rename_i v hv
        injection h with h; subst h
        exact (hI.map _ (firstVal_mem hv)).2
      · cases h
    | _ => cases h

end Zer.Json

namespace Zer.Flex

theorem isInt_isUInt {r : Ref} (h : isInt r = true) : isUInt r = false := by
  simp only [isInt, isUInt, Bool.or_eq_true, decide_eq_true_eq, Bool.or_eq_false_iff, decide_eq_false_iff_not] at *
  omega

/-- The answers fit together on any bytes, valid or not. -/
theorem fits : reader.Fits (fun r => r.buf.length < 2 ^ 60) where
  kinds {r} _ := .inr ⟨_, _, _, _, _, _, _, _, ⟨rfl, rfl, ⟨isInt r, isUInt r, rfl, rfl, rfl⟩, rfl, rfl, rfl, rfl, rfl⟩, by
    have h := c54_flex_kinds_any r
    unfold kinds at h
    revert h
    have e : isArray r = (isArray r && !isMap r) := by unfold isArray; cases isMap r <;> simp
    rw [e]
    generalize isNull r = a, isBool r = b, isInt r = c, isUInt r = d, isFloat r = f, isString r = g, isBlob r = h, isMap r = i,
      isArray r = j
    revert a b c d f g h i j
    decide⟩
  ints {r x} _ h1 _ h3 := by
    injection h1 with h1
    injection h3 with h3
    rw [isInt_isUInt h1] at h3
    cases h3
  strs _ h := h
  size {r n i} _ h hi := (c76_flex_any r).2.2.2 n i h hi
  keys {r ks} hb h hall k := by
    obtain ⟨p, n, _, h1⟩ := lookup_eq hb h
    show contains r k = _
    rw [(h1 k).1]
    cases hf : search ks k 0 ks.length with
    | some mid =>
      obtain ⟨h2, h3⟩ := search_sound _ _ _ rfl (Nat.le_refl _) mid hf
      rw [decide_eq_true (h3 ▸ List.getElem_mem h2)]; rfl
    | none =>
      rw [decide_eq_false]
      · rfl
      · intro hm
        obtain ⟨c, hc⟩ := hall k hm
        have hc : getKey r k = .ok c := hc
        rw [(h1 k).2, hf] at hc
        cases hc
  missing {r k} _ h := (c76_flex_any r).2.1 k h
  idx hb h := Nat.lt_of_le_of_lt (getIdx_buf h) hb
  key hb h := Nat.lt_of_le_of_lt (getKey_buf h) hb

end Zer.Flex
