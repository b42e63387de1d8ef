import Verif.MsgPack.Contain

/-!
# MessagePack: the writer produces valid encodings; encodings are unambiguous
-/

namespace Zer.MsgPack

/-! ## Writer -/

/-- The bytes of a call sequence. -/
def pack (es : List Ev) : Bytes := (es.map packEv).flatten

theorem run_pack : ∀ (es : List Ev) (s : Bytes), writer.run s es = .ok (s ++ pack es)
  | [], s => by simp [pack]
  | e :: es, s => by
    simp only [Writer.run_cons, writer, Res.ok_bind]
    have := run_pack es (s ++ packEv e)
    simp only [writer] at this
    rw [this]; simp [pack]

theorem pack_append (es fs : List Ev) : pack (es ++ fs) = pack es ++ pack fs := by simp [pack]

theorem serialize_eq (v : Val) : proto.serialize v = .ok (pack (emit v)) := by
  show (writer.run ([] : Bytes) (emit v) >>= Res.ok) = _
  rw [run_pack]; rfl

mutual
/-- Lengths of strings, blobs and keys and numbers of elements are below 2^32. -/
def _root_.Zer.Val.Sized : Val → Prop
  | .str s => s.length < 2 ^ 32
  | .blob s => s.length < 2 ^ 32
  | .arr xs => xs.length < 2 ^ 32 ∧ sizedList xs
  | .map ms => ms.length < 2 ^ 32 ∧ sizedEntries ms
  | _ => True
def _root_.Zer.Val.sizedList : List Val → Prop
  | [] => True
  | x :: xs => x.Sized ∧ sizedList xs
def _root_.Zer.Val.sizedEntries : List (Bytes × Val) → Prop
  | [] => True
  | (k, v) :: ms => k.length < 2 ^ 32 ∧ v.Sized ∧ sizedEntries ms
end

theorem of8 (x : Nat) : UInt8.ofNat (x % 256) = UInt8.ofNat x := by
  apply UInt8.toNat_inj.1; simp

theorem beBytes_one (n : Nat) : beBytes 1 n = be 1 n := by
  simp [beBytes, be, of8]

theorem beBytes_two (n : Nat) : beBytes 2 n = be 2 n := by
  simp [beBytes, be, of8]

theorem beBytes_four (n : Nat) : beBytes 4 n = be 4 n := by
  simp [beBytes, be, of8, Nat.div_div_eq_div_mul]

theorem beBytes_eight (n : Nat) : beBytes 8 n = be 8 n := by
  simp [beBytes, be, of8, Nat.div_div_eq_div_mul]

theorem packUInt_enc {n : Nat} (h : n < 2 ^ 64) : EncInt n (packUInt n) := by
  have e : ((n : Int)).toNat = n := Int.toNat_natCast n
  unfold packUInt
  split
  · have := EncInt.posfix (z := n) (by omega) (by omega); rwa [e] at this
  split
  · have := EncInt.u8 (z := n) (by omega) (by omega); rwa [e, ← beBytes_one] at this
  split
  · have := EncInt.u16 (z := n) (by omega) (by omega); rwa [e, ← beBytes_two] at this
  split
  · have := EncInt.u32 (z := n) (by omega) (by omega); rwa [e, ← beBytes_four] at this
  · have := EncInt.u64 (z := n) (by omega) (by omega); rwa [e, ← beBytes_eight] at this

theorem packInt_enc {z : Int} (h1 : -2 ^ 63 ≤ z) (h2 : z < 2 ^ 63) : EncInt z (packInt z) := by
  unfold packInt
  split
  · split
    · split
      · have := EncInt.i64 (z := z) (by omega) (by omega)
        have e : (z % 2 ^ 64).toNat = (z + 2 ^ 64).toNat := by omega
        rwa [e, ← beBytes_eight] at this
      · have := EncInt.i32 (z := z) (by omega) (by omega)
        have e : (z % 2 ^ 32).toNat = (z + 2 ^ 32).toNat := by omega
        rwa [e, ← beBytes_four] at this
    · split
      · have := EncInt.i16 (z := z) (by omega) (by omega)
        have e : (z % 2 ^ 16).toNat = (z + 2 ^ 16).toNat := by omega
        rwa [e, ← beBytes_two] at this
      · have := EncInt.i8 (z := z) (by omega) (by omega)
        have e : (z % 2 ^ 8).toNat = (z + 2 ^ 8).toNat := by omega
        rwa [e, ← beBytes_one] at this
  · split
    · exact EncInt.negfix (by omega) (by omega)
    · have := packUInt_enc (n := z.toNat) (by omega)
      rwa [Int.toNat_of_nonneg (by omega)] at this

theorem packStrHead_ok {n : Nat} (h : n < 2 ^ 32) : StrHead n (packStrHead n) := by
  unfold packStrHead
  split
  · have : ∀ n, n < 32 → 0xa0 ||| n = 0xa0 + n := by decide
    rw [this n ‹_›]; exact .fix ‹_›
  split
  · rw [beBytes_one]; exact .s8 ‹_›
  split
  · rw [beBytes_two]; exact .s16 ‹_›
  · rw [beBytes_four]; exact .s32 h

theorem packBinHead_ok {n : Nat} (h : n < 2 ^ 32) : BinHead n (packBinHead n) := by
  unfold packBinHead
  split
  · rw [beBytes_one]; exact .b8 ‹_›
  split
  · rw [beBytes_two]; exact .b16 ‹_›
  · rw [beBytes_four]; exact .b32 h

theorem packArrHead_ok {n : Nat} (h : n < 2 ^ 32) : ArrHead n (packArrHead n) := by
  unfold packArrHead
  split
  · have : ∀ n, n < 16 → 0x90 ||| n = 0x90 + n := by decide
    rw [this n ‹_›]; exact .fix ‹_›
  split
  · rw [beBytes_two]; exact .a16 ‹_›
  · rw [beBytes_four]; exact .a32 h

theorem packMapHead_ok {n : Nat} (h : n < 2 ^ 32) : MapHead n (packMapHead n) := by
  unfold packMapHead
  split
  · have : ∀ n, n < 16 → 0x80 ||| n = 0x80 + n := by decide
    rw [this n ‹_›]; exact .fix ‹_›
  split
  · rw [beBytes_two]; exact .m16 ‹_›
  · rw [beBytes_four]; exact .m32 h

mutual
/-- The writer's output for a value is one of its encodings. -/
theorem enc_pack : ∀ v : Val, v.Sized → Enc v (pack (emit v))
  | .null, _ => by simp [Enc, pack, emit, packEv]
  | .bool b, _ => by simp [Enc, pack, emit, packEv]
  | .int i, _ => by
      simp only [Enc, pack, emit, packEv, List.map_cons, List.map_nil, List.flatten_cons,
        List.flatten_nil, List.append_nil]
      exact packInt_enc (Int64.le_toInt i) (Int64.toInt_lt i)
  | .uint n, _ => by
      simp only [Enc, pack, emit, packEv, List.map_cons, List.map_nil, List.flatten_cons,
        List.flatten_nil, List.append_nil]
      exact packUInt_enc (UInt64.toNat_lt n)
  | .dbl d, _ => by
      simp only [Enc, pack, emit, packEv, List.map_cons, List.map_nil, List.flatten_cons,
        List.flatten_nil, List.append_nil, beBytes_eight]
      exact .f64
  | .str s, h => by
      simp only [Enc, pack, emit, packEv, List.map_cons, List.map_nil, List.flatten_cons,
        List.flatten_nil, List.append_nil]
      exact ⟨_, packStrHead_ok (by simpa only [Val.Sized] using h), rfl⟩
  | .blob s, h => by
      simp only [Enc, pack, emit, packEv, List.map_cons, List.map_nil, List.flatten_cons,
        List.flatten_nil, List.append_nil]
      exact ⟨_, packBinHead_ok (by simpa only [Val.Sized] using h), rfl⟩
  | .arr xs, h => by
      simp only [Val.Sized] at h
      simp only [Enc]
      obtain ⟨cs, h1, h2⟩ := encList_pack xs h.2
      refine ⟨_, cs, packArrHead_ok h.1, h1, ?_⟩
      simp [pack, emit, packEv] at h2 ⊢
      exact h2
  | .map ms, h => by
      simp only [Val.Sized] at h
      simp only [Enc]
      obtain ⟨cs, h1, h2⟩ := encEntries_pack ms h.2
      refine ⟨_, cs, packMapHead_ok h.1, h1, ?_⟩
      simp [pack, emit, packEv] at h2 ⊢
      exact h2
theorem encList_pack : ∀ xs : List Val, Val.sizedList xs →
    ∃ cs, EncList xs cs ∧ pack (emitList xs) = cs.flatten
  | [], _ => ⟨[], by simp [EncList], by simp [pack, emitList]⟩
  | x :: xs, h => by
      simp only [Val.sizedList] at h
      obtain ⟨cs, h1, h2⟩ := encList_pack xs h.2
      refine ⟨pack (emit x) :: cs, ?_, ?_⟩
      · simp only [EncList]; exact ⟨_, cs, enc_pack x h.1, h1, rfl⟩
      · simp only [emitList, pack_append, h2, List.flatten_cons]
theorem encEntries_pack : ∀ ms : List (Bytes × Val), Val.sizedEntries ms →
    ∃ cs, EncEntries ms cs ∧ pack (emitEntries ms) = cs.flatten
  | [], _ => ⟨[], by simp [EncEntries], by simp [pack, emitEntries]⟩
  | (k, v) :: ms, h => by
      simp only [Val.sizedEntries] at h
      obtain ⟨cs, h1, h2⟩ := encEntries_pack ms h.2.2
      refine ⟨(packStrHead k.length ++ k) :: pack (emit v) :: cs, ?_, ?_⟩
      · simp only [EncEntries]; exact ⟨_, _, cs, packStrHead_ok h.1, enc_pack v h.2.1, h1, rfl⟩
      · have : pack (.key k :: (emit v ++ emitEntries ms)) =
            (packStrHead k.length ++ k) ++ (pack (emit v) ++ pack (emitEntries ms)) := by
          simp [pack, packEv]
        simp only [emitEntries, this, h2, List.flatten_cons]
end

/-! ## Unambiguity -/

/-- The kind of an encoded value can be read off. -/
theorem enc_shows {v : Val} {b : Bytes} (h : Enc v b) (t : Bytes) :
    reader.Shows (b ++ t) (v.kind == 0) (v.kind == 1) (v.kind == 2) (v.kind == 3) (v.kind == 4)
      (v.kind == 5) (v.kind == 6) (v.kind == 7) := by
  cases v with
  | null =>
    simp only [Enc] at h; subst h
    exact (shows_of (show tests (UInt8.toNat 0xc0) = [true, false, false, false, false, false, false, false, false] by decide)).1
  | bool x =>
    simp only [Enc] at h; subst h
    cases x
    · exact (shows_of (show tests (UInt8.toNat 0xc2) = [false, true, false, false, false, false, false, false, false] by decide)).1
    · exact (shows_of (show tests (UInt8.toNat 0xc3) = [false, true, false, false, false, false, false, false, false] by decide)).1
  | int i => simp only [Enc] at h; exact (showsInt_enc h t).1
  | uint i => simp only [Enc] at h; exact (showsInt_enc h t).1
  | dbl d => simp only [Enc] at h; exact shows_dbl h t
  | str s =>
    simp only [Enc] at h
    obtain ⟨hd, H, rfl⟩ := h
    rw [List.append_assoc]; exact shows_str H _
  | blob s =>
    simp only [Enc] at h
    obtain ⟨hd, H, rfl⟩ := h
    rw [List.append_assoc]; exact shows_bin H _
  | arr s =>
    simp only [Enc] at h
    obtain ⟨hd, cs, H, _, rfl⟩ := h
    rw [List.append_assoc]; exact shows_arr H _
  | map s =>
    simp only [Enc] at h
    obtain ⟨hd, cs, H, _, rfl⟩ := h
    rw [List.append_assoc]; exact shows_map H _

theorem enc_kind {v w : Val} {b b' r r' : Bytes} (h : Enc v b) (h' : Enc w b')
    (e : b ++ r = b' ++ r') : v.kind = w.kind := by
  have h1 := enc_shows h r
  have h2 := enc_shows h' r'
  rw [← e] at h2
  obtain ⟨e0, e1, e2, e3, e4, e5, e6, e7⟩ := h1.unique h2
  have hv : v.kind ≤ 7 := by cases v <;> simp [Val.kind]
  have hw : w.kind ≤ 7 := by cases w <;> simp [Val.kind]
  have key : ∀ a : Fin 8, ∀ b : Fin 8, (a.1 == 0) = (b.1 == 0) → (a.1 == 1) = (b.1 == 1) →
      (a.1 == 2) = (b.1 == 2) → (a.1 == 3) = (b.1 == 3) → (a.1 == 4) = (b.1 == 4) →
      (a.1 == 5) = (b.1 == 5) → (a.1 == 6) = (b.1 == 6) → a.1 = b.1 := by decide
  exact key ⟨v.kind, by omega⟩ ⟨w.kind, by omega⟩ e0 e1 e2 e3 e4 e5 e6

theorem elem_prefix {b b' r r' : Bytes} (h : Elem Lim b) (h' : Elem Lim b') (e : b ++ r = b' ++ r') :
    b = b' := by
  have h1 := h.skip r
  have h2 := h'.skip r'
  rw [← e, h1] at h2
  injection h2 with h2
  exact (List.append_inj e h2).1

theorem enc_int_prefix {z z' : Int} {b b' r r' : Bytes} (h : EncInt z b) (h' : EncInt z' b')
    (e : b ++ r = b' ++ r') : z = z' ∧ b = b' := by
  have h1 := showsInt_enc h r
  have h2 := showsInt_enc h' r'
  rw [← e] at h2
  exact ⟨h1.unique h2, elem_prefix h.elem h'.elem e⟩

theorem strHead_prefix {s s' h h' r r' : Bytes} (H : StrHead s.length h) (H' : StrHead s'.length h')
    (e : h ++ s ++ r = h' ++ s' ++ r') : s = s' ∧ h ++ s = h' ++ s' := by
  simp only [List.append_assoc] at e
  have h1 := strInfo_head H (s ++ r)
  have h2 := strInfo_head H' (s' ++ r')
  rw [← e, h1] at h2
  injection h2 with h2
  injection h2 with e1 e2
  obtain ⟨e3, e4⟩ := List.append_inj e e1
  obtain ⟨e5, _⟩ := List.append_inj e4 e2
  exact ⟨e5, by rw [e3, e5]⟩

/-- Encodings are prefix-free and determine the value up to the signedness of integers. -/
theorem enc_unique : ∀ (v w : Val) (b b' r r' : Bytes), Enc v b → Enc w b' → b ++ r = b' ++ r' →
    v.Same w ∧ b = b' := by
  intro v
  induction v using Val.ind with
  | null =>
    intro w b b' r r' h h' e
    have hk := enc_kind h h' e
    cases w <;> simp [Val.kind] at hk
    simp only [Enc] at h h'
    exact ⟨rfl, h.trans h'.symm⟩
  | bool x =>
    intro w b b' r r' h h' e
    have hk := enc_kind h h' e
    cases w <;> simp [Val.kind] at hk
    rename_i y
    simp only [Enc] at h h'
    subst h; subst h'
    have e' := (List.append_inj e rfl).1
    refine ⟨?_, e'⟩
    cases x <;> cases y <;> first | rfl | (exact absurd e' (by decide))
  | int i =>
    intro w b b' r r' h h' e
    have hk := enc_kind h h' e
    cases w <;> simp [Val.kind] at hk
    · simp only [Enc] at h h'
      obtain ⟨h1, h2⟩ := enc_int_prefix h h' e
      rw [Int64.toInt_inj.1 h1]; exact ⟨rfl, h2⟩
    · simp only [Enc] at h h'
      obtain ⟨h1, h2⟩ := enc_int_prefix h h' e
      exact ⟨Val.canon_int_eq h1, h2⟩
  | uint i =>
    intro w b b' r r' h h' e
    have hk := enc_kind h h' e
    cases w <;> simp [Val.kind] at hk
    · simp only [Enc] at h h'
      obtain ⟨h1, h2⟩ := enc_int_prefix h h' e
      exact ⟨(Val.canon_int_eq h1.symm).symm, h2⟩
    · simp only [Enc] at h h'
      obtain ⟨h1, h2⟩ := enc_int_prefix h h' e
      rw [UInt64.toNat.inj (Int.ofNat.inj h1)]; exact ⟨rfl, h2⟩
  | dbl d =>
    intro w b b' r r' h h' e
    have hk := enc_kind h h' e
    cases w <;> simp [Val.kind] at hk
    rename_i d'
    have E1 : Elem Lim b := Enc.elem _ (by simp [Val.Below]) h
    have E2 : Elem Lim b' := Enc.elem _ (by simp [Val.Below]) h'
    simp only [Enc] at h h'
    have h1 := asDouble_enc h (UInt64.toNat_lt d) r
    have h2 := asDouble_enc h' (UInt64.toNat_lt d') r'
    rw [← e, h1] at h2
    injection h2 with h2
    simp only [UInt64.ofNat_toNat] at h2
    subst h2
    exact ⟨rfl, elem_prefix E1 E2 e⟩
  | str s =>
    intro w b b' r r' h h' e
    have hk := enc_kind h h' e
    cases w <;> simp [Val.kind] at hk
    simp only [Enc] at h h'
    obtain ⟨hd, H, rfl⟩ := h
    obtain ⟨hd', H', rfl⟩ := h'
    obtain ⟨h1, h2⟩ := strHead_prefix H H' e
    subst h1
    exact ⟨rfl, h2⟩
  | blob s =>
    intro w b b' r r' h h' e
    have hk := enc_kind h h' e
    cases w <;> simp [Val.kind] at hk
    rename_i s'
    simp only [Enc] at h h'
    obtain ⟨hd, H, rfl⟩ := h
    obtain ⟨hd', H', rfl⟩ := h'
    simp only [List.append_assoc] at e
    have h1 := binInfo_head H (s ++ r)
    have h2 := binInfo_head H' (s' ++ r')
    rw [← e, h1] at h2
    injection h2 with h2
    injection h2 with e1 e2
    obtain ⟨e3, e4⟩ := List.append_inj e e1
    obtain ⟨e5, _⟩ := List.append_inj e4 e2
    subst e3; subst e5
    exact ⟨rfl, rfl⟩
  | arr xs ih =>
    intro w b b' r r' h h' e
    have hk := enc_kind h h' e
    cases w <;> simp [Val.kind] at hk
    rename_i ys
    simp only [Enc] at h h'
    obtain ⟨hd, cs, H, hc, rfl⟩ := h
    obtain ⟨hd', cs', H', hc', rfl⟩ := h'
    simp only [List.append_assoc] at e
    have h1 := arrInfo_head H (cs.flatten ++ r)
    have h2 := arrInfo_head H' (cs'.flatten ++ r')
    rw [← e, h1] at h2
    injection h2 with h2
    injection h2 with e1 e2
    obtain ⟨e3, e4⟩ := List.append_inj e e2
    subst e3
    have key : ∀ (xs ys : List Val) (cs cs' : List Bytes) (r r' : Bytes),
        (∀ x ∈ xs, ∀ (w : Val) (b b' r r' : Bytes), Enc x b → Enc w b' → b ++ r = b' ++ r' →
          x.Same w ∧ b = b') →
        EncList xs cs → EncList ys cs' → xs.length = ys.length → cs.flatten ++ r = cs'.flatten ++ r' →
        xs.map Val.canon = ys.map Val.canon ∧ cs.flatten = cs'.flatten := by
      intro xs
      induction xs with
      | nil =>
        intro ys cs cs' r r' _ h h' hl _
        cases ys with
        | nil => simp only [EncList] at h h'; subst h; subst h'; simp
        | cons => simp at hl
      | cons x xs ihl =>
        intro ys cs cs' r r' hx h h' hl e
        cases ys with
        | nil => simp at hl
        | cons y ys =>
          simp only [EncList] at h h'
          obtain ⟨c, ds, hc, hds, rfl⟩ := h
          obtain ⟨c', ds', hc', hds', rfl⟩ := h'
          simp only [List.flatten_cons, List.append_assoc] at e ⊢
          obtain ⟨g1, g2⟩ := hx x (by simp) y c c' _ _ hc hc' e
          subst g2
          obtain ⟨g3, g4⟩ := ihl ys ds ds' r r' (fun z hz => hx z (by simp [hz])) hds hds'
            (by simpa using hl) (List.append_cancel_left e)
          exact ⟨by simp only [List.map_cons, g3]; rw [g1], by rw [g4]⟩
    obtain ⟨g1, g2⟩ := key xs ys cs cs' r r' ih hc hc' e1 e4
    refine ⟨?_, by rw [g2]⟩
    simp only [Val.Same, Val.canon, Val.canonList_eq, g1]
  | map ms ih =>
    intro w b b' r r' h h' e
    have hk := enc_kind h h' e
    cases w <;> simp [Val.kind] at hk
    rename_i ns
    simp only [Enc] at h h'
    obtain ⟨hd, cs, H, hc, rfl⟩ := h
    obtain ⟨hd', cs', H', hc', rfl⟩ := h'
    simp only [List.append_assoc] at e
    have h1 := mapInfo_head H (cs.flatten ++ r)
    have h2 := mapInfo_head H' (cs'.flatten ++ r')
    rw [← e, h1] at h2
    injection h2 with h2
    injection h2 with e1 e2
    obtain ⟨e3, e4⟩ := List.append_inj e e2
    subst e3
    have key : ∀ (ms ns : List (Bytes × Val)) (cs cs' : List Bytes) (r r' : Bytes),
        (∀ m ∈ ms, ∀ (w : Val) (b b' r r' : Bytes), Enc m.2 b → Enc w b' → b ++ r = b' ++ r' →
          m.2.Same w ∧ b = b') →
        EncEntries ms cs → EncEntries ns cs' → ms.length = ns.length →
        cs.flatten ++ r = cs'.flatten ++ r' →
        Val.canonEntries ms = Val.canonEntries ns ∧ cs.flatten = cs'.flatten := by
      intro ms
      induction ms with
      | nil =>
        intro ns cs cs' r r' _ h h' hl _
        cases ns with
        | nil => simp only [EncEntries] at h h'; subst h; subst h'; simp
        | cons => simp at hl
      | cons m ms ihl =>
        intro ns cs cs' r r' hx h h' hl e
        cases ns with
        | nil => simp at hl
        | cons n ns =>
          obtain ⟨k, v⟩ := m
          obtain ⟨k', v'⟩ := n
          simp only [EncEntries] at h h'
          obtain ⟨hd, c, ds, Hk, hc, hds, rfl⟩ := h
          obtain ⟨hd', c', ds', Hk', hc', hds', rfl⟩ := h'
          have e' : hd ++ k ++ (c ++ (ds.flatten ++ r)) = hd' ++ k' ++ (c' ++ (ds'.flatten ++ r')) := by
            simpa using e
          obtain ⟨g0, g0'⟩ := strHead_prefix Hk Hk' e'
          rw [g0'] at e'
          have e'' := List.append_cancel_left e'
          obtain ⟨g1, g2⟩ := hx (k, v) (by simp) v' c c' _ _ hc hc' e''
          subst g2; subst g0
          obtain ⟨g3, g4⟩ := ihl ns ds ds' r r' (fun z hz => hx z (by simp [hz])) hds hds'
            (by simpa using hl) (List.append_cancel_left e'')
          refine ⟨?_, ?_⟩
          · simp only [Val.canonEntries, g3]
            rw [show v.canon = v'.canon from g1]
          · simp only [List.flatten_cons, g0', g4]
    obtain ⟨g1, g2⟩ := key ms ns cs cs' r r' ih hc hc' e1 e4
    refine ⟨?_, by rw [g2]⟩
    simp only [Val.Same, Val.canon, g1]

end Zer.MsgPack
