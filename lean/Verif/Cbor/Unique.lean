import Verif.Cbor.Write

/-!
# CBOR: encodings are prefix-free and determine the value
-/

namespace Zer.Cbor

open MsgPack (be be_length)

theorem at_zero (b r : Bytes) : At (b ++ r) 0 b := ⟨[], r, by simp, rfl⟩

theorem hd_unique {m n m' n' : Nat} {h h' r r' : Bytes} (H : Hd m n h) (H' : Hd m' n' h') (hm : m ≤ 6)
    (hm' : m' ≤ 6) (e : h ++ r = h' ++ r') : m = m' ∧ n = n' ∧ h = h' ∧ r = r' := by
  obtain ⟨a, h1⟩ := H.read hm false (at_zero h r)
  obtain ⟨a', h2⟩ := H'.read hm' false (at_zero h' r')
  rw [← e, h1] at h2
  injection h2 with h2
  injection h2 with e1 e2 e3 e4 e5
  obtain ⟨e6, e7⟩ := List.append_inj e e4
  exact ⟨e1, e3, e6, e7⟩

/-- Kind of the value a head announces. -/
def headKind (h : Head) : Nat :=
  if h.major ≤ 1 then 2 else if h.major = 2 then 5 else if h.major = 3 then 4
  else if h.major = 4 then 7 else if h.major = 5 then 6
  else if h.addl = 22 then 0 else if h.addl ≤ 21 then 1 else 3

theorem text_head {ind : Bool} {m : Nat} {s b : Bytes} (ht : Text ind m s b) (hm : m ≤ 6) {u : Bytes}
    {p : Nat} (ha : At u p b) : ∃ h, readHead false u p = .ok h ∧ h.major = m := by
  cases ht with
  | definite hh => obtain ⟨a, hr⟩ := hh.read hm false ha.left; exact ⟨_, hr, rfl⟩
  | chunked => exact ⟨_, indef_read hm false ha, rfl⟩

theorem enc_head {ind : Bool} {v : Val} {b : Bytes} (h : Enc ind v b) {u : Bytes} {p : Nat}
    (ha : At u p b) : ∃ h, readHead false u p = .ok h ∧ headKind h = v.kind := by
  have hint : ∀ {z : Int}, EncInt z b → ∃ h, readHead false u p = .ok h ∧ headKind h = 2 := by
    intro z hz
    rcases hz with ⟨_, hz⟩ | ⟨_, hz⟩
    · obtain ⟨a, hr⟩ := hz.read (by omega) false ha; exact ⟨_, hr, rfl⟩
    · obtain ⟨a, hr⟩ := hz.read (by omega) false ha; exact ⟨_, hr, rfl⟩
  cases v with
  | null => simp only [Enc] at h; subst h; exact ⟨_, simple_read (n := 22) (by omega) false ha, rfl⟩
  | bool x =>
    simp only [Enc] at h; subst h
    cases x
    · exact ⟨_, simple_read (n := 20) (by omega) false ha, rfl⟩
    · exact ⟨_, simple_read (n := 21) (by omega) false ha, rfl⟩
  | int i => exact hint h
  | uint n => exact hint h
  | dbl d =>
    simp only [Enc] at h
    cases h with
    | f64 => exact ⟨_, flt_read (k := 8) false (by simp) ha, rfl⟩
    | f32 => exact ⟨_, flt_read (k := 4) false (by simp) ha, rfl⟩
    | f16 => exact ⟨_, flt_read (k := 2) false (by simp) ha, rfl⟩
  | str s =>
    obtain ⟨h, hr, hm⟩ := text_head (show Text ind 3 s b from h) (by omega) ha
    exact ⟨h, hr, by simp [headKind, hm, Val.kind]⟩
  | blob s =>
    obtain ⟨h, hr, hm⟩ := text_head (show Text ind 2 s b from h) (by omega) ha
    exact ⟨h, hr, by simp [headKind, hm, Val.kind]⟩
  | arr xs =>
    simp only [Enc] at h
    obtain ⟨cs, _, hg⟩ := h
    obtain ⟨a, k, l, i, hr, _⟩ := hg.read (by omega) false ha
    exact ⟨_, hr, rfl⟩
  | map ms =>
    simp only [Enc] at h
    obtain ⟨cs, _, hg⟩ := h
    obtain ⟨a, k, l, i, hr, _⟩ := hg.read (by omega) false ha
    exact ⟨_, hr, rfl⟩

theorem enc_kind {ind ind' : Bool} {v w : Val} {b b' r r' : Bytes} (h : Enc ind v b)
    (h' : Enc ind' w b') (e : b ++ r = b' ++ r') : v.kind = w.kind := by
  obtain ⟨h1, h2, h3⟩ := enc_head h (at_zero b r)
  obtain ⟨g1, g2, g3⟩ := enc_head h' (at_zero b' r')
  rw [← e, h2] at g2
  injection g2 with g2
  subst g2
  rw [← h3, g3]

theorem int_unique {z z' : Int} {b b' r r' : Bytes} (h : EncInt z b) (h' : EncInt z' b')
    (e : b ++ r = b' ++ r') : z = z' ∧ b = b' := by
  rcases h with ⟨h0, h⟩ | ⟨h0, h⟩ <;> rcases h' with ⟨h0', h'⟩ | ⟨h0', h'⟩
  · obtain ⟨_, e1, e2, _⟩ := hd_unique h h' (by omega) (by omega) e; exact ⟨by omega, e2⟩
  · obtain ⟨e1, _⟩ := hd_unique h h' (by omega) (by omega) e; cases e1
  · obtain ⟨e1, _⟩ := hd_unique h h' (by omega) (by omega) e; cases e1
  · obtain ⟨_, e1, e2, _⟩ := hd_unique h h' (by omega) (by omega) e; exact ⟨by omega, e2⟩

theorem chunks_unique {m : Nat} (hm : m ≤ 6) {s b : Bytes} (h : Chunks m s b) : ∀ {s' b' r r' : Bytes},
    Chunks m s' b' → b ++ (0xff :: r) = b' ++ (0xff :: r') → s = s' ∧ b = b' := by
  induction h with
  | nil =>
    intro s' b' r r' h' e
    cases h' with
    | nil => exact ⟨rfl, rfl⟩
    | @cons hd s t b hh _ =>
      obtain ⟨x, u, rfl, hx⟩ := hh.first hm
      simp only [List.nil_append, List.cons_append, List.cons.injEq] at e
      rw [← e.1] at hx; exact absurd hx (by decide)
  | @cons hd s t b hh _ ih =>
    intro s' b' r r' h' e
    cases h' with
    | nil =>
      obtain ⟨x, u, rfl, hx⟩ := hh.first hm
      simp only [List.nil_append, List.cons_append, List.cons.injEq] at e
      rw [e.1] at hx; exact absurd hx (by decide)
    | @cons hd' s' t' b' hh' h' =>
      simp only [List.append_assoc] at e
      obtain ⟨_, e1, e2, e3⟩ := hd_unique hh hh' hm hm e
      obtain ⟨e4, e5⟩ := List.append_inj e3 e1
      obtain ⟨e6, e7⟩ := ih h' e5
      exact ⟨by rw [e4, e6], by rw [e2, e4, e7]⟩

theorem text_unique {ind ind' : Bool} {m : Nat} (hm : m ≤ 6) {s s' b b' r r' : Bytes}
    (h : Text ind m s b) (h' : Text ind' m s' b') (e : b ++ r = b' ++ r') : s = s' ∧ b = b' := by
  cases h with
  | @definite hd hh =>
    cases h' with
    | @definite hd' hh' =>
      simp only [List.append_assoc] at e
      obtain ⟨_, e1, e2, e3⟩ := hd_unique hh hh' hm hm e
      obtain ⟨e4, e5⟩ := List.append_inj e3 e1
      exact ⟨e4, by rw [e2, e4]⟩
    | @chunked c _ hc =>
      obtain ⟨a, h1⟩ := hh.read hm false (at_zero hd (s ++ r))
      have h2 := indef_read hm false (at_zero (indefHd m :: (c ++ [0xff])) r')
      rw [← e, List.append_assoc, h1] at h2
      injection h2 with h2; injection h2 with _ _ _ _ h2; cases h2
  | @chunked c _ hc =>
    cases h' with
    | @definite hd hh =>
      obtain ⟨a, h1⟩ := hh.read hm false (at_zero hd (s' ++ r'))
      have h2 := indef_read hm false (at_zero (indefHd m :: (c ++ [0xff])) r)
      rw [e, List.append_assoc, h1] at h2
      injection h2 with h2; injection h2 with _ _ _ _ h2; cases h2
    | @chunked c' _ hc' =>
      simp only [List.cons_append, List.append_assoc, List.cons.injEq, true_and, List.nil_append] at e
      obtain ⟨e1, e2⟩ := chunks_unique hm hc hc' e
      exact ⟨e1, by rw [e2]⟩

theorem dbl_unique {d d' : Nat} (hd : d < 2 ^ 64) (hd' : d' < 2 ^ 64) {b b' r r' : Bytes}
    (h : EncDbl d b) (h' : EncDbl d' b') (e : b ++ r = b' ++ r') : d = d' ∧ b = b' := by
  have h1 := (asDouble_enc (ind := false) (hard := false) (f := 0) h hd (at_zero b r)).2
  have h2 := (asDouble_enc (ind := false) (hard := false) (f := 0) h' hd' (at_zero b' r')).2
  rw [← e, h1] at h2
  injection h2 with h2
  have h3 := congrArg UInt64.toNat h2
  rw [u64_toNat hd, u64_toNat hd'] at h3
  refine ⟨h3, ?_⟩
  have hl : ∀ {d : Nat} {b : Bytes}, EncDbl d b → ∃ x t, b = x :: t ∧
      (x = 0xfb ∧ t.length = 8 ∨ x = 0xfa ∧ t.length = 4 ∨ x = 0xf9 ∧ t.length = 2) := by
    intro d b h
    cases h with
    | f64 => exact ⟨_, _, rfl, by simp [be_length]⟩
    | f32 => exact ⟨_, _, rfl, by simp [be_length]⟩
    | f16 => exact ⟨_, _, rfl, by simp [be_length]⟩
  obtain ⟨x, t, rfl, ht⟩ := hl h
  obtain ⟨x', t', rfl, ht'⟩ := hl h'
  simp only [List.cons_append, List.cons.injEq] at e
  obtain ⟨rfl, e⟩ := e
  have : t.length = t'.length := by
    rcases ht with ⟨rfl, h⟩ | ⟨rfl, h⟩ | ⟨rfl, h⟩ <;> rcases ht' with ⟨h', k⟩ | ⟨h', k⟩ | ⟨h', k⟩ <;>
      first | omega | (exact absurd h' (by decide))
  rw [(List.append_inj e this).1]

/-- A container's head: its form and number of entries. -/
theorem group_unique {ind ind' : Bool} {m n n' : Nat} (hm : m ≤ 6) {c c' b b' r r' : Bytes}
    (h : Group ind m n c b) (h' : Group ind' m n' c' b') (e : b ++ r = b' ++ r') :
    (∃ hd, b = hd ++ c ∧ b' = hd ++ c' ∧ n = n' ∧ c ++ r = c' ++ r') ∨
    (b = indefHd m :: (c ++ [0xff]) ∧ b' = indefHd m :: (c' ++ [0xff]) ∧
      c ++ (0xff :: r) = c' ++ (0xff :: r')) := by
  cases h with
  | @definite hd hh =>
    cases h' with
    | @definite hd' hh' =>
      simp only [List.append_assoc] at e
      obtain ⟨_, e1, e2, e3⟩ := hd_unique hh hh' hm hm e
      exact .inl ⟨hd, rfl, by rw [e2], e1, e3⟩
    | indef _ =>
      obtain ⟨a, h1⟩ := hh.read hm false (at_zero hd (c ++ r))
      have h2 := indef_read hm false (at_zero (indefHd m :: (c' ++ [0xff])) r')
      rw [← e, List.append_assoc, h1] at h2
      injection h2 with h2; injection h2 with _ _ _ _ h2; cases h2
  | indef _ =>
    cases h' with
    | @definite hd hh =>
      obtain ⟨a, h1⟩ := hh.read hm false (at_zero hd (c' ++ r'))
      have h2 := indef_read hm false (at_zero (indefHd m :: (c ++ [0xff])) r)
      rw [e, List.append_assoc, h1] at h2
      injection h2 with h2; injection h2 with _ _ _ _ h2; cases h2
    | indef _ =>
      simp only [List.cons_append, List.append_assoc, List.cons.injEq, true_and, List.nil_append] at e
      exact .inr ⟨rfl, rfl, e⟩

theorem item_ne_break {b r r' : Bytes} (h : Item b) (e : b ++ r = 0xff :: r') : False := by
  obtain ⟨x, t, rfl, hx⟩ := h.first
  simp only [List.cons_append, List.cons.injEq] at e
  rw [e.1] at hx
  exact absurd hx (by decide)

mutual
theorem enc_unique {ind ind' : Bool} : ∀ (v w : Val) (b b' r r' : Bytes), Enc ind v b → Enc ind' w b' →
    b ++ r = b' ++ r' → v.Same w ∧ b = b'
  | .null, w, b, b', r, r', h, h', e => by
    have hk := enc_kind h h' e
    cases w <;> simp [Val.kind] at hk
    simp only [Enc] at h h'
    exact ⟨rfl, h.trans h'.symm⟩
  | .bool x, w, b, b', r, r', h, h', e => by
    have hk := enc_kind h h' e
    cases w <;> simp [Val.kind] at hk
    rename_i y
    simp only [Enc] at h h'
    subst h; subst h'
    have e' := (List.append_inj e rfl).1
    refine ⟨?_, e'⟩
    cases x <;> cases y <;> first | rfl | (exact absurd e' (by decide))
  | .int i, w, b, b', r, r', h, h', e => by
    have hk := enc_kind h h' e
    cases w <;> simp [Val.kind] at hk
    · simp only [Enc] at h h'
      obtain ⟨h1, h2⟩ := int_unique h h' e
      rw [Int64.toInt_inj.1 h1]; exact ⟨rfl, h2⟩
    · simp only [Enc] at h h'
      obtain ⟨h1, h2⟩ := int_unique h h' e
      exact ⟨Val.canon_int_eq h1, h2⟩
  | .uint i, w, b, b', r, r', h, h', e => by
    have hk := enc_kind h h' e
    cases w <;> simp [Val.kind] at hk
    · simp only [Enc] at h h'
      obtain ⟨h1, h2⟩ := int_unique h h' e
      exact ⟨(Val.canon_int_eq h1.symm).symm, h2⟩
    · simp only [Enc] at h h'
      obtain ⟨h1, h2⟩ := int_unique h h' e
      rw [UInt64.toNat.inj (Int.ofNat.inj h1)]; exact ⟨rfl, h2⟩
  | .dbl d, w, b, b', r, r', h, h', e => by
    have hk := enc_kind h h' e
    cases w <;> simp [Val.kind] at hk
    rename_i d'
    simp only [Enc] at h h'
    obtain ⟨h1, h2⟩ := dbl_unique d.toNat_lt d'.toNat_lt h h' e
    rw [UInt64.toNat.inj h1]; exact ⟨rfl, h2⟩
  | .str s, w, b, b', r, r', h, h', e => by
    have hk := enc_kind h h' e
    cases w <;> simp [Val.kind] at hk
    simp only [Enc] at h h'
    obtain ⟨h1, h2⟩ := text_unique (by omega) h h' e
    rw [h1]; exact ⟨rfl, h2⟩
  | .blob s, w, b, b', r, r', h, h', e => by
    have hk := enc_kind h h' e
    cases w <;> simp [Val.kind] at hk
    simp only [Enc] at h h'
    obtain ⟨h1, h2⟩ := text_unique (by omega) h h' e
    rw [h1]; exact ⟨rfl, h2⟩
  | .arr xs, w, b, b', r, r', h, h', e => by
    have hk := enc_kind h h' e
    cases w <;> simp [Val.kind] at hk
    rename_i ys
    simp only [Enc] at h h'
    obtain ⟨cs, hc, hg⟩ := h
    obtain ⟨cs', hc', hg'⟩ := h'
    simp only [Val.Same, Val.canon]
    rcases group_unique (by omega) hg hg' e with ⟨hd, rfl, rfl, hl, e'⟩ | ⟨rfl, rfl, e'⟩
    · obtain ⟨e1, e2⟩ := encL_unique xs ys cs cs' _ _ hc hc' (.inl hl) e'
      exact ⟨by rw [e1], by rw [e2]⟩
    · obtain ⟨e1, e2⟩ := encL_unique xs ys cs cs' _ _ hc hc' (.inr ⟨_, _, rfl, rfl⟩) e'
      exact ⟨by rw [e1], by rw [e2]⟩
  | .map ms, w, b, b', r, r', h, h', e => by
    have hk := enc_kind h h' e
    cases w <;> simp [Val.kind] at hk
    rename_i ns
    simp only [Enc] at h h'
    obtain ⟨cs, hc, hg⟩ := h
    obtain ⟨cs', hc', hg'⟩ := h'
    simp only [Val.Same, Val.canon]
    rcases group_unique (by omega) hg hg' e with ⟨hd, rfl, rfl, hl, e'⟩ | ⟨rfl, rfl, e'⟩
    · obtain ⟨e1, e2⟩ := encE_unique ms ns cs cs' _ _ hc hc' (.inl hl) e'
      exact ⟨by rw [e1], by rw [e2]⟩
    · obtain ⟨e1, e2⟩ := encE_unique ms ns cs cs' _ _ hc hc' (.inr ⟨_, _, rfl, rfl⟩) e'
      exact ⟨by rw [e1], by rw [e2]⟩
theorem encL_unique {ind ind' : Bool} : ∀ (xs ys : List Val) (cs cs' : List Bytes) (r r' : Bytes),
    EncList ind xs cs → EncList ind' ys cs' →
    (xs.length = ys.length ∨ ∃ t t', r = 0xff :: t ∧ r' = 0xff :: t') →
    cs.flatten ++ r = cs'.flatten ++ r' →
    Val.canonList xs = Val.canonList ys ∧ cs.flatten = cs'.flatten
  | [], [], cs, cs', r, r', h, h', _, _ => by
    simp only [EncList] at h h'; subst h; subst h'; simp
  | [], y :: ys, cs, cs', r, r', h, h', hl, e => by
    rcases hl with hl | ⟨t, t', rfl, rfl⟩
    · simp at hl
    · simp only [EncList] at h h'
      subst h
      obtain ⟨c, ds, hc, _, rfl⟩ := h'
      simp only [List.flatten_cons, List.append_assoc, List.flatten_nil, List.nil_append] at e
      exact (item_ne_break (Enc.item _ hc) e.symm).elim
  | x :: xs, [], cs, cs', r, r', h, h', hl, e => by
    rcases hl with hl | ⟨t, t', rfl, rfl⟩
    · simp at hl
    · simp only [EncList] at h h'
      subst h'
      obtain ⟨c, ds, hc, _, rfl⟩ := h
      simp only [List.flatten_cons, List.append_assoc, List.flatten_nil, List.nil_append] at e
      exact (item_ne_break (Enc.item _ hc) e).elim
  | x :: xs, y :: ys, cs, cs', r, r', h, h', hl, e => by
    simp only [EncList] at h h'
    obtain ⟨c, ds, hc, hds, rfl⟩ := h
    obtain ⟨c', ds', hc', hds', rfl⟩ := h'
    simp only [List.flatten_cons, List.append_assoc] at e ⊢
    obtain ⟨g1, g2⟩ := enc_unique x y c c' _ _ hc hc' e
    subst g2
    obtain ⟨g3, g4⟩ := encL_unique xs ys ds ds' r r' hds hds'
      (hl.imp (fun h => by simpa using h) id) (List.append_cancel_left e)
    simp only [Val.Same] at g1
    exact ⟨by simp only [Val.canonList, g3, g1], by rw [g4]⟩
theorem encE_unique {ind ind' : Bool} : ∀ (ms ns : List (Bytes × Val)) (cs cs' : List Bytes)
    (r r' : Bytes), EncEntries ind ms cs → EncEntries ind' ns cs' →
    (ms.length = ns.length ∨ ∃ t t', r = 0xff :: t ∧ r' = 0xff :: t') →
    cs.flatten ++ r = cs'.flatten ++ r' →
    Val.canonEntries ms = Val.canonEntries ns ∧ cs.flatten = cs'.flatten
  | [], [], cs, cs', r, r', h, h', _, _ => by
    simp only [EncEntries] at h h'; subst h; subst h'; simp
  | [], (k, y) :: ys, cs, cs', r, r', h, h', hl, e => by
    rcases hl with hl | ⟨t, t', rfl, rfl⟩
    · simp at hl
    · simp only [EncEntries] at h h'
      subst h
      obtain ⟨ck, c, ds, hk, _, _, rfl⟩ := h'
      simp only [List.flatten_cons, List.append_assoc, List.flatten_nil, List.nil_append] at e
      exact (item_ne_break (.str (.inr rfl) hk) e.symm).elim
  | (k, x) :: xs, [], cs, cs', r, r', h, h', hl, e => by
    rcases hl with hl | ⟨t, t', rfl, rfl⟩
    · simp at hl
    · simp only [EncEntries] at h h'
      subst h'
      obtain ⟨ck, c, ds, hk, _, _, rfl⟩ := h
      simp only [List.flatten_cons, List.append_assoc, List.flatten_nil, List.nil_append] at e
      exact (item_ne_break (.str (.inr rfl) hk) e).elim
  | (k, x) :: xs, (k', y) :: ys, cs, cs', r, r', h, h', hl, e => by
    simp only [EncEntries] at h h'
    obtain ⟨ck, c, ds, hk, hc, hds, rfl⟩ := h
    obtain ⟨ck', c', ds', hk', hc', hds', rfl⟩ := h'
    simp only [List.flatten_cons, List.append_assoc] at e ⊢
    obtain ⟨g5, g6⟩ := text_unique (by omega) hk hk' e
    subst g5; subst g6
    have e := List.append_cancel_left e
    obtain ⟨g1, g2⟩ := enc_unique x y c c' _ _ hc hc' e
    subst g2
    obtain ⟨g3, g4⟩ := encE_unique xs ys ds ds' r r' hds hds'
      (hl.imp (fun h => by simpa using h) id) (List.append_cancel_left e)
    simp only [Val.Same] at g1
    exact ⟨by simp only [Val.canonEntries, g3, g1], by rw [g4]⟩
end

/-! ## Equal up to signedness: same bytes -/

mutual
theorem encB_canon : ∀ v : Val, encB v.canon = encB v
  | .null => rfl
  | .bool _ => rfl
  | .int i => by
    simp only [Val.canon]
    split
    · rename_i h
      have := Int64.toNat_toUInt64_of_le (x := i) (Int64.le_iff_toInt_le.2 (by simpa using h))
      have h2 : i.toUInt64.toNat = i.toInt.toNat := by rw [this]; rfl
      simp only [encB, intBytes, h2, if_pos h]
    · rfl
  | .uint _ => rfl
  | .dbl _ => rfl
  | .str _ => rfl
  | .blob _ => rfl
  | .arr xs => by
    have : (Val.canonList xs).length = xs.length := by simp [Val.canonList_eq]
    simp only [Val.canon, encB, encL_canon xs, this]
  | .map ms => by
    have : (Val.canonEntries ms).length = ms.length := by simp [Val.canonEntries_eq]
    simp only [Val.canon, encB, encE_canon ms, this]
theorem encL_canon : ∀ xs : List Val, encL (Val.canonList xs) = encL xs
  | [] => rfl
  | x :: xs => by simp only [Val.canonList, encL, encB_canon x, encL_canon xs]
theorem encE_canon : ∀ ms : List (Bytes × Val), encE (Val.canonEntries ms) = encE ms
  | [] => rfl
  | (k, v) :: ms => by simp only [Val.canonEntries, encE, encB_canon v, encE_canon ms]
end

theorem encB_same {v w : Val} (h : v.Same w) : encB v = encB w := by
  rw [← encB_canon v, ← encB_canon w, show v.canon = w.canon from h]

end Zer.Cbor
