import Verif.Zera.Spec
import Verif.Zera.Sim
import Verif.Zera.Safety

/-!
# Writer and reader against the documented ZERA format

`Repr.ref`: what the writer stores is a strict `Ref`. `Ref.det`: a `Ref` stands for one value only.
`ref_of_agrees`: whatever the reader presents is a `Ref`.
-/

namespace Zer.Zera

/-! ## Numbers -/

theorem num_inj : ∀ {k n m : Nat}, n < 256 ^ k → m < 256 ^ k → num k n = num k m → n = m
  | 0, n, m, hn, hm, _ => by simp at hn hm; omega
  | k + 1, n, m, hn, hm, h => by
    simp only [num, List.cons.injEq] at h
    rw [Nat.pow_succ] at hn hm
    have h1 := congrArg UInt8.toNat h.1
    simp at h1
    have h2 := num_inj (k := k) (by omega) (by omega) h.2
    omega

theorem Num.inj {x : Bytes} {p k n m : Nat} (h : Num x p k n) (h' : Num x p k m) : n = m :=
  num_inj h.1 h'.1 (h.2.inj h'.2 (by simp [num_length]))

theorem num_of_bytes : ∀ (bs : Bytes), ∃ n, n < 256 ^ bs.length ∧ num bs.length n = bs
  | [] => ⟨0, by simp, rfl⟩
  | b :: bs => by
    obtain ⟨n, h1, h2⟩ := num_of_bytes bs
    have hb := UInt8.toNat_lt b
    refine ⟨b.toNat + 256 * n, ?_, ?_⟩
    · simp only [List.length_cons, Nat.pow_succ]
      have : 2 ^ 8 = 256 := rfl
      omega
    · simp only [List.length_cons, num, List.cons.injEq]
      constructor
      · apply UInt8.toNat_inj.1; simp
      · rw [show (b.toNat + 256 * n) / 256 = n by omega]; exact h2

/-- Any `k` bytes are a number. -/
theorem Num.exists {x : Bytes} {p k : Nat} (h : p + k ≤ x.length) : ∃ n, Num x p k n := by
  obtain ⟨n, h1, h2⟩ := num_of_bytes ((x.drop p).take k)
  have hl : ((x.drop p).take k).length = k := by simp; omega
  rw [hl] at h1 h2
  exact ⟨n, h1, by rw [h2]; exact At.of_slice h⟩

/-- Any 16 bytes are a reference. -/
theorem ValueRef.exists {x : Bytes} {p : Nat} (h : p + 16 ≤ x.length) :
    ∃ t f a b c d, ValueRef x p t f a b c d := by
  obtain ⟨t, ht⟩ := Num.exists (x := x) (p := p) (k := 1) (by omega)
  obtain ⟨f, hf⟩ := Num.exists (x := x) (p := p + 1) (k := 1) (by omega)
  obtain ⟨a, ha⟩ := Num.exists (x := x) (p := p + 2) (k := 2) (by omega)
  obtain ⟨b, hb⟩ := Num.exists (x := x) (p := p + 4) (k := 4) (by omega)
  obtain ⟨c, hc⟩ := Num.exists (x := x) (p := p + 8) (k := 4) (by omega)
  obtain ⟨d, hd⟩ := Num.exists (x := x) (p := p + 12) (k := 4) (by omega)
  exact ⟨t, f, a, b, c, d, ht, hf, ha, hb, hc, hd⟩

theorem ValueRef.inj {x : Bytes} {p t f a b c d t' f' a' b' c' d' : Nat} (h : ValueRef x p t f a b c d)
    (h' : ValueRef x p t' f' a' b' c' d') : t = t' ∧ f = f' ∧ a = a' ∧ b = b' ∧ c = c' ∧ d = d' :=
  ⟨h.tag.inj h'.tag, h.flags.inj h'.flags, h.aux.inj h'.aux, h.a.inj h'.a, h.b.inj h'.b, h.c.inj h'.c⟩

/-! ## The writer -/

theorem Num.of2 {x : Bytes} {p n : Nat} (hn : n < 2 ^ 16) (h : At x p (le16 n)) : Num x p 2 n := ⟨hn, by rw [num2]; exact h⟩
theorem Num.of4 {x : Bytes} {p n : Nat} (hn : n < 2 ^ 32) (h : At x p (le32 n)) : Num x p 4 n := ⟨hn, by rw [num4]; exact h⟩

theorem valueRef_of_makeVr {x : Bytes} {p t f a b c d : Nat} (ht : t < 256) (hf : f < 256) (ha : a < 2 ^ 16) (hb : b < 2 ^ 32)
    (hc : c < 2 ^ 32) (hd : d < 2 ^ 32) (h : At x p (makeVr t f a b c d)) : ValueRef x p t f a b c d := by
  have h1 : At x p [UInt8.ofNat t, UInt8.ofNat f] := h.left.left.left.left
  have h1 := (At.split (x := [UInt8.ofNat t]) (y := [UInt8.ofNat f])).1 h1
  exact ⟨⟨ht, by rw [num1]; exact h1.1⟩, ⟨hf, by rw [num1]; exact h1.2⟩, .of2 ha h.left.left.left.right,
    .of4 hb h.left.left.right, .of4 hc h.left.right, .of4 hd h.right⟩

theorem valueRef_of_inlineVr {x : Bytes} {p : Nat} {s : Bytes} (hs : s.length ≤ 12) (h : At x p (inlineVr s)) :
    (∃ a b c, ValueRef x p 4 1 s.length a b c) ∧ At x (p + 4) (s ++ List.replicate (12 - s.length) 0) := by
  have hb := h.bound
  rw [inlineVr_length hs] at hb
  simp only [inlineVr, List.append_assoc] at h
  have h1 : At x p [UInt8.ofNat tString, UInt8.ofNat 1] := h.left
  have h1 := (At.split (x := [UInt8.ofNat tString]) (y := [UInt8.ofNat 1])).1 h1
  refine ⟨?_, h.right.right⟩
  obtain ⟨b, hb1⟩ := Num.exists (x := x) (p := p + 4) (k := 4) (by omega)
  obtain ⟨c, hc⟩ := Num.exists (x := x) (p := p + 8) (k := 4) (by omega)
  obtain ⟨d, hd⟩ := Num.exists (x := x) (p := p + 12) (k := 4) (by omega)
  exact ⟨b, c, d, ⟨by decide, by rw [num1]; exact h1.1⟩, ⟨by decide, by rw [num1]; exact h1.2⟩,
    .of2 (by omega) h.right.left, hb1, hc, hd⟩

theorem elems_of_at {env arena : Bytes} : ∀ (ps : List (Bytes × Val)) {o : Nat}, (∀ p ∈ ps, p.1.length = 16) →
    (∀ p ∈ ps, ∀ q, At env q p.1 → Ref True env arena q p.2) → At env o (ps.map Prod.fst).flatten →
    Elems True env arena o (ps.map Prod.snd)
  | [], o, _, _, _ => .nil
  | p :: ps, o, hl, hr, h => by
    have h' : At env o (p.1 ++ (ps.map Prod.fst).flatten) := by simpa using h
    have := h'.right
    rw [hl p (by simp)] at this
    exact .cons (hr p (by simp) _ h'.left)
      (elems_of_at ps (fun q hq => hl q (by simp [hq])) (fun q hq => hr q (by simp [hq])) this)

theorem members_of_at {env arena : Bytes} : ∀ (ps : List (Bytes × Bytes × Val)) {o : Nat}, (∀ p ∈ ps, p.1.length < 2 ^ 16) →
    (∀ p ∈ ps, p.2.1.length = 16) → (∀ p ∈ ps, ∀ q, At env q p.2.1 → Ref True env arena q p.2.2) →
    At env o (ps.map (fun p => entry p.1 p.2.1)).flatten → Members True env arena o (ps.map (fun p => (p.1, p.2.2)))
  | [], o, _, _, _, _ => .nil
  | p :: ps, o, hk, hl, hr, h => by
    have h' : At env o (entry p.1 p.2.1 ++ (ps.map (fun p => entry p.1 p.2.1)).flatten) := by simpa using h
    have h1 := h'.left
    have h2 := h'.right
    have hlen : (entry p.1 p.2.1).length = 4 + p.1.length + 16 := by
      simp [entry, hl p (by simp)]; omega
    rw [hlen] at h2
    simp only [entry, List.append_assoc] at h1
    have a1 := h1.right.left
    have a2 := h1.right.right.left
    have a3 := h1.right.right.right
    simp only [le16_length] at a1 a2 a3
    rw [show o + 2 + 2 = o + 4 by omega] at a2 a3
    exact .cons (.of2 (hk p (by simp)) h1.left) (.of2 (by decide) a1) (fun _ => rfl) a2 (hr p (by simp) _ a3)
      (members_of_at ps (fun q hq => hk q (by simp [hq])) (fun q hq => hl q (by simp [hq])) (fun q hq => hr q (by simp [hq]))
        (by rwa [show o + (4 + p.1.length + 16) = o + 4 + p.1.length + 16 by omega] at h2))

/-- What the writer stores is what the document prescribes. -/
theorem Repr.ref {env arena vr : Bytes} {v : Val} (hl : env.length < 2 ^ 32) (h : Repr env arena vr v) :
    ∀ {o : Nat}, At env o vr → Ref True env arena o v := by
  induction h with
  | null =>
    intro o h
    exact .null (valueRef_of_makeVr (by decide) (by decide) (by decide) (by decide) (by decide) (by decide) h) (fun _ => by simp)
  | bool b =>
    intro o h
    exact .bool (valueRef_of_makeVr (by decide) (by decide) (by cases b <;> decide) (by decide) (by decide) (by decide) h)
      (fun _ => by simp)
  | int i =>
    intro o h
    have hi := UInt64.toNat_lt i.toUInt64
    refine .int (valueRef_of_makeVr (by decide) (by decide) (by decide) ?_ ?_ (by decide) h) ?_ (fun _ => by simp)
    · rw [lo32_eq]; omega
    · rw [hi32_eq]; omega
    · rw [lo32_eq, hi32_eq]; omega
  | uint n =>
    intro o h
    have hi := UInt64.toNat_lt n
    refine .uint (valueRef_of_makeVr (by decide) (by decide) (by decide) ?_ ?_ (by decide) h) ?_ (fun _ => by simp)
    · rw [lo32_eq]; omega
    · rw [hi32_eq]; omega
    · rw [lo32_eq, hi32_eq]; omega
  | dbl n =>
    intro o h
    have hi := UInt64.toNat_lt n
    refine .dbl (valueRef_of_makeVr (by decide) (by decide) (by decide) ?_ ?_ (by decide) h) ?_ (fun _ => by simp)
    · rw [lo32_eq]; omega
    · rw [hi32_eq]; omega
    · rw [lo32_eq, hi32_eq]; omega
  | strInline s hs =>
    intro o h
    obtain ⟨⟨a, b, c, h1⟩, h2⟩ := valueRef_of_inlineVr hs h
    exact .strInline h1 hs h2.left (fun _ => h2)
  | strArena s ofs h1 h2 h3 =>
    intro o h
    exact .strArena (valueRef_of_makeVr (by decide) (by decide) (by decide) h1 h2 (by decide) h) h3 (fun _ => by simp)
  | blob s ofs sofs h1 h2 h3 h4 h5 h6 =>
    intro o h
    rw [shapeBytes_eq] at h6
    refine .blob (valueRef_of_makeVr (by decide) (by decide) (by decide) h1 h2 h3 h) (.of4 (by decide) h6.left) ⟨?_, ?_⟩ h5 (fun _ => h4)
    · exact Nat.lt_trans h2 (by decide)
    · rw [num8]
      have := h6.right
      rwa [le32_length] at this
  | arr ps ofs h1 h2 h3 ih =>
    intro o h
    have hfl : 16 * ps.length ≤ ((ps.map Prod.fst).flatten).length := by
      clear h2 ih h
      induction ps with
      | nil => simp
      | cons p ps ih' =>
        have := ih' (fun q hq => h3 q (by simp [hq]))
        have := (h3 p (by simp)).length
        simp only [List.map_cons, List.flatten_cons, List.length_append, List.length_cons]
        omega
    have hbd := h2.bound
    rw [List.length_append, le32_length] at hbd
    refine .arr (valueRef_of_makeVr (by decide) (by decide) (by decide) h1 (by decide) (by decide) h)
      (.of4 (by rw [List.length_map]; omega) (by rw [List.length_map]; exact h2.left))
      (elems_of_at ps (fun p hp => (h3 p hp).length) (fun p hp q hq => ih p hp hq) ?_) (fun _ => by simp)
    have := h2.right
    rwa [le32_length] at this
  | map ps ofs h1 h2 hk h3 ih =>
    intro o h
    have hfl : 1 * ps.length ≤ ((ps.map (fun p => entry p.1 p.2.1)).flatten).length := by
      clear h2 ih h hk h3
      induction ps with
      | nil => simp
      | cons p ps ih' => 
        simp only [List.map_cons, List.flatten_cons, List.length_append, List.length_cons]
        have : 4 ≤ (entry p.1 p.2.1).length := by simp [entry]; omega
        omega
    have hbd := h2.bound
    rw [List.length_append, le32_length] at hbd
    refine .obj (valueRef_of_makeVr (by decide) (by decide) (by decide) h1 (by decide) (by decide) h)
      (.of4 (by rw [List.length_map]; omega) (by rw [List.length_map]; exact h2.left))
      (members_of_at ps hk (fun p hp => (h3 p hp).length) (fun p hp q hq => ih p hp hq) ?_) (fun _ => by simp)
    have := h2.right
    rwa [le32_length] at this

/-- A finished buffer is a message. -/
theorem Finished.message {b env arena vr : Bytes} {v : Val} {root ao : Nat} (F : Finished b env arena root ao) (h : At env root vr)
    (R : Repr env arena vr v) : Message True b v root env.length ao := by
  have hge : HeaderSize + env.length ≤ ao := by rw [F.arenaOfs_eq]; exact alignUp_ge _ _
  have hmod : ao % 16 = 0 := by rw [F.arenaOfs_eq]; exact alignUp_dvd _ (by decide)
  have hb : b = (le32 Magic ++ le16 Version ++ le16 1 ++ le32 root ++ le32 env.length ++ le32 ao) ++
      (env ++ (List.replicate (ao - (HeaderSize + env.length)) 0 ++ arena)) := by
    rw [F.eq]; simp [assemble]
  have hH : (le32 Magic ++ le16 Version ++ le16 1 ++ le32 root ++ le32 env.length ++ le32 ao).length = 20 := rfl
  have hat : At b 0 ((le32 Magic ++ le16 Version ++ le16 1 ++ le32 root ++ le32 env.length ++ le32 ao) ++
      (env ++ (List.replicate (ao - (HeaderSize + env.length)) 0 ++ arena))) := ⟨[], [], by simp [hb], rfl⟩
  have hhd := hat.left
  have hp := hat.right.right.left
  rw [hH] at hp
  have hd : b.drop 20 = env ++ (List.replicate (ao - (HeaderSize + env.length)) 0 ++ arena) := by
    rw [hb, ← hH, List.drop_left]
  have hlen : b.length = ao + arena.length := by
    rw [hb, List.length_append, hH]; simp; simp only [HeaderSize] at *; omega
  have hda : b.drop ao = arena := by
    have : b.drop ao = (b.drop 20).drop (ao - 20) := by
      rw [List.drop_drop]; congr 1; simp only [HeaderSize] at hge; omega
    rw [this, hd, ← List.append_assoc, List.drop_left']
    simp; simp only [HeaderSize] at *; omega
  refine ⟨.of4 (by decide) hhd.left.left.left.left.left, .of2 (by decide) hhd.left.left.left.left.right,
    .of2 (by decide) hhd.left.left.left.right, .of4 F.rootLt hhd.left.left.right, .of4 F.envLt hhd.left.right,
    .of4 F.arenaOfsLt hhd.right, hmod, hge, by omega, ?_, ?_⟩
  · rw [hd, List.take_left, hda]
    exact R.ref F.envLt h
  · intro _
    simpa [HeaderSize] using hp

/-! ## One value per reference -/

theorem toInt64_inj {i j : Int64} (h : i.toUInt64.toNat = j.toUInt64.toNat) : i = j := by
  have := UInt64.toNat_inj.1 h
  cases i; cases j; simp_all

theorem Elems.det {st st' : Prop} {env arena : Bytes} : ∀ (vs : List Val) {ws : List Val} {p : Nat}, vs.length = ws.length →
    (∀ v ∈ vs, ∀ (w : Val) (q : Nat), Ref st env arena q v → Ref st' env arena q w → v = w) →
    Elems st env arena p vs → Elems st' env arena p ws → vs = ws
  | [], ws, p, hl, _, _, _ => by
    cases ws with
    | nil => rfl
    | cons _ _ => simp at hl
  | v :: vs, ws, p, hl, ih, h, h' => by
    cases ws with
    | nil => simp at hl
    | cons w ws =>
      cases h with
      | cons h1 h2 =>
        cases h' with
        | cons h1' h2' =>
          rw [ih v (by simp) w _ h1 h1', Elems.det vs (by simpa using hl) (fun v hv => ih v (by simp [hv])) h2 h2']

theorem Members.det {st st' : Prop} {env arena : Bytes} : ∀ (vs : List (Bytes × Val)) {ws : List (Bytes × Val)} {p : Nat},
    vs.length = ws.length →
    (∀ v ∈ vs, ∀ (w : Val) (q : Nat), Ref st env arena q v.2 → Ref st' env arena q w → v.2 = w) →
    Members st env arena p vs → Members st' env arena p ws → vs = ws
  | [], ws, p, hl, _, _, _ => by
    cases ws with
    | nil => rfl
    | cons _ _ => simp at hl
  | (k, v) :: vs, ws, p, hl, ih, h, h' => by
    cases ws with
    | nil => simp at hl
    | cons w ws =>
      cases h with
      | cons h1 h2 h3 h4 h5 h6 =>
        cases h' with
        | cons h1' h2' h3' h4' h5' h6' =>
          have hk := h1.inj h1'
          have hk' := h4.inj h4' hk
          subst hk'
          rw [← ih (k, v) (by simp) _ _ h5 h5', Members.det vs (by simpa using hl) (fun v hv => ih v (by simp [hv])) h6 h6']

/-- A reference stands for one value only. -/
theorem Ref.det {st st' : Prop} {env arena : Bytes} : ∀ (v : Val) (w : Val) (p : Nat), Ref st env arena p v → Ref st' env arena p w → v = w := by
  intro v
  induction v using Val.ind with
  | null =>
    intro w p h h'
    cases h with
    | null h _ =>
      cases h' <;> have e := h.inj ‹_› <;> first | rfl | (exfalso; omega)
  | bool b =>
    intro w p h h'
    cases h with
    | bool h _ =>
      cases h' <;> have e := h.inj ‹_› <;> first | (exfalso; omega) | skip
      have e := e.2.2.1
      congr 1
      revert e
      rename_i v _ _
      cases b <;> cases v <;> simp
  | int i =>
    intro w p h h'
    cases h with
    | int h e1 _ =>
      cases h' <;> have e := h.inj ‹_› <;> first | (exfalso; omega) | skip
      rename_i e2 _
      congr 1
      exact toInt64_inj (by omega)
  | uint i =>
    intro w p h h'
    cases h with
    | uint h e1 _ =>
      cases h' <;> have e := h.inj ‹_› <;> first | (exfalso; omega) | skip
      rename_i e2 _
      congr 1
      exact UInt64.toNat_inj.1 (by omega)
  | dbl i =>
    intro w p h h'
    cases h with
    | dbl h e1 _ =>
      cases h' <;> have e := h.inj ‹_› <;> first | (exfalso; omega) | skip
      rename_i e2 _
      congr 1
      exact UInt64.toNat_inj.1 (by omega)
  | str s =>
    intro w p h h'
    cases h with
    | strInline h _ hb _ =>
      cases h' <;> have e := h.inj ‹_› <;> first | (exfalso; omega) | skip
      rename_i hb' _
      congr 1
      exact hb.inj hb' (by omega)
    | strArena h hb _ =>
      cases h' <;> have e := h.inj ‹_› <;> first | (exfalso; omega) | skip
      rename_i hb' _ _
      obtain ⟨_, _, _, rfl, _, _⟩ := e
      congr 1
      exact hb.inj hb' (by omega)
  | blob s =>
    intro w p h h'
    cases h with
    | blob h _ _ hb _ =>
      cases h' <;> have e := h.inj ‹_› <;> first | (exfalso; omega) | skip
      rename_i hb' _ _
      obtain ⟨_, _, _, rfl, _, _⟩ := e
      congr 1
      exact hb.inj hb' (by omega)
  | arr xs ih =>
    intro w p h h'
    cases h with
    | arr h hn he _ =>
      cases h' <;> have e := h.inj ‹_› <;> first | (exfalso; omega) | skip
      rename_i hn' he' _ _
      obtain ⟨_, _, _, rfl, _, _⟩ := e
      congr 1
      exact he.det xs (hn.inj hn') (fun v hv => ih v hv) he'
  | map ms ih =>
    intro w p h h'
    cases h with
    | obj h hn he _ =>
      cases h' <;> have e := h.inj ‹_› <;> first | (exfalso; omega) | skip
      rename_i hn' he' _ _
      obtain ⟨_, _, _, rfl, _, _⟩ := e
      congr 1
      exact he.det ms (hn.inj hn') (fun v hv => ih v hv) he'

/-! ## Whatever the reader presents is documented -/

section
variable {env arena : Bytes} {v : View} {q tag flags aux a b c : Nat}

theorem kinds_of_shows (S : Seen v env arena q) (h : ValueRef env q tag flags aux a b c) {n o u f s l m r : Bool}
    (hs : reader.Shows v n o u f s l m r) : n = decide (tag = 0) ∧ o = decide (tag = 1) ∧ f = decide (tag = 3) ∧
      s = decide (tag = 4) ∧ l = (decide (tag = 7) && decide (aux = 2)) ∧ m = decide (tag = 6) ∧ r = decide (tag = 5) := by
  obtain ⟨h1, h2, _, h3, h4, h5, h6, h7⟩ := hs
  obtain ⟨g1, g2, _, g3, g4, g5, g6, g7⟩ := sees_shows S h
  rw [g1] at h1; rw [g2] at h2; rw [g3] at h3; rw [g4] at h4; rw [g5] at h5; rw [g6] at h6; rw [g7] at h7
  injection h1 with h1; injection h2 with h2; injection h3 with h3; injection h4 with h4; injection h5 with h5
  injection h6 with h6; injection h7 with h7
  exact ⟨h1.symm, h2.symm, h3.symm, h4.symm, h5.symm, h6.symm, h7.symm⟩

theorem flags_of_ok (S : Seen v env arena q) (h : ValueRef env q tag flags aux a b c) (hf : v.requireFlagsOk = .ok ()) :
    (tag ≠ 4 → flags = 0) ∧ (flags = 0 ∨ flags = 1) := by
  simp only [View.requireFlagsOk, sees_tag S h, sees_flags S h, Res.ok_bind] at hf
  have hlt : flags < 256 := h.flags.1
  split at hf
  · rename_i ht
    refine ⟨fun k => absurd ht k, ?_⟩
    have := of_decide_eq_true (Res.require_eq_ok.1 hf)
    revert hlt
    have key : ∀ m < 256, m &&& 254 = 0 → m = 0 ∨ m = 1 := by decide +kernel
    exact fun hlt => key _ hlt this
  · have := of_decide_eq_true (Res.require_eq_ok.1 hf)
    exact ⟨fun _ => this, .inl this⟩

theorem seen_ref (S : Seen v env arena q) {t : Nat} (h : v.tag = .ok t) : ∃ t f x a b c, ValueRef env q t f x a b c := by
  obtain ⟨p, hp, _⟩ := Res.bind_eq_ok.1 h
  obtain ⟨h1, _, h2⟩ := requireVr_bound hp
  rw [S.at_] at h1
  injection h1 with h1
  subst h1
  rw [S.holds.envSize] at h2
  exact ValueRef.exists (by omega)

theorem shows_tag {n o u f s l m r : Bool} (hs : reader.Shows v n o u f s l m r) : ∃ t, v.tag = .ok t := by
  obtain ⟨t, ht, _⟩ := Res.bind_eq_ok.1 hs.1
  exact ⟨t, ht⟩

theorem sliceAt_at' {v s : Bytes} {p n : Nat} (h : sliceAt v p n = .ok s) : At v p s ∧ s.length = n := by
  unfold sliceAt at h
  split at h
  · injection h with h; subst h; exact ⟨At.of_slice ‹_›, by simp; omega⟩
  · cases h

/-- Bytes inside a part of the buffer. -/
theorem at_part {b x s : Bytes} {o p : Nat} (hx : At b o x) (h : At b (o + p) s) (hl : p + s.length ≤ x.length) : At x p s := by
  have h1 := At.of_slice hl
  have h2 := hx.trans h1
  have := h.inj h2 (by simp; omega)
  rw [this]; exact h1

theorem elems_of_get {st : Prop} : ∀ (vs : List Val) {p : Nat}, (∀ i (h : i < vs.length), Ref st env arena (p + 16 * i) vs[i]) →
    Elems st env arena p vs
  | [], _, _ => .nil
  | v :: vs, p, h => by
    have h0 := h 0 (by simp)
    simp only [Nat.mul_zero, Nat.add_zero, List.getElem_cons_zero] at h0
    refine .cons h0 (elems_of_get vs fun i hi => ?_)
    have := h (i + 1) (by simpa using hi)
    rw [show p + 16 * (i + 1) = p + 16 + 16 * i by omega] at this
    simpa using this

/-- Keys of an object and the positions of their values. -/
inductive Chain (env : Bytes) : Nat → List (Bytes × Nat) → Prop
  | nil {p} : Chain env p []
  | cons {p r cs} {k : Bytes} : Num env p 2 k.length → Num env (p + 2) 2 r → At env (p + 4) k → p + 4 + k.length + 16 ≤ env.length →
      Chain env (p + 4 + k.length + 16) cs → Chain env p ((k, p + 4 + k.length) :: cs)

theorem chain_of_keys (H : Holds v env arena) : ∀ (n : Nat) {o : Nat} {ks : List Bytes}, v.keysFrom n (HeaderSize + o) = .ok ks →
    o ≤ env.length → ∃ cs, Chain env o cs ∧ cs.map Prod.fst = ks ∧ cs.length = n
  | 0, o, ks, h, _ => by
    injection h with h; subst h
    exact ⟨[], .nil, rfl, rfl⟩
  | n + 1, o, ks, h, ho => by
    obtain ⟨k, hk, h⟩ := Res.bind_eq_ok.1 h
    obtain ⟨cur, hc, h⟩ := Res.bind_eq_ok.1 h
    obtain ⟨ks', hks, h⟩ := Res.bind_eq_ok.1 h
    injection h with h; subst h
    obtain ⟨kl, hkl, hk⟩ := Res.bind_eq_ok.1 hk
    obtain ⟨q, hq, hk⟩ := Res.bind_eq_ok.1 hk
    have hlt := H.envLt
    have hes := H.envSize
    have e1 : u32 (HeaderSize + o - HeaderSize) = o := by simp [u32]; omega
    rw [e1] at hq
    have hq := (envPtrAt_eq hq).2
    obtain ⟨hk, hkl'⟩ := sliceAt_at' hk
    subst hkl'
    have hk2 : At env (o + 4) k := at_part H.envAt (by rwa [← Nat.add_assoc]) (by omega)
    obtain ⟨m, hm⟩ := Num.exists (x := env) (p := o) (k := 2) (by omega)
    have hm' := (hm.trans H.envAt).readU16
    rw [hkl] at hm'
    injection hm' with hm'
    subst hm'
    obtain ⟨r, hr⟩ := Num.exists (x := env) (p := o + 2) (k := 2) (by omega)
    obtain ⟨kl, hkl2, hc⟩ := Res.bind_eq_ok.1 hc
    rw [hkl] at hkl2
    injection hkl2 with hkl2
    subst hkl2
    have e2 : u32 (o + u32 (4 + k.length + 16)) = o + 4 + k.length + 16 := by
      simp [u32]; omega
    dsimp only at hc
    rw [e1, e2] at hc
    have hc := (envPtrAt_eq hc).1
    subst hc
    obtain ⟨cs, c1, c2, c3⟩ := chain_of_keys H n hks (by omega)
    exact ⟨_, .cons hm hr hk2 (by omega) c1, by simp [c2], by simp [c3]⟩

theorem chain_getKey (H : Holds v env arena) (key : Bytes) (pos : Nat) : ∀ (cs : List (Bytes × Nat)) {o : Nat}, Chain env o cs →
    (cs.map Prod.fst).Nodup → (key, pos) ∈ cs → v.getKeyFrom key cs.length o = .ok { v with vr := some (HeaderSize + pos) }
  | [], o, _, _, h => by simp at h
  | _, o, .cons (k := k) (cs := cs) h1 h2 h4 h5 h6, hn, hm => by
    have hk : k.length < 2 ^ 16 := h1.1
    have hlt := H.envLt
    rw [← H.envSize] at hlt h5
    have r1 := (h1.trans H.envAt).readU16
    have r2 := (h2.trans H.envAt).readU16
    have r3 := (H.envAt.trans h4).sliceAt
    rw [← Nat.add_assoc] at r2
    have e1 : u32 o = o := by simp [u32]; omega
    have e2 : u32 (o + 4) = o + 4 := by simp [u32]; omega
    have e0 : o + (4 + k.length + 16) = o + 4 + k.length + 16 := by omega
    have e3 : u32 (o + 4 + k.length + 16) = o + 4 + k.length + 16 := by simp [u32]; omega
    have e4 : u32 (o + 4 + k.length) = o + 4 + k.length := by simp [u32]; omega
    have step : v.getKeyFrom key ((k, o + 4 + k.length) :: cs).length o =
        if k = key then .ok { v with vr := some (HeaderSize + (o + 4 + k.length)) }
        else v.getKeyFrom key cs.length (o + 4 + k.length + 16) := by
      simp only [List.length_cons, View.getKeyFrom, View.keyHit, e0, e1, e2, e3, e4, r1, r2, Res.ok_bind,
        envPtrAt_ok (ofs := o) (need := 4) (v := v) (by omega),
        envPtrAt_ok (ofs := o + 4) (need := k.length) (v := v) (by omega),
        envPtrAt_ok (ofs := o + 4 + k.length) (need := 16) (v := v) (by omega),
        envPtrAt_ok (ofs := o + 4 + k.length + 16) (need := 0) (v := v) (by omega)]
      by_cases hkey : k = key
      · subst hkey; simp [r3]
      · by_cases hlen : k.length = key.length
        · rw [if_pos hlen, ← hlen, r3]; simp [hkey]
        · rw [if_neg hlen]; simp [hkey]
    simp only [List.map_cons, List.nodup_cons] at hn
    rw [step]
    rcases List.mem_cons.1 hm with hm | hm
    · injection hm with hm1 hm2
      subst hm1; subst hm2
      rw [if_pos rfl]
    · have hne : ¬ k = key := fun e => hn.1 (e ▸ List.mem_map_of_mem (f := Prod.fst) hm)
      rw [if_neg hne]
      exact chain_getKey H key pos cs h6 hn.2 hm

theorem members_of_chain {st : Prop} (hst : ¬ st) : ∀ (ms : List (Bytes × Val)) (cs : List (Bytes × Nat)) {o : Nat}, Chain env o cs →
    cs.map Prod.fst = ms.map Prod.fst → (∀ k p w, (k, p) ∈ cs → (k, w) ∈ ms → Ref st env arena p w) → Members st env arena o ms
  | [], _, _, _, _, _ => .nil
  | (k, w) :: ms, _, o, .nil, he, _ => by simp at he
  | (k, w) :: ms, _, o, .cons (k := k') (cs := cs) h1 h2 h4 h5 h6, he, hr => by
    simp only [List.map_cons, List.cons.injEq] at he
    obtain ⟨rfl, he⟩ := he
    exact .cons h1 h2 (fun s => absurd s hst) h4 (hr k' _ w (by simp) (by simp))
      (members_of_chain hst ms cs h6 he fun k p w hp hw => hr k p w (by simp [hp]) (by simp [hw]))

end

/-- Whatever the reader presents is what the document prescribes. -/
theorem ref_of_agrees {env arena : Bytes} : ∀ (val : Val), val.Distinct → ∀ {v : View} {q : Nat}, Seen v env arena q →
    reader.AgreesStrictly v val → Ref False env arena q val := by
  intro val
  induction val using Val.ind with
  | null =>
    intro _ v q S hr
    cases hr with
    | null hs =>
      obtain ⟨t, ht⟩ := shows_tag hs
      obtain ⟨t, f, x, a, b, c, h⟩ := seen_ref S ht
      have := kinds_of_shows S h hs
      simp at this
      obtain ⟨rfl, _⟩ := this
      exact .null h (fun k => k.elim)
  | bool w =>
    intro _ v q S hr
    cases hr with
    | bool hs ha =>
      obtain ⟨t, ht⟩ := shows_tag hs
      obtain ⟨t, f, x, a, b, c, h⟩ := seen_ref S ht
      have := (kinds_of_shows S h hs).2.1
      simp at this
      subst this
      simp only [reader, View.asBool, sees_tag S h, sees_aux S h, Res.ok_bind] at ha
      obtain ⟨_, _, ha⟩ := Res.bind_eq_ok.1 ha
      obtain ⟨_, hf, ha⟩ := Res.bind_eq_ok.1 ha
      obtain ⟨_, hx, ha⟩ := Res.bind_eq_ok.1 ha
      have hf := (flags_of_ok S h hf).1 (by decide)
      subst hf
      injection ha with ha
      have hx := Res.require_eq_ok.1 hx
      have : x = if w then 1 else 0 := by
        subst ha
        simp at hx
        rcases hx with rfl | rfl <;> rfl
      rw [this] at h
      exact .bool h (fun k => k.elim)
  | int i =>
    intro _ v q S hr
    cases hr with
    | int hs hi =>
      obtain ⟨hi, _⟩ := hi trivial
      obtain ⟨j, hj, hji⟩ := hs.2.1 hi
      obtain ⟨t, ht⟩ := shows_tag hs.1
      obtain ⟨t, f, x, a, b, c, h⟩ := seen_ref S ht
      have hji := Int64.toInt_inj.1 hji
      subst hji
      simp only [reader, View.isInt, sees_tag S h, Res.ok_bind] at hi
      injection hi with hi
      have hi := of_decide_eq_true hi
      subst hi
      simp only [reader, View.asInt64, sees_tag S h, sees_bits S h, Res.ok_bind] at hj
      obtain ⟨_, _, hj⟩ := Res.bind_eq_ok.1 hj
      obtain ⟨_, hf, hj⟩ := Res.bind_eq_ok.1 hj
      have hf := (flags_of_ok S h hf).1 (by decide)
      subst hf
      rw [if_neg (by decide)] at hj
      injection hj with hj
      subst hj
      refine .int h ?_ (fun k => k.elim)
      have ha : a < 2 ^ 32 := h.a.1
      have hb : b < 2 ^ 32 := h.b.1
      rw [UInt64.toUInt64_toInt64, UInt64.toNat_ofNat']
      omega
  | uint n =>
    intro _ v q S hr
    cases hr with
    | uint hs hi =>
      obtain ⟨_, hi⟩ := hi trivial
      obtain ⟨j, hj, hji⟩ := hs.2.2 hi
      obtain ⟨t, ht⟩ := shows_tag hs.1
      obtain ⟨t, f, x, a, b, c, h⟩ := seen_ref S ht
      have hji := UInt64.toNat_inj.1 (Int.ofNat_inj.1 hji)
      subst hji
      simp only [reader, View.isUInt, sees_tag S h, Res.ok_bind] at hi
      injection hi with hi
      have hi := of_decide_eq_true hi
      subst hi
      simp only [reader, View.asUInt64, sees_tag S h, sees_bits S h, Res.ok_bind] at hj
      obtain ⟨_, _, hj⟩ := Res.bind_eq_ok.1 hj
      obtain ⟨_, hf, hj⟩ := Res.bind_eq_ok.1 hj
      have hf := (flags_of_ok S h hf).1 (by decide)
      subst hf
      rw [if_neg (by decide)] at hj
      injection hj with hj
      subst hj
      refine .uint h ?_ (fun k => k.elim)
      have ha : a < 2 ^ 32 := h.a.1
      have hb : b < 2 ^ 32 := h.b.1
      simp
      omega
  | dbl d =>
    intro _ v q S hr
    cases hr with
    | dbl hs hj =>
      obtain ⟨t, ht⟩ := shows_tag hs
      obtain ⟨t, f, x, a, b, c, h⟩ := seen_ref S ht
      have := (kinds_of_shows S h hs).2.2.1
      simp at this
      subst this
      simp only [reader, View.asDouble, sees_tag S h, sees_bits S h, Res.ok_bind] at hj
      obtain ⟨_, _, hj⟩ := Res.bind_eq_ok.1 hj
      obtain ⟨_, hf, hj⟩ := Res.bind_eq_ok.1 hj
      have hf := (flags_of_ok S h hf).1 (by decide)
      subst hf
      injection hj with hj
      subst hj
      refine .dbl h ?_ (fun k => k.elim)
      have ha : a < 2 ^ 32 := h.a.1
      have hb : b < 2 ^ 32 := h.b.1
      simp
      omega
  | str s =>
    intro _ v q S hr
    cases hr with
    | str hs hj hj' =>
      obtain ⟨t, ht⟩ := shows_tag hs
      obtain ⟨t, f, x, a, b, c, h⟩ := seen_ref S ht
      have := (kinds_of_shows S h hs).2.2.2.1
      simp at this
      subst this
      clear hj'
      obtain ⟨⟨p, n⟩, hj, hsl⟩ := Res.bind_eq_ok.1 hj
      obtain ⟨hat, hn⟩ := sliceAt_at' hsl
      clear hsl
      subst hn
      simp only [View.stringRange, sees_tag S h, sees_flags S h, sees_aux S h, sees_a S h, sees_b S h, Res.ok_bind] at hj
      obtain ⟨_, _, hj⟩ := Res.bind_eq_ok.1 hj
      obtain ⟨_, hf, hj⟩ := Res.bind_eq_ok.1 hj
      rcases (flags_of_ok S h hf).2 with hf | hf
      · subst hf
        rw [if_neg (by decide)] at hj
        obtain ⟨h1, h2⟩ := arenaBytes_eq hj
        injection h1 with h1 h3
        subst h1; subst h3
        rw [S.holds.arenaLen] at h2
        exact .strArena h (at_part S.holds.arenaAt hat h2) (fun k => k.elim)
      · subst hf
        rw [if_pos (by decide)] at hj
        obtain ⟨_, h1, hj⟩ := Res.bind_eq_ok.1 hj
        have h1 := of_decide_eq_true (Res.require_eq_ok.1 h1)
        simp only [View.inlineBytes, sees_vr S h, Res.ok_bind] at hj
        obtain ⟨_, _, hj⟩ := Res.bind_eq_ok.1 hj
        injection hj with hj
        injection hj with hj1 hj2
        subst hj1; subst hj2
        have hb := h.bound
        have h1' : s.length ≤ 12 := h1
        exact .strInline h h1' (at_part S.holds.envAt (by rwa [← Nat.add_assoc]) (by omega)) (fun k => k.elim)
  | blob s =>
    intro _ v q S hr
    cases hr with
    | blob hs hj _ =>
      obtain ⟨t, ht⟩ := shows_tag hs
      obtain ⟨t, f, x, a, b, c, h⟩ := seen_ref S ht
      have := (kinds_of_shows S h hs).2.2.2.2.1
      simp at this
      obtain ⟨rfl, rfl⟩ := this
      obtain ⟨⟨p, n⟩, hj, hsl⟩ := Res.bind_eq_ok.1 hj
      obtain ⟨hat, hn⟩ := sliceAt_at' hsl
      clear hsl
      subst hn
      simp only [View.blobRange, sees_a S h, sees_b S h, sees_c S h, Res.ok_bind] at hj
      obtain ⟨_, _, hj⟩ := Res.bind_eq_ok.1 hj
      obtain ⟨_, _, hj⟩ := Res.bind_eq_ok.1 hj
      obtain ⟨_, hf, hj⟩ := Res.bind_eq_ok.1 hj
      obtain ⟨sp, hsp, hj⟩ := Res.bind_eq_ok.1 hj
      obtain ⟨rank, hrank, hj⟩ := Res.bind_eq_ok.1 hj
      obtain ⟨_, _, hj⟩ := Res.bind_eq_ok.1 hj
      obtain ⟨_, hr1, hj⟩ := Res.bind_eq_ok.1 hj
      obtain ⟨_, hsp2, hj⟩ := Res.bind_eq_ok.1 hj
      obtain ⟨dim, hdim, hj⟩ := Res.bind_eq_ok.1 hj
      obtain ⟨_, hd, hfin⟩ := Res.bind_eq_ok.1 hj
      have hf := (flags_of_ok S h hf).1 (by decide)
      subst hf
      have hr1 := of_decide_eq_true (Res.require_eq_ok.1 hr1)
      have hd := of_decide_eq_true (Res.require_eq_ok.1 hd)
      subst hr1; subst hd
      obtain ⟨rfl, _⟩ := envPtrAt_eq hsp
      obtain ⟨_, hbd⟩ := envPtrAt_eq hsp2
      rw [S.holds.envSize] at hbd
      obtain ⟨h1, h2⟩ := arenaBytes_eq hfin
      injection h1 with h1 h3
      subst h1; subst h3
      rw [S.holds.arenaLen] at h2
      obtain ⟨m, hm⟩ := Num.exists (x := env) (p := c) (k := 4) (by omega)
      have hm' := (hm.trans S.holds.envAt).readU32
      rw [hrank] at hm'
      injection hm' with hm'
      subst hm'
      obtain ⟨m, hm2⟩ := Num.exists (x := env) (p := c + 4) (k := 8) (by omega)
      have hm' := (hm2.trans S.holds.envAt).readU64
      rw [← Nat.add_assoc, hdim] at hm'
      injection hm' with hm'
      subst hm'
      exact .blob h hm hm2 (at_part S.holds.arenaAt hat h2) (fun k => k.elim)
  | arr xs ih =>
    intro hdi v q S hr
    cases hr with
    | arr child hs hsz hix _ hch =>
      obtain ⟨t, ht⟩ := shows_tag hs
      obtain ⟨t, f, x, a, b, c, h⟩ := seen_ref S ht
      have := (kinds_of_shows S h hs).2.2.2.2.2.2
      simp at this
      subst this
      simp only [reader, View.arraySize, sees_tag S h, sees_a S h, Res.ok_bind] at hsz
      obtain ⟨_, _, hsz⟩ := Res.bind_eq_ok.1 hsz
      obtain ⟨_, hf, hsz⟩ := Res.bind_eq_ok.1 hsz
      obtain ⟨p, hp, hsz⟩ := Res.bind_eq_ok.1 hsz
      obtain ⟨n, hn, hsz⟩ := Res.bind_eq_ok.1 hsz
      obtain ⟨_, hp2, hsz⟩ := Res.bind_eq_ok.1 hsz
      injection hsz with hsz
      subst hsz
      have hf0 := (flags_of_ok S h hf).1 (by decide)
      subst hf0
      obtain ⟨rfl, _⟩ := envPtrAt_eq hp
      obtain ⟨_, hbd⟩ := envPtrAt_eq hp2
      have hes := S.holds.envSize
      have hlt := S.holds.envLt
      rw [S.holds.envSize] at hbd
      obtain ⟨m, hm⟩ := Num.exists (x := env) (p := a) (k := 4) (by omega)
      have hm' := (hm.trans S.holds.envAt).readU32
      rw [hn] at hm'
      injection hm' with hm'
      subst hm'
      refine .arr h hm (elems_of_get xs fun i hi => ?_) (fun k => k.elim)
      have hc := hix i hi
      have e1 : v.envPtrAt a 4 = .ok (HeaderSize + a) := hp
      have e3 : u32 (a + 4 + 16 * i) = a + 4 + 16 * i := by simp [u32]; omega
      have : v.getIdx i = .ok { v with vr := some (HeaderSize + (a + 4 + 16 * i)) } := by
        simp only [View.getIdx, sees_tag S h, hf, sees_a S h, Res.ok_bind, e1, hn]
        simp [hi, e3, envPtrAt_ok (ofs := a + 4 + 16 * i) (need := 16) (v := v) (by omega), tArray]
      have hc' : v.getIdx i = .ok (child i) := hc
      rw [this] at hc'
      injection hc' with hc'
      have hag := hch i hi
      rw [← hc'] at hag
      exact ih _ (List.getElem_mem hi) ((Val.distinctList_iff xs).1 hdi _ (List.getElem_mem hi)) S.moved hag
  | map ms ih =>
    intro hdi v q S hr
    cases hr with
    | map child hs hmk _ hgk _ hch =>
      obtain ⟨t, ht⟩ := shows_tag hs
      obtain ⟨t, f, x, a, b, c, h⟩ := seen_ref S ht
      have := (kinds_of_shows S h hs).2.2.2.2.2.1
      simp at this
      subst this
      have hmk' : v.mapKeys = .ok (ms.map Prod.fst) := hmk
      simp only [View.mapKeys, sees_tag S h, sees_a S h, Res.ok_bind] at hmk'
      obtain ⟨_, _, hmk⟩ := Res.bind_eq_ok.1 hmk'
      obtain ⟨_, hf, hmk⟩ := Res.bind_eq_ok.1 hmk
      obtain ⟨p, hp, hmk⟩ := Res.bind_eq_ok.1 hmk
      obtain ⟨n, hn, hmk⟩ := Res.bind_eq_ok.1 hmk
      obtain ⟨p2, hp2, hmk⟩ := Res.bind_eq_ok.1 hmk
      have hf0 := (flags_of_ok S h hf).1 (by decide)
      subst hf0
      obtain ⟨rfl, hbd⟩ := envPtrAt_eq hp
      obtain ⟨rfl, _⟩ := envPtrAt_eq hp2
      have hes := S.holds.envSize
      have hlt := S.holds.envLt
      have e3 : u32 (a + 4) = a + 4 := by simp [u32]; omega
      rw [e3] at hmk
      rw [hes] at hbd
      obtain ⟨cs, c1, c2, c3⟩ := chain_of_keys S.holds n hmk hbd
      have hlen : n = ms.length := by
        have := congrArg List.length c2
        simp at this
        omega
      obtain ⟨m, hm⟩ := Num.exists (x := env) (p := a) (k := 4) (by omega)
      have hm' := (hm.trans S.holds.envAt).readU32
      rw [hn] at hm'
      injection hm' with hm'
      subst hm'
      rw [hlen] at hm
      have hnd := hdi.1
      refine .obj h hm (members_of_chain (fun k => k) ms cs c1 c2 fun k p w hp' hw => ?_) (fun k => k.elim)
      have hg := hgk k (List.mem_map_of_mem (f := Prod.fst) hw)
      have : v.getKey k = .ok { v with vr := some (HeaderSize + p) } := by
        have e : v.getKey k = v.getKeyFrom k n (a + 4) := by
          simp only [View.getKey, sees_tag S h, hf, sees_a S h, Res.ok_bind, hp, hn, e3]
          rfl
        rw [e, ← c3]
        exact chain_getKey S.holds k p cs c1 (by rw [c2]; exact hnd) hp'
      have hg' : v.getKey k = .ok (child k) := hg
      rw [this] at hg'
      injection hg' with hg'
      have hag := hch k w (firstVal_of_nodup hnd hw)
      rw [← hg'] at hag
      exact ih (k, w) hw ((Val.distinctEntries_iff ms).1 hdi.2 _ hw) S.moved hag

end Zer.Zera
