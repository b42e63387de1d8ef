import Verif.Zera.Lemmas

/-!
# Representation of values in envelope and arena

`Repr env arena vr v`: the 16-byte reference `vr` denotes `v` relative to the given envelope and
arena. `Repr.agrees`: a reader positioned at such a reference presents `v`.
-/

namespace Zer.Zera

/-- Bytes of one map entry. -/
def entry (k vr : Bytes) : Bytes := le16 k.length ++ le16 0 ++ k ++ vr

/-- Bytes of an inline string reference. -/
def inlineVr (s : Bytes) : Bytes :=
  ([UInt8.ofNat tString, UInt8.ofNat 1] ++ le16 s.length) ++ s ++ List.replicate (12 - s.length) 0

inductive Repr (env arena : Bytes) : Bytes → Val → Prop where
  | null : Repr env arena (makeVr tNull 0 0 0 0 0) .null
  | bool (b : Bool) : Repr env arena (makeVr tBool 0 (if b then 1 else 0) 0 0 0) (.bool b)
  | int (i : Int64) :
      Repr env arena (makeVr tI64 0 0 (lo32 i.toUInt64.toNat) (hi32 i.toUInt64.toNat) 0) (.int i)
  | uint (n : UInt64) :
      Repr env arena (makeVr tU64 0 0 (lo32 n.toNat) (hi32 n.toNat) 0) (.uint n)
  | dbl (d : UInt64) :
      Repr env arena (makeVr tF64 0 0 (lo32 d.toNat) (hi32 d.toNat) 0) (.dbl d)
  | strInline (s : Bytes) : s.length ≤ 12 → Repr env arena (inlineVr s) (.str s)
  | strArena (s : Bytes) (ofs : Nat) : ofs < 2 ^ 32 → s.length < 2 ^ 32 → At arena ofs s →
      Repr env arena (makeVr tString 0 0 ofs s.length 0) (.str s)
  | blob (s : Bytes) (ofs sofs : Nat) : ofs < 2 ^ 32 → s.length < 2 ^ 32 → sofs < 2 ^ 32 →
      ofs % 16 = 0 → At arena ofs s → At env sofs (shapeBytes s.length) →
      Repr env arena (makeVr tTyped 0 dtU8 ofs s.length sofs) (.blob s)
  | arr (ps : List (Bytes × Val)) (ofs : Nat) : ofs < 2 ^ 32 →
      At env ofs (le32 ps.length ++ (ps.map Prod.fst).flatten) →
      (∀ p ∈ ps, Repr env arena p.1 p.2) →
      Repr env arena (makeVr tArray 0 0 ofs 0 0) (.arr (ps.map Prod.snd))
  | map (ps : List (Bytes × Bytes × Val)) (ofs : Nat) : ofs < 2 ^ 32 →
      At env ofs (le32 ps.length ++ (ps.map (fun p => entry p.1 p.2.1)).flatten) →
      (∀ p ∈ ps, p.1.length < 2 ^ 16) →
      (∀ p ∈ ps, Repr env arena p.2.1 p.2.2) →
      Repr env arena (makeVr tObject 0 0 ofs 0 0) (.map (ps.map (fun p => (p.1, p.2.2))))

theorem inlineVr_length {s : Bytes} (h : s.length ≤ 12) : (inlineVr s).length = 16 := by
  simp [inlineVr]; omega

theorem Repr.length {env arena vr : Bytes} {v : Val} (h : Repr env arena vr v) : vr.length = 16 := by
  cases h <;> first | rfl | exact inlineVr_length ‹_›

theorem Repr.mono {env arena vr : Bytes} {v : Val} (h : Repr env arena vr v) (e e' : Bytes) :
    Repr (env ++ e) (arena ++ e') vr v := by
  induction h with
  | null => exact .null
  | bool b => exact .bool b
  | int i => exact .int i
  | uint n => exact .uint n
  | dbl d => exact .dbl d
  | strInline s h => exact .strInline s h
  | strArena s ofs h1 h2 h3 => exact .strArena s ofs h1 h2 (h3.append_right _)
  | blob s ofs sofs h1 h2 h3 h4 h5 h6 =>
    exact .blob s ofs sofs h1 h2 h3 h4 (h5.append_right _) (h6.append_right _)
  | arr ps ofs h1 h2 _ ih => exact .arr ps ofs h1 (h2.append_right _) ih
  | map ps ofs h1 h2 h3 _ ih => exact .map ps ofs h1 (h2.append_right _) h3 ih

/-- The view's buffer contains the envelope and the arena where its fields say. -/
structure Holds (v : View) (env arena : Bytes) : Prop where
  envAt : At v.buf HeaderSize env
  arenaAt : At v.buf v.arenaOfs arena
  envSize : v.envSize = env.length
  arenaLen : v.arenaLen = arena.length
  envLt : env.length < 2 ^ 32
  aligned : v.arenaOfs % 16 = 0

/-- The view is positioned at the 16 bytes `vr`. -/
structure Pos (v : View) (q : Nat) (vr : Bytes) : Prop where
  vrEq : v.vr = some q
  lo : HeaderSize ≤ q
  hi : q + 16 ≤ HeaderSize + v.envSize
  bytes : At v.buf q vr

section fields
variable {v : View} {q : Nat}

theorem requireVr_ok {vr : Bytes} (h : Pos v q vr) : v.requireVr = .ok q := by
  simp [View.requireVr, h.vrEq, h.lo, h.hi]

theorem tag_ok {t f : Nat} {rest : Bytes} (h : Pos v q ([UInt8.ofNat t, UInt8.ofNat f] ++ rest)) :
    v.tag = .ok (t % 256) := by
  have := h.bytes.byteAt (i := 0) (by simp)
  simp only [View.tag, requireVr_ok h, Res.ok_bind]
  simpa using this

theorem flags_ok {t f : Nat} {rest : Bytes}
    (h : Pos v q ([UInt8.ofNat t, UInt8.ofNat f] ++ rest)) : v.flags = .ok (f % 256) := by
  have := h.bytes.byteAt (i := 1) (by simp)
  simp only [View.flags, requireVr_ok h, Res.ok_bind]
  simpa using this

theorem aux_ok {h2 : Bytes} {x : Nat} {rest : Bytes} (hl : h2.length = 2)
    (h : Pos v q (h2 ++ le16 x ++ rest)) : v.aux = .ok (x % 2 ^ 16) := by
  have := h.bytes.left.right
  rw [hl] at this
  simp only [View.aux, requireVr_ok h, Res.ok_bind]
  exact readU16_at this

end fields

section vr
variable {v : View} {q t f x aa bb cc : Nat}

theorem vr_tag (h : Pos v q (makeVr t f x aa bb cc)) : v.tag = .ok (t % 256) := by
  simp only [makeVr, List.append_assoc] at h; exact tag_ok h
theorem vr_flags (h : Pos v q (makeVr t f x aa bb cc)) : v.flags = .ok (f % 256) := by
  simp only [makeVr, List.append_assoc] at h; exact flags_ok h
theorem vr_aux (h : Pos v q (makeVr t f x aa bb cc)) : v.aux = .ok (x % 2 ^ 16) := by
  have h' := h
  simp only [makeVr, List.append_assoc] at h'
  rw [← List.append_assoc] at h'
  exact aux_ok (by rfl) h'
theorem vr_a (h : Pos v q (makeVr t f x aa bb cc)) : v.a = .ok (aa % 2 ^ 32) := by
  have := h.bytes.left.left.right
  simp only [View.a, requireVr_ok h, Res.ok_bind]
  exact readU32_at this
theorem vr_b (h : Pos v q (makeVr t f x aa bb cc)) : v.b = .ok (bb % 2 ^ 32) := by
  have := h.bytes.left.right
  simp only [View.b, requireVr_ok h, Res.ok_bind]
  exact readU32_at this
theorem vr_c (h : Pos v q (makeVr t f x aa bb cc)) : v.c = .ok (cc % 2 ^ 32) := by
  have := h.bytes.right
  simp only [View.c, requireVr_ok h, Res.ok_bind]
  exact readU32_at this

theorem vr_bits {n : Nat} (hn : n < 2 ^ 64) (h : Pos v q (makeVr t f x (lo32 n) (hi32 n) cc)) :
    v.bits = .ok n := by
  simp only [View.bits, vr_a h, vr_b h, Res.ok_bind, Res.pure_eq, lo32_eq, hi32_eq]
  rw [or_shift_add (by omega)]
  congr 1; omega

theorem vr_flagsOk (hf : f = 0) (h : Pos v q (makeVr t f x aa bb cc)) :
    v.requireFlagsOk = .ok () := by
  subst hf
  simp only [View.requireFlagsOk, vr_tag h, vr_flags h, Res.ok_bind]
  split <;> rfl

/-- The kind predicates only look at the tag (and, for blobs, the element type). -/
theorem shows_of_tag {tg xx : Nat} (ht : v.tag = .ok tg) (hx : v.aux = .ok xx) :
    reader.Shows v (decide (tg = 0)) (decide (tg = 1)) (decide (tg = 2) || decide (tg = 8))
      (decide (tg = 3)) (decide (tg = 4)) (decide (tg = 7) && decide (xx = 2)) (decide (tg = 6))
      (decide (tg = 5)) := by
  refine ⟨?_, ?_, ⟨decide (tg = 2), decide (tg = 8), ?_, ?_, rfl⟩, ?_, ?_, ?_, ?_, ?_⟩ <;>
    simp only [reader, View.isNull, View.isBool, View.isInt, View.isUInt, View.isFloat,
      View.isString, View.isBlob, View.isMap, View.isArray, ht, hx, Res.ok_bind, Res.pure_eq,
      tNull, tBool, tI64, tU64, tF64, tString, tArray, tObject, tTyped, dtU8] <;> try rfl
  by_cases h7 : tg = 7
  · subst h7; rfl
  · simp [h7]

end vr

theorem envPtrAt_ok {v : View} {ofs need : Nat} (h : ofs + need ≤ v.envSize) :
    v.envPtrAt ofs need = .ok (HeaderSize + ofs) := by
  have h1 : ofs ≤ v.envSize := by omega
  have h2 : need ≤ v.envSize := by omega
  simp [View.envPtrAt, h, h1, h2]

theorem arenaBytes_ok {v : View} {ofs len : Nat} (h : ofs + len ≤ v.arenaLen) :
    v.arenaBytes ofs len = .ok (v.arenaOfs + ofs, len) := by
  have h1 : ofs ≤ v.arenaLen := by omega
  have h2 : len ≤ v.arenaLen := by omega
  simp [View.arenaBytes, h, h1, h2]

theorem Holds.envAt' {v : View} {env arena : Bytes} (H : Holds v env arena) {o : Nat} {bs : Bytes}
    (h : At env o bs) : At v.buf (HeaderSize + o) bs := H.envAt.trans h

theorem Holds.arenaAt' {v : View} {env arena : Bytes} (H : Holds v env arena) {o : Nat} {bs : Bytes}
    (h : At arena o bs) : At v.buf (v.arenaOfs + o) bs := H.arenaAt.trans h

/-- Moving to another reference of the same envelope. -/
theorem Holds.pos {v : View} {env arena : Bytes} (H : Holds v env arena) {o : Nat} {vr : Bytes}
    (hl : vr.length = 16) (h : At env o vr) :
    Pos { v with vr := some (HeaderSize + o) } (HeaderSize + o) vr := by
  have := h.bound
  refine ⟨rfl, by simp, ?_, H.envAt' h⟩
  simp only [H.envSize]; omega

theorem Holds.withVr {v : View} {env arena : Bytes} (H : Holds v env arena) (x : Option Nat) :
    Holds { v with vr := x } env arena := 
    ⟨H.envAt, H.arenaAt, H.envSize, H.arenaLen, H.envLt, H.aligned⟩

/-! ### Strings and blobs -/

section leaf
variable {v : View} {q : Nat} {env arena : Bytes}

theorem inline_pos_shape {s : Bytes} (h : Pos v q (inlineVr s)) :
    Pos v q ([UInt8.ofNat tString, UInt8.ofNat 1] ++
      (le16 s.length ++ (s ++ List.replicate (12 - s.length) 0))) := by
  simpa [inlineVr] using h

theorem inline_str {s : Bytes} (hs : s.length ≤ 12) (h : Pos v q (inlineVr s)) :
    v.asStringView = .ok s := by
  have h1 := inline_pos_shape h
  have ht : v.tag = .ok 4 := tag_ok h1
  have hf : v.flags = .ok 1 := flags_ok h1
  have hx : v.aux = .ok s.length := by
    have := aux_ok (h2 := [UInt8.ofNat tString, UInt8.ofNat 1]) rfl (by simpa using h1)
    rw [this, Nat.mod_eq_of_lt (by omega)]
  have hb : At v.buf (q + 4) s := by
    have := h.bytes.left.right
    simpa using this
  simp only [View.asStringView, View.stringRange, View.requireFlagsOk, ht, hf, hx, Res.ok_bind,
    tString, View.inlineBytes, requireVr_ok h, InlineMax]
  simp [hs, hb.sliceAt, Res.require]

theorem arena_str (H : Holds v env arena) {s : Bytes} {ofs : Nat} (ho : ofs < 2 ^ 32)
    (hs : s.length < 2 ^ 32) (ha : At arena ofs s)
    (h : Pos v q (makeVr tString 0 0 ofs s.length 0)) : v.asStringView = .ok s := by
  have hb := H.arenaAt' ha
  have hle : ofs + s.length ≤ v.arenaLen := by rw [H.arenaLen]; exact ha.bound
  have hfl := vr_flagsOk rfl h
  simp only [View.asStringView, View.stringRange, vr_tag h, hfl, vr_flags h, vr_a h, vr_b h,
    Res.ok_bind, Nat.mod_eq_of_lt ho, Nat.mod_eq_of_lt hs, arenaBytes_ok hle]
  simp [tString, hb.sliceAt]

theorem arena_blobRange (H : Holds v env arena) {s : Bytes} {ofs sofs : Nat} (ho : ofs < 2 ^ 32)
    (hs : s.length < 2 ^ 32) (hso : sofs < 2 ^ 32) (ha : At arena ofs s)
    (he : At env sofs (shapeBytes s.length))
    (h : Pos v q (makeVr tTyped 0 dtU8 ofs s.length sofs)) :
    v.blobRange = .ok (v.arenaOfs + ofs, s.length) := by
  have hle : ofs + s.length ≤ v.arenaLen := by rw [H.arenaLen]; exact ha.bound
  have hfl := vr_flagsOk rfl h
  have hsb : At v.buf (HeaderSize + sofs) (shapeBytes s.length) := H.envAt' he
  have hbd := he.bound
  rw [shapeBytes_length, ← H.envSize] at hbd
  rw [shapeBytes_eq] at hsb
  have hrank : readU32 v.buf (HeaderSize + sofs) = .ok 1 := by
    rw [readU32_at hsb.left]
  have hlo : readU32 v.buf (HeaderSize + sofs + 4) = .ok s.length := by
    have := readU32_at hsb.right.left
    simpa [Nat.mod_eq_of_lt hs] using this
  have hhi : readU32 v.buf (HeaderSize + sofs + 4 + 4) = .ok 0 := by
    have := readU32_at hsb.right.right
    simpa [Nat.div_eq_of_lt hs] using this
  have hdim : readU64 v.buf (HeaderSize + sofs + 4) = .ok s.length := by
    rw [readU64_of_halves hlo hhi hs]; simp
  have e1 : v.envPtrAt sofs 4 = .ok (HeaderSize + sofs) := envPtrAt_ok (by omega)
  have e2 : v.envPtrAt sofs 12 = .ok (HeaderSize + sofs) := envPtrAt_ok (by omega)
  have hisb : v.isBlob = .ok true := by
    simp only [View.isBlob, vr_tag h, vr_aux h, Res.ok_bind]; rfl
  simp only [View.blobRange, hisb, hfl, vr_c h, vr_b h, vr_a h, Res.ok_bind,
    Nat.mod_eq_of_lt ho, Nat.mod_eq_of_lt hs, Nat.mod_eq_of_lt hso, e1, hrank, hdim]
  simp [RankMax, e2, arenaBytes_ok hle]

theorem arena_blob (H : Holds v env arena) {s : Bytes} {ofs sofs : Nat} (ho : ofs < 2 ^ 32)
    (hs : s.length < 2 ^ 32) (hso : sofs < 2 ^ 32) (ha : At arena ofs s)
    (he : At env sofs (shapeBytes s.length))
    (h : Pos v q (makeVr tTyped 0 dtU8 ofs s.length sofs)) : v.asBlob = .ok s := by
  simp [View.asBlob, arena_blobRange H ho hs hso ha he h, (H.arenaAt' ha).sliceAt]

end leaf

/-! ### Arrays -/

theorem flatten_at {env : Bytes} {o : Nat} : ∀ {vs : List Bytes}, (∀ x ∈ vs, x.length = 16) →
    At env o vs.flatten → ∀ i (h : i < vs.length), At env (o + 16 * i) vs[i]
  | [], _, _, i, h => by simp at h
  | x :: xs, hl, hat, 0, _ => by simpa using hat.left
  | x :: xs, hl, hat, i + 1, h => by
    have hx : x.length = 16 := hl x (by simp)
    have hr : At env (o + 16) xs.flatten := by
      have := (At.split (x := x) (y := xs.flatten)).1 (by simpa using hat)
      rw [hx] at this; exact this.2
    have := flatten_at (fun y hy => hl y (by simp [hy])) hr i (by simpa using h)
    have e : o + 16 * (i + 1) = o + 16 + 16 * i := by omega
    simpa [e] using this

theorem flatten16_length {vs : List Bytes} (h : ∀ x ∈ vs, x.length = 16) :
    vs.flatten.length = 16 * vs.length := by
  induction vs with
  | nil => simp
  | cons x xs ih =>
    have hx := h x (by simp)
    have := ih (fun y hy => h y (by simp [hy]))
    simp [hx, this]; omega

/-! ### Maps -/

section maps
variable {v : View} {env arena : Bytes}

theorem entry_length {k vr : Bytes} (h : vr.length = 16) : (entry k vr).length = 4 + k.length + 16 := by
  simp [entry, h]; omega

theorem entries_count (ps : List (Bytes × Bytes × Val)) :
    ps.length ≤ (ps.map (fun p => entry p.1 p.2.1)).flatten.length := by
  induction ps with
  | nil => simp
  | cons p ps ih =>
    simp only [List.map_cons, List.flatten_cons, List.length_append, List.length_cons]
    have : 1 ≤ (entry p.1 p.2.1).length := by simp [entry]; omega
    omega

/-- What the loops read at the offset of an entry. -/
theorem entry_reads (H : Holds v env arena) {o : Nat} {k vr : Bytes} (hk : k.length < 2 ^ 16)
    (hv : vr.length = 16) (h : At env o (entry k vr)) :
    o + (4 + k.length + 16) ≤ v.envSize ∧
    readU16 v.buf (HeaderSize + o) = .ok k.length ∧
    readU16 v.buf (HeaderSize + o + 2) = .ok 0 ∧
    sliceAt v.buf (HeaderSize + (o + 4)) k.length = .ok k ∧
    At env (o + 4 + k.length) vr := by
  have hb := h.bound
  rw [entry_length hv, ← H.envSize] at hb
  have h1 := H.envAt' h.left.left.left
  have h2 := h.left.left.right
  have h3 := h.left.right
  have h4 := h.right
  simp only [List.length_append, le16_length] at h2 h3 h4
  have h2' := H.envAt' h2
  have h3' := (H.envAt' h3).sliceAt
  refine ⟨hb, ?_, ?_, ?_, ?_⟩
  · rw [readU16_at h1, Nat.mod_eq_of_lt hk]
  · have := readU16_at h2'
    simpa [Nat.add_assoc] using this
  · simpa [Nat.add_assoc] using h3'
  · simpa [Nat.add_assoc] using h4

/-- Entries of a stored map from offset `o`. -/
structure Entries (env : Bytes) (o : Nat) (ps : List (Bytes × Bytes × Val)) : Prop where
  bytes : At env o (ps.map (fun p => entry p.1 p.2.1)).flatten
  keyLt : ∀ p ∈ ps, p.1.length < 2 ^ 16
  vrLen : ∀ p ∈ ps, p.2.1.length = 16

theorem Entries.head {o : Nat} {p : Bytes × Bytes × Val} {ps : List (Bytes × Bytes × Val)}
    (h : Entries env o (p :: ps)) : At env o (entry p.1 p.2.1) ∧
      Entries env (o + (4 + p.1.length + 16)) ps := by
  have hb : At env o (entry p.1 p.2.1 ++ (ps.map (fun p => entry p.1 p.2.1)).flatten) := by
    simpa using h.bytes
  refine ⟨hb.left, ?_, fun q hq => h.keyLt q (by simp [hq]), fun q hq => h.vrLen q (by simp [hq])⟩
  have := hb.right
  rwa [entry_length (h.vrLen p (by simp))] at this

theorem keysFrom_ok (H : Holds v env arena) : ∀ (ps : List (Bytes × Bytes × Val)) (o : Nat),
    Entries env o ps → v.keysFrom ps.length (HeaderSize + o) = .ok (ps.map Prod.fst)
  | [], o, _ => by simp [View.keysFrom]
  | p :: ps, o, h => by
    obtain ⟨h1, h2⟩ := h.head
    have hk := h.keyLt p (by simp)
    have hv := h.vrLen p (by simp)
    obtain ⟨hb, r1, _, r3, _⟩ := entry_reads H hk hv h1
    have hlt := H.envLt
    rw [← H.envSize] at hlt
    have e1 : u32 (HeaderSize + o - HeaderSize) = o := by simp [u32]; omega
    have e2 : u32 (o + u32 (4 + p.1.length + 16)) = o + (4 + p.1.length + 16) := by
      simp [u32]; omega
    have ih := keysFrom_ok H ps _ h2
    have r3' : sliceAt v.buf (HeaderSize + o + 4) p.1.length = .ok p.1 := by
      simpa [Nat.add_assoc] using r3
    simp only [List.length_cons, View.keysFrom, View.keyDeref, View.keyNext, r1, Res.ok_bind, e1, e2,
      envPtrAt_ok hb, r3', envPtrAt_ok (ofs := o + (4 + p.1.length + 16)) (need := 0) (v := v) (by omega),
      ih]
    simp

theorem containsFrom_ok (H : Holds v env arena) (key : Bytes) :
    ∀ (ps : List (Bytes × Bytes × Val)) (o : Nat), Entries env o ps →
      v.containsFrom key ps.length o = .ok (decide (key ∈ ps.map Prod.fst))
  | [], o, _ => by simp [View.containsFrom]
  | p :: ps, o, h => by
    obtain ⟨h1, h2⟩ := h.head
    have hk := h.keyLt p (by simp)
    have hv := h.vrLen p (by simp)
    obtain ⟨hb, r1, r2, r3, _⟩ := entry_reads H hk hv h1
    have hlt := H.envLt
    rw [← H.envSize] at hlt
    have e1 : u32 o = o := by simp [u32]; omega
    have e2 : u32 (o + 4) = o + 4 := by simp [u32]; omega
    have e3 : u32 (o + (4 + p.1.length + 16)) = o + (4 + p.1.length + 16) := by simp [u32]; omega
    have ih := containsFrom_ok H key ps _ h2
    simp only [List.length_cons, View.containsFrom, View.keyHit, e1, e2, e3, r1, r2, Res.ok_bind,
      envPtrAt_ok (ofs := o) (need := 4) (v := v) (by omega),
      envPtrAt_ok (ofs := o + 4) (need := p.1.length) (v := v) (by omega),
      envPtrAt_ok (ofs := o + (4 + p.1.length + 16)) (need := 0) (v := v) (by omega)]
    by_cases hkey : p.1 = key
    · subst hkey; simp [r3]
    · have hkey' : ¬ key = p.1 := fun e => hkey e.symm
      by_cases hlen : p.1.length = key.length
      · rw [if_pos hlen, ← hlen, r3]
        simp [hkey, ih, hkey']
      · rw [if_neg hlen]
        simp [ih, hkey']

theorem getKeyFrom_ok (H : Holds v env arena) (key : Bytes) :
    ∀ (ps : List (Bytes × Bytes × Val)) (o : Nat), Entries env o ps →
      (key ∉ ps.map Prod.fst ∧ v.getKeyFrom key ps.length o = .err .deser) ∨
      (∃ p ∈ ps, ∃ o', p.1 = key ∧ At env o' p.2.1 ∧
        firstVal (ps.map (fun p => (p.1, p.2.2))) key = some p.2.2 ∧
        v.getKeyFrom key ps.length o = .ok { v with vr := some (HeaderSize + o') })
  | [], o, _ => by simp [View.getKeyFrom]
  | p :: ps, o, h => by
    obtain ⟨h1, h2⟩ := h.head
    have hk := h.keyLt p (by simp)
    have hv := h.vrLen p (by simp)
    obtain ⟨hb, r1, r2, r3, r4⟩ := entry_reads H hk hv h1
    have hlt := H.envLt
    rw [← H.envSize] at hlt
    have e1 : u32 o = o := by simp [u32]; omega
    have e2 : u32 (o + 4) = o + 4 := by simp [u32]; omega
    have e3 : u32 (o + (4 + p.1.length + 16)) = o + (4 + p.1.length + 16) := by simp [u32]; omega
    have e4 : u32 (o + 4 + p.1.length) = o + 4 + p.1.length := by simp [u32]; omega
    have step : v.getKeyFrom key (p :: ps).length o =
        if p.1 = key then .ok { v with vr := some (HeaderSize + (o + 4 + p.1.length)) }
        else v.getKeyFrom key ps.length (o + (4 + p.1.length + 16)) := by
      simp only [List.length_cons, View.getKeyFrom, View.keyHit, e1, e2, e3, e4, r1, r2, Res.ok_bind,
        envPtrAt_ok (ofs := o) (need := 4) (v := v) (by omega),
        envPtrAt_ok (ofs := o + 4) (need := p.1.length) (v := v) (by omega),
        envPtrAt_ok (ofs := o + 4 + p.1.length) (need := 16) (v := v) (by omega),
        envPtrAt_ok (ofs := o + (4 + p.1.length + 16)) (need := 0) (v := v) (by omega)]
      by_cases hkey : p.1 = key
      · subst hkey; simp [r3]
      · by_cases hlen : p.1.length = key.length
        · rw [if_pos hlen, ← hlen, r3]; simp [hkey]
        · rw [if_neg hlen]; simp [hkey]
    by_cases hkey : p.1 = key
    · right
      refine ⟨p, by simp, o + 4 + p.1.length, hkey, r4, ?_, ?_⟩
      · simp [firstVal, hkey]
      · rw [step, if_pos hkey]
    · rw [step, if_neg hkey]
      rcases getKeyFrom_ok H key ps _ h2 with ⟨hn, he⟩ | ⟨p', hp', o', a1, a2, a3, a4⟩
      · left
        refine ⟨?_, he⟩
        have hkey' : ¬ key = p.1 := fun e => hkey e.symm
        simp only [List.map_cons, List.mem_cons, hkey', false_or]
        exact hn
      · right
        refine ⟨p', by simp [hp'], o', a1, a2, ?_, a4⟩
        simp only [List.map_cons, firstVal, if_neg hkey]
        exact a3

end maps

/-! ### Agreement -/

theorem Shows_cast {v : View} {a1 a2 a3 a4 a5 a6 a7 a8 b1 b2 b3 b4 b5 b6 b7 b8 : Bool}
    (h : reader.Shows v a1 a2 a3 a4 a5 a6 a7 a8) (h1 : a1 = b1) (h2 : a2 = b2) (h3 : a3 = b3)
    (h4 : a4 = b4) (h5 : a5 = b5) (h6 : a6 = b6) (h7 : a7 = b7) (h8 : a8 = b8) :
    reader.Shows v b1 b2 b3 b4 b5 b6 b7 b8 := by
  subst h1 h2 h3 h4 h5 h6 h7 h8; exact h

theorem int64_of_bits (i : Int64) : (UInt64.ofNat i.toUInt64.toNat).toInt64 = i := by
  simp

/-- The reader, except that `asBlob` also checks that the blob starts at a multiple of 16. Used to
state alignment of all reachable blobs. -/
def readerAligned : Reader View :=
  { reader with
    asBlob := fun v => do
      let (p, n) ← v.blobRange
      Res.require (decide (p % 16 = 0)) .deser
      sliceAt v.buf p n }

theorem arena_blobAligned {v : View} {q : Nat} {env arena : Bytes} (H : Holds v env arena)
    {s : Bytes} {ofs sofs : Nat} (ho : ofs < 2 ^ 32)
    (hs : s.length < 2 ^ 32) (hso : sofs < 2 ^ 32) (hal : ofs % 16 = 0) (ha : At arena ofs s)
    (he : At env sofs (shapeBytes s.length))
    (h : Pos v q (makeVr tTyped 0 dtU8 ofs s.length sofs)) : readerAligned.asBlob v = .ok s := by
  have : (v.arenaOfs + ofs) % 16 = 0 := by have := H.aligned; omega
  simp [readerAligned, arena_blobRange H ho hs hso ha he h, (H.arenaAt' ha).sliceAt, this]

/-- A reader positioned at a reference that denotes `val` presents `val`, blobs aligned. -/
theorem Repr.agreesAligned {env arena : Bytes} : ∀ (val : Val) {v : View} {o : Nat} {vr : Bytes},
    Holds v env arena → v.vr = some (HeaderSize + o) → At env o vr → Repr env arena vr val →
    readerAligned.AgreesStrictly v val := by
  intro val
  induction val using Val.ind with
  | null =>
    intro v o vr H hvr hat hr
    cases hr
    have P := H.pos rfl hat; rw [← hvr] at P
    exact .null (shows_of_tag (vr_tag P) (vr_aux P))
  | bool b =>
    intro v o vr H hvr hat hr
    cases hr
    have P := H.pos rfl hat; rw [← hvr] at P
    refine .bool (shows_of_tag (vr_tag P) (vr_aux P)) ?_
    have hfl := vr_flagsOk rfl P
    simp only [readerAligned, reader, View.asBool, vr_tag P, hfl, vr_aux P, Res.ok_bind]
    cases b <;> rfl
  | int i =>
    intro v o vr H hvr hat hr
    cases hr
    have P := H.pos rfl hat; rw [← hvr] at P
    have hfl := vr_flagsOk rfl P
    have hbits := vr_bits (UInt64.toNat_lt _) P
    refine .int ⟨shows_of_tag (vr_tag P) (vr_aux P), ?_, ?_⟩ ?_; rotate_right
    · intro _; simp only [readerAligned, reader, View.isInt, View.isUInt, vr_tag P, Res.ok_bind]; exact ⟨rfl, rfl⟩
    · intro _
      refine ⟨i, ?_, rfl⟩
      simp only [readerAligned, reader, View.asInt64, vr_tag P, hfl, hbits, Res.ok_bind, int64_of_bits]
      rfl
    · intro h
      simp only [readerAligned, reader, View.isUInt, vr_tag P, Res.ok_bind] at h
      cases h
  | uint n =>
    intro v o vr H hvr hat hr
    cases hr
    have P := H.pos rfl hat; rw [← hvr] at P
    have hfl := vr_flagsOk rfl P
    have hbits := vr_bits (UInt64.toNat_lt _) P
    refine .uint ⟨shows_of_tag (vr_tag P) (vr_aux P), ?_, ?_⟩ ?_; rotate_right
    · intro _; simp only [readerAligned, reader, View.isInt, View.isUInt, vr_tag P, Res.ok_bind]; exact ⟨rfl, rfl⟩
    · intro h
      simp only [readerAligned, reader, View.isInt, vr_tag P, Res.ok_bind] at h
      cases h
    · intro _
      refine ⟨n, ?_, rfl⟩
      simp only [readerAligned, reader, View.asUInt64, vr_tag P, hfl, hbits, Res.ok_bind, UInt64.ofNat_toNat]
      rfl
  | dbl d =>
    intro v o vr H hvr hat hr
    cases hr
    have P := H.pos rfl hat; rw [← hvr] at P
    have hfl := vr_flagsOk rfl P
    have hbits := vr_bits (UInt64.toNat_lt _) P
    refine .dbl (shows_of_tag (vr_tag P) (vr_aux P)) ?_
    simp only [readerAligned, reader, View.asDouble, vr_tag P, hfl, hbits, Res.ok_bind, UInt64.ofNat_toNat]
    rfl
  | str s =>
    intro v o vr H hvr hat hr
    have hl := hr.length
    have P := H.pos hl hat; rw [← hvr] at P
    cases hr with
    | strInline _ hs =>
      have h1 := inline_pos_shape P
      have ht : v.tag = .ok 4 := tag_ok h1
      have hx := aux_ok (h2 := [UInt8.ofNat tString, UInt8.ofNat 1]) rfl (by simpa using h1)
      exact .str (shows_of_tag ht hx) (inline_str hs P) (inline_str hs P)
    | strArena _ ofs h1 h2 h3 =>
      have := arena_str H h1 h2 h3 P
      exact .str (shows_of_tag (vr_tag P) (vr_aux P)) this this
  | blob s =>
    intro v o vr H hvr hat hr
    have hl := hr.length
    have P := H.pos hl hat; rw [← hvr] at P
    cases hr with
    | blob _ ofs sofs h1 h2 h3 h4 h5 h6 =>
      exact .blob (shows_of_tag (vr_tag P) (vr_aux P)) (arena_blobAligned H h1 h2 h3 h4 h5 h6 P)
        (fun _ => rfl)
  | arr xs ih =>
    intro v o vr H hvr hat hr
    have hl := hr.length
    have P := H.pos hl hat; rw [← hvr] at P
    cases hr with
    | arr ps ofs h1 h2 h3 =>
      have hfl := vr_flagsOk rfl P
      have hlt := H.envLt
      have hsz := H.envSize
      have h16 : ∀ x ∈ ps.map Prod.fst, x.length = 16 := by
        intro x hx
        obtain ⟨p, hp, rfl⟩ := List.mem_map.1 hx
        exact (h3 p hp).length
      have hb := h2.bound
      rw [List.length_append, le32_length, flatten16_length h16, List.length_map] at hb
      have hcnt : readU32 v.buf (HeaderSize + ofs) = .ok ps.length := by
        rw [readU32_at (H.envAt' h2.left), Nat.mod_eq_of_lt (by omega)]
      have e1 : v.envPtrAt ofs 4 = .ok (HeaderSize + ofs) := envPtrAt_ok (by omega)
      have e2 : v.envPtrAt ofs (4 + 16 * ps.length) = .ok (HeaderSize + ofs) :=
        envPtrAt_ok (by omega)
      have hidx : ∀ i, v.getIdx i = if i < ps.length then
          .ok { v with vr := some (HeaderSize + (ofs + 4 + 16 * i)) } else .err .deser := by
        intro i
        simp only [View.getIdx, vr_tag P, hfl, vr_a P, Res.ok_bind, Nat.mod_eq_of_lt h1, e1, hcnt]
        by_cases hi : i < ps.length
        · have e3 : u32 (ofs + 4 + 16 * i) = ofs + 4 + 16 * i := by simp [u32]; omega
          simp [hi, e3, envPtrAt_ok (ofs := ofs + 4 + 16 * i) (need := 16) (v := v) (by omega), tArray]
        · simp [hi, tArray]
      refine .arr (fun i => { v with vr := some (HeaderSize + (ofs + 4 + 16 * i)) })
        (shows_of_tag (vr_tag P) (vr_aux P)) ?_ ?_ ?_ ?_
      · simp only [readerAligned, reader, View.arraySize, vr_tag P, hfl, vr_a P, Res.ok_bind,
          Nat.mod_eq_of_lt h1, e1, hcnt, e2]
        simp [tArray]
      · intro i hi
        have hi : i < ps.length := by simpa using hi
        simp only [readerAligned, reader, hidx, if_pos hi]
      · intro i hi
        have hi : ¬ i < ps.length := by simpa using hi
        simp only [readerAligned, reader, hidx, if_neg hi]
      · intro i hi
        have hi' : i < ps.length := by simpa using hi
        have hat' : At env (ofs + 4 + 16 * i) (ps[i].1) := by
          have := flatten_at h16 h2.right i (by simpa using hi')
          simpa using this
        have hmem : ps[i] ∈ ps := List.getElem_mem _
        have := ih (ps.map Prod.snd)[i] (List.getElem_mem _) (H.withVr _) rfl hat'
          (by simpa using h3 _ hmem)
        exact this
  | map ms ih =>
    intro v o vr H hvr hat hr
    have hl := hr.length
    have P := H.pos hl hat; rw [← hvr] at P
    cases hr with
    | map ps ofs h1 h2 h3 h4 =>
      have hfl := vr_flagsOk rfl P
      have hlt := H.envLt
      have hsz := H.envSize
      have hE : Entries env (ofs + 4) ps := ⟨by simpa using h2.right, h3, fun p hp => (h4 p hp).length⟩
      have hcl := entries_count ps
      have hb := h2.bound
      rw [List.length_append, le32_length] at hb
      have hcnt : readU32 v.buf (HeaderSize + ofs) = .ok ps.length := by
        rw [readU32_at (H.envAt' h2.left), Nat.mod_eq_of_lt (by omega)]
      have e1 : v.envPtrAt ofs 4 = .ok (HeaderSize + ofs) := envPtrAt_ok (by omega)
      have e3 : u32 (ofs + 4) = ofs + 4 := by simp [u32]; omega
      have e2 : v.envPtrAt (ofs + 4) 0 = .ok (HeaderSize + (ofs + 4)) := envPtrAt_ok (by omega)
      have hkeys : (ps.map (fun p => (p.1, p.2.2))).map Prod.fst = ps.map Prod.fst := by
        simp [Function.comp_def]
      have hmk : v.mapKeys = .ok (ps.map Prod.fst) := by
        simp only [View.mapKeys, vr_tag P, hfl, vr_a P, Res.ok_bind, Nat.mod_eq_of_lt h1, e1,
          hcnt, e3, e2]
        rw [keysFrom_ok H ps _ hE]; rfl
      have hct : ∀ k, v.contains k = .ok (decide (k ∈ ps.map Prod.fst)) := by
        intro k
        have : v.isMap = .ok true := by simp only [View.isMap, vr_tag P, Res.ok_bind]; rfl
        simp only [View.contains, this, hfl, vr_a P, Res.ok_bind, Nat.mod_eq_of_lt h1, e1, hcnt, e3]
        rw [containsFrom_ok H k ps _ hE]; rfl
      have hgk : ∀ k, v.getKey k = v.getKeyFrom k ps.length (ofs + 4) := by
        intro k
        simp only [View.getKey, vr_tag P, hfl, vr_a P, Res.ok_bind, Nat.mod_eq_of_lt h1, e1, hcnt, e3]
        rfl
      refine .map (fun k => match v.getKey k with | .ok w => w | _ => v)
        (shows_of_tag (vr_tag P) (vr_aux P)) ?_ ?_ ?_ ?_ ?_
      · rw [hkeys]; exact hmk
      · intro k; rw [hkeys]; exact hct k
      · intro k hk
        rw [hkeys] at hk
        simp only [readerAligned, reader, hgk]
        rcases getKeyFrom_ok H k ps _ hE with ⟨hn, _⟩ | ⟨p, hp, o', a1, a2, a3, a4⟩
        · exact absurd hk hn
        · simp [a4]
      · intro k hk
        rw [hkeys] at hk
        simp only [readerAligned, reader, hgk]
        rcases getKeyFrom_ok H k ps _ hE with ⟨_, he⟩ | ⟨p, hp, o', a1, a2, a3, a4⟩
        · exact he
        · exact absurd (List.mem_map.2 ⟨p, hp, a1⟩) hk
      · intro k val hval
        rcases getKeyFrom_ok H k ps _ hE with ⟨hn, he⟩ | ⟨p, hp, o', a1, a2, a3, a4⟩
        · have := firstVal_isSome.2 ⟨val, hval⟩
          rw [hkeys] at this
          exact absurd this hn
        · simp only [hgk, a4]
          rw [a3] at hval
          injection hval with hval
          subst hval
          exact ih (p.1, p.2.2) (List.mem_map.2 ⟨p, hp, rfl⟩) (H.withVr _) rfl a2 (h4 p hp)

theorem agrees_of_aligned {p : Prop} {v : View} {val : Val} (h : readerAligned.AgreesW p v val) :
    reader.AgreesW p v val := by
  induction h with
  | null h => exact .null h
  | bool h h' => exact .bool h h'
  | int h h' => exact .int h h'
  | uint h h' => exact .uint h h'
  | dbl h h' => exact .dbl h h'
  | str h h' h'' => exact .str h h' h''
  | @blob r s _ h h' h'' =>
    refine .blob h ?_ h''
    obtain ⟨⟨p, n⟩, h1, h2⟩ := Res.bind_eq_ok.1 h'
    obtain ⟨_, _, h4⟩ := Res.bind_eq_ok.1 h2
    exact Res.bind_eq_ok.2 ⟨(p, n), h1, h4⟩
  | arr c h1 h2 h3 h4 _ ih => exact .arr c h1 h2 h3 h4 ih
  | map c h1 h2 h3 h4 h5 _ ih => exact .map c h1 h2 h3 h4 h5 ih

end Zer.Zera
