import Verif.Flex.Layout
import Verif.Flex.Read

/-!
# Flex: what the builder builds is the format
-/

namespace Zer.Flex

/-- What the builder keeps to: the format without typed vectors and indirect numbers. `N` says whether strings end with NUL. -/
def Rules.built (N : Prop) : Rules := ⟨True, N, False, False, False⟩

/-- The value `v` on the builder's stack stands for the document `d`, whatever is appended to the
buffer `b`: inline values by themselves, all others once an offset leads to them. -/
inductive Good (N : Prop) (b : Bytes) : BV → Doc → Prop where
  | null : Good N b ⟨0, 0, 0⟩ .null
  | bool (x : Bool) : Good N b ⟨26, if x then 1 else 0, 0⟩ (.bool x)
  | int (i : Int64) : Good N b ⟨1, i.toUInt64.toNat, widthI i.toUInt64.toNat⟩ (.int i)
  | uint (n : UInt64) : Good N b ⟨2, n.toNat, widthU n.toNat⟩ (.uint n)
  | dbl (d : UInt64) : Good N b ⟨3, d.toNat, widthF d.toNat⟩ (.dbl d)
  | key {v : BV} {k : Bytes} : v.ty = 4 → v.w = 0 → (0 : UInt8) ∉ k → At b v.u (k ++ [0]) → Good N b v (.key k)
  | off {v : BV} {d : Doc} : isInline v.ty = false → v.ty < 64 ∧ (∀ k, d ≠ .key k) → v.w ≤ 3 → v.u ≤ b.length →
      (∀ suf p pw, (b ++ suf).length < 2 ^ 64 → Points (.built N) (b ++ suf) p pw v.u →
        Stands (.built N) (b ++ suf) p pw v.ty (2 ^ v.w) d) → Good N b v d

theorem Good.mono {N : Prop} {b : Bytes} {v : BV} {d : Doc} (h : Good N b v d) (e : Bytes) : Good N (b ++ e) v d := by
  cases h with
  | null => exact .null
  | bool x => exact .bool x
  | int i => exact .int i
  | uint n => exact .uint n
  | dbl d => exact .dbl d
  | key h1 h2 h3 h4 => exact .key h1 h2 h3 (h4.append_right e)
  | off h1 h2 h3 h4 h5 =>
    refine .off h1 h2 h3 (by simp; omega) fun suf p pw hl hi => ?_
    rw [List.append_assoc] at hl hi ⊢
    exact h5 _ p pw hl hi

theorem Good.w_le {N : Prop} {b : Bytes} {v : BV} {d : Doc} (h : Good N b v d) : v.w ≤ 3 := by
  cases h with
  | null => exact Nat.zero_le _
  | bool x => exact Nat.zero_le _
  | int i =>
    simp only [widthI]
    split <;> exact widthU_le3 _
  | uint n => exact widthU_le3 _
  | dbl d => simp only [widthF]; split <;> omega
  | key _ h2 => omega
  | off _ _ h3 => exact h3

theorem Good.ty_lt {N : Prop} {b : Bytes} {v : BV} {d : Doc} (h : Good N b v d) : v.ty < 64 := by
  cases h with
  | key h1 => omega
  | off _ h2 => exact h2.1
  | null => decide
  | bool => show 26 < 64; decide
  | int => show 1 < 64; decide
  | uint => show 2 < 64; decide
  | dbl => show 3 < 64; decide

theorem Good.u_le {N : Prop} {b : Bytes} {v : BV} {d : Doc} (h : Good N b v d) (ht : isInline v.ty = false) :
    v.u ≤ b.length := by
  cases h with
  | key _ _ _ h4 => have := h4.bound; omega
  | off _ _ _ h4 => exact h4
  | _ => cases ht

/-- A signed number that `WidthI` says fits is what its lowest bytes represent. -/
theorem signed_value (i : Int64) {bit : Nat} (hb : bit ≤ 3) (h : widthI i.toUInt64.toNat ≤ bit) :
    ((i.toUInt64.toNat % 2 ^ (8 * 2 ^ bit) : Nat) : Int).bmod (2 ^ (8 * 2 ^ bit)) = i.toInt := by
  have hz : i.toInt = (i.toUInt64.toNat : Int).bmod (2 ^ 64) := BitVec.toInt_eq_toNat_bmod _
  have hu : i.toUInt64.toNat < 2 ^ 64 := i.toUInt64.toNat_lt
  rw [hz]
  generalize i.toUInt64.toNat = u at h hu
  have key : ∀ w, w ≤ bit → widthI u ≤ w → w ≤ 2 → (u < 2 ^ 63 ∧ 2 * u < 2 ^ (8 * 2 ^ w)) ∨
      (2 ^ 63 ≤ u ∧ 2 ^ 65 ≤ 2 * u + 2 ^ (8 * 2 ^ w)) := by
    intro w _ hw hw2
    unfold widthI at hw
    simp only at hw
    split at hw
    · rename_i h63
      have := lt_of_widthU hw (by omega) (by omega)
      left
      refine ⟨h63, ?_⟩
      rw [Nat.mod_eq_of_lt (by omega)] at this
      exact this
    · rename_i h63
      have := lt_of_widthU hw (by omega) (by omega)
      right
      refine ⟨by omega, ?_⟩
      have e : (2 * u) % 2 ^ 64 = 2 * u - 2 ^ 64 := by omega
      rw [e] at this
      omega
  match bit, hb with
  | 3, _ =>
    show ((u % 2 ^ 64 : Nat) : Int).bmod (2 ^ 64) = _
    rw [Nat.mod_eq_of_lt hu]
  | 0, _ =>
    have := key 0 (by omega) h (by omega)
    show ((u % 2 ^ 8 : Nat) : Int).bmod (2 ^ 8) = _
    change (_ ∧ _ < 2 ^ 8) ∨ (_ ∧ _ ≤ 2 * u + 2 ^ 8) at this
    simp only [Int.bmod_def]
    split <;> split <;> omega
  | 1, _ =>
    have := key 1 (by omega) h (by omega)
    show ((u % 2 ^ 16 : Nat) : Int).bmod (2 ^ 16) = _
    change (_ ∧ _ < 2 ^ 16) ∨ (_ ∧ _ ≤ 2 * u + 2 ^ 16) at this
    simp only [Int.bmod_def]
    split <;> split <;> omega
  | 2, _ =>
    have := key 2 (by omega) h (by omega)
    show ((u % 2 ^ 32 : Nat) : Int).bmod (2 ^ 32) = _
    change (_ ∧ _ < 2 ^ 32) ∨ (_ ∧ _ ≤ 2 * u + 2 ^ 32) at this
    simp only [Int.bmod_def]
    split <;> split <;> omega

theorem packed_split {v : BV} {c : Nat} (hv : v.w ≤ 3) (hc : c ≤ 3) (ht : v.ty < 64) :
    (UInt8.ofNat (v.packed c)).toNat = v.packed c ∧ v.packed c / 4 = v.ty ∧
    v.packed c % 4 = if isInline v.ty then max v.w c else v.w := by
  unfold BV.packed
  have : (if isInline v.ty then max v.w c else v.w) ≤ 3 := by split <;> omega
  generalize (if isInline v.ty then max v.w c else v.w) = m at this
  refine ⟨?_, by omega, by omega⟩
  rw [UInt8.toNat_ofNat']
  omega

theorem two_pow_pos8 (bit : Nat) : 2 ^ 8 ≤ 2 ^ (8 * 2 ^ bit) :=
  Nat.pow_le_pow_right (by decide) (by have : 0 < 2 ^ bit := Nat.two_pow_pos _; omega)

/-! ## Numbers -/

theorem aligned_padding (n x : Nat) : (n + padding n (2 ^ x)) % 2 ^ x = 0 := by
  unfold padding
  have hw : 0 < 2 ^ x := Nat.two_pow_pos _
  generalize 2 ^ x = w at hw
  have h1 := Nat.mod_lt n hw
  by_cases h0 : n % w = 0
  · rw [h0, Nat.sub_zero, Nat.mod_self, Nat.add_zero, h0]
  · rw [Nat.mod_eq_of_lt (show w - n % w < w by omega)]
    have := Nat.div_add_mod n w
    have e : n + (w - n % w) = w * (n / w) + w := by omega
    rw [e, ← Nat.mul_succ, Nat.mul_mod_right]

theorem aligned_add {n w k : Nat} (h : n % w = 0) : (n + k * w) % w = 0 := by
  rw [Nat.add_mul_mod_self_right]; exact h

theorem bytesOfWidth_pow {bit : Nat} (h : bit ≤ 3) : bytesOfWidth (2 ^ bit) = 2 ^ bit := by
  rw [bytesOfWidth_scalar, scalarWidth_pow h]

theorem pow_width {bit : Nat} (h : bit ≤ 3) : 2 ^ bit = 1 ∨ 2 ^ bit = 2 ∨ 2 ^ bit = 4 ∨ 2 ^ bit = 8 := by
  match bit, h with
  | 0, _ => decide
  | 1, _ => decide
  | 2, _ => decide
  | 3, _ => decide

theorem word_le {R : Rules} {b : Bytes} {p bit n : Nat} (hb : bit ≤ 3) (h : At b p (le (2 ^ bit) n)) (ha : p % 2 ^ bit = 0) :
    Word R b p (2 ^ bit) (le (2 ^ bit) n) :=
  ⟨h, by rw [le_length, bytesOfWidth_pow hb], fun _ => pow_width hb, fun _ => ha⟩

theorem numeral_le (w n : Nat) : numeral (le w n) = n % 2 ^ (8 * w) := by
  rw [numeral_unle, unle_le, pow256]

theorem points_le {R : Rules} {b : Bytes} {p bit q : Nat} (hb : bit ≤ 3) (h : At b p (le (2 ^ bit) (p - q)))
    (ha : p % 2 ^ bit = 0) (hq : q ≤ p) (hf : p - q < 2 ^ (8 * 2 ^ bit)) : Points R b p (2 ^ bit) q :=
  ⟨_, word_le hb h ha, by rw [numeral_le, Nat.mod_eq_of_lt hf]; omega⟩

theorem sized_le {R : Rules} {b : Bytes} {q bit n : Nat} (hb : bit ≤ 3) (h : At b (q - 2 ^ bit) (le (2 ^ bit) n))
    (ha : (q - 2 ^ bit) % 2 ^ bit = 0) (hq : 2 ^ bit ≤ q) (hf : n < 2 ^ (8 * 2 ^ bit)) : Sized R b q (2 ^ bit) n :=
  ⟨hq, _, word_le hb h ha, by rw [numeral_le, Nat.mod_eq_of_lt hf]⟩

/-- An element that was written behind an old buffer stands there. `c` is the width its type was
stored with. -/
theorem Good.slot {N : Prop} {b suf : Bytes} {v : BV} {d : Doc} (h : Good N b v d) {q bit c : Nat} (hb : bit ≤ 3) (hc : c ≤ 3)
    (hat : At (b ++ suf) q (v.bytes q (2 ^ bit))) (ha : q % 2 ^ bit = 0)
    (hlen : (b ++ suf).length < 2 ^ 64) (hin : isInline v.ty = true → v.w ≤ bit)
    (hoff : isInline v.ty = false → v.u ≤ q ∧ q - v.u < 2 ^ (8 * 2 ^ bit)) :
    Stands (.built N) (b ++ suf) q (2 ^ bit) ((UInt8.ofNat (v.packed c)).toNat / 4)
      (2 ^ ((UInt8.ofNat (v.packed c)).toNat % 4)) d := by
  obtain ⟨e1, e2, e3⟩ := packed_split h.w_le hc h.ty_lt
  have hp8 := two_pow_pos8 bit
  rw [e1, e2, e3]
  have hpt : isInline v.ty = false → Points (.built N) (b ++ suf) q (2 ^ bit) v.u := fun h1 => by
    obtain ⟨k1, k2⟩ := hoff h1
    have hbytes : v.bytes q (2 ^ bit) = le (2 ^ bit) (q - v.u) := by
      unfold BV.bytes
      have ht3 : v.ty ≠ 3 := fun e => by rw [e] at h1; exact absurd h1 (by decide)
      rw [if_neg ht3, h1]; rfl
    rw [hbytes] at hat
    exact points_le hb hat ha k1 k2
  cases h with
  | null => exact .null
  | bool x =>
    have : (if x then 1 else 0) % 2 ^ (8 * 2 ^ bit) = if x then 1 else 0 :=
      Nat.mod_eq_of_lt (by split <;> omega)
    have hs := Stands.bool (bw := 2 ^ (if isInline 26 then max 0 c else 0)) (word_le (R := .built N) hb (n := if x then 1 else 0) hat ha)
    rw [numeral_le, this] at hs
    have e : Doc.bool x = .bool (decide ((if x then 1 else 0) ≠ 0)) := by cases x <;> rfl
    rw [e]
    exact hs
  | int i =>
    refine .int i (word_le hb (n := i.toUInt64.toNat) hat ha) ?_
    rw [signedNumeral, numeral_le, le_length, pow256, signed_value i hb (hin rfl)]
  | uint n =>
    refine .uint n (word_le hb (n := n.toNat) hat ha) ?_
    rw [numeral_le, Nat.mod_eq_of_lt (lt_of_widthU (hin rfl) hb n.toNat_lt)]
  | dbl d =>
    have hw := hin rfl
    simp only [widthF] at hw
    match bit, hb with
    | 0, _ => split at hw <;> omega
    | 1, _ => split at hw <;> omega
    | 2, hb2 =>
      obtain ⟨f, hf⟩ : ∃ f, shrink32 d.toNat = some f := by
        cases hf : shrink32 d.toNat with
        | none => rw [hf] at hw; simp at hw
        | some f => exact ⟨f, rfl⟩
      obtain ⟨k1, k2⟩ := widen32_of_shrink32 d.toNat_lt hf
      have hat' : At (b ++ suf) q (le (2 ^ 2) f) := by
        have e : BV.bytes ⟨3, d.toNat, widthF d.toNat⟩ q (2 ^ 2) = le (2 ^ 2) f := by
          have e8 : ¬ (2 ^ 2 = 8) := by decide
          unfold BV.bytes
          simp only [if_true, if_neg e8, hf, Option.getD_some]
        rw [← e]; exact hat
      refine .dbl d (word_le hb2 hat' ha) (fun _ => .inl rfl) ?_
      have e8 : ¬ 2 ^ 2 = 8 := by decide
      have e4 : 2 ^ 2 = 4 := by decide
      rw [floatNumeral, le_length, if_neg e8, if_pos e4, numeral_le,
        Nat.mod_eq_of_lt (show f < 2 ^ (8 * 2 ^ 2) from k2), k1]
    | 3, hb3 =>
      refine .dbl d (word_le hb3 (n := d.toNat) hat ha) (fun _ => .inr rfl) ?_
      have e8 : 2 ^ 3 = 8 := by decide
      rw [floatNumeral, le_length, if_pos e8, numeral_le,
        Nat.mod_eq_of_lt (show d.toNat < 2 ^ (8 * 2 ^ 3) from d.toNat_lt)]
  | key h1 h2 h3 h4 =>
    have hin' : isInline v.ty = false := by rw [h1]; rfl
    rw [hin', h1]
    exact .key (hpt hin') (h4.append_right suf) h3
  | off h1 h2 h3 h4 h5 =>
    rw [h1]
    exact h5 suf _ _ hlen (hpt h1)

/-! ## Strings and blobs -/

theorem blob_sized {R : Rules} {b : Bytes} {ty : Nat} {s tail suf : Bytes}
    (hl : ((createBlob b ty s tail).1 ++ suf).length < 2 ^ 64) :
    Sized R ((createBlob b ty s tail).1 ++ suf) (createBlob b ty s tail).2.u (2 ^ (createBlob b ty s tail).2.w) s.length ∧
    At ((createBlob b ty s tail).1 ++ suf) (createBlob b ty s tail).2.u (s ++ tail) := by
  simp only [createBlob] at hl ⊢
  have hA2 : (align b (2 ^ widthU s.length)).length % 2 ^ widthU s.length = 0 := by
    rw [align_length]; exact aligned_padding _ _
  generalize hA : align b (2 ^ widthU s.length) = A at hl hA2
  have hn : s.length < 2 ^ 64 := by
    simp only [List.length_append] at hl; omega
  have h1 : At (A ++ le (2 ^ widthU s.length) s.length ++ (s ++ tail) ++ suf) A.length
      (le (2 ^ widthU s.length) s.length) :=
    ((At.self_end _ _).append_right _).append_right _
  have h2 : At (A ++ le (2 ^ widthU s.length) s.length ++ (s ++ tail) ++ suf)
      (A ++ le (2 ^ widthU s.length) s.length).length (s ++ tail) :=
    (At.self_end _ _).append_right _
  have e : (A ++ le (2 ^ widthU s.length) s.length).length - 2 ^ widthU s.length = A.length := by
    rw [List.length_append, le_length, Nat.add_sub_cancel]
  refine ⟨sized_le (widthU_le3 _) (by rw [e]; exact h1) (by rw [e]; exact hA2)
    (by rw [List.length_append, le_length]; omega) (lt_of_widthU (Nat.le_refl _) (widthU_le3 _) hn), h2⟩

theorem createBlob_ext (b : Bytes) (ty : Nat) (s tail : Bytes) : ∃ suf, (createBlob b ty s tail).1 = b ++ suf := by
  simp only [createBlob, align]
  simp only [List.append_assoc]
  exact ⟨_, rfl⟩

theorem createBlob_length (b : Bytes) (ty : Nat) (s tail : Bytes) :
    (createBlob b ty s tail).1.length ≤ b.length + 15 + s.length + tail.length := by
  simp only [createBlob, List.length_append, align_length, le_length]
  have hp := padding_lt b.length (Nat.two_pow_pos (widthU s.length))
  have h8 : 2 ^ widthU s.length ≤ 8 := Nat.pow_le_pow_right (by decide) (widthU_le3 _)
  omega

/-- A string, if the byte copied from behind it is NUL, or need not be. -/
theorem good_str {N : Prop} (b s tail : Bytes) (ht : N → ∃ t, tail = 0 :: t) :
    Good N (createBlob b 5 s tail).1 (createBlob b 5 s tail).2 (.str s) := by
  refine .off rfl ⟨by show 5 < 64; decide, (fun k h => by cases h)⟩ (widthU_le3 _) ?_ fun suf p pw hl hi => ?_
  · simp [createBlob]
  · obtain ⟨h1, h2⟩ := blob_sized (R := .built N) hl
    refine .str hi h1 h2.left fun hN => ?_
    obtain ⟨t, rfl⟩ := ht hN
    have h3 := h2.right
    rw [show (0 : UInt8) :: t = [0] ++ t from rfl] at h3
    exact h3.left

theorem good_blob {N : Prop} (b s : Bytes) : Good N (createBlob b 25 s []).1 (createBlob b 25 s []).2 (.blob s) := by
  refine .off rfl ⟨by show 25 < 64; decide, (fun k h => by cases h)⟩ (widthU_le3 _) ?_ fun suf p pw hl hi => ?_
  · simp [createBlob]
  · obtain ⟨h1, h2⟩ := blob_sized (R := .built N) hl
    exact .blob hi h1 h2.left

/-! ## Vectors -/

theorem Layout.w_pos {v : BV} : 0 < 2 ^ v.w := Nat.two_pow_pos _

theorem Layout.aligned {b : Bytes} {vals : List BV} {len step : Nat} {typed : Bool} {keys : Option BV} {B : Bytes} {v : BV}
    (Y : Layout b vals len step typed keys B v) (j : Nat) (h : j ≤ prefixLen keys) :
    (v.u - j * 2 ^ v.w) % 2 ^ v.w = 0 := by
  have hj : j * 2 ^ v.w ≤ prefixLen keys * 2 ^ v.w := Nat.mul_le_mul_right _ h
  have e : v.u - j * 2 ^ v.w = b.length + padding b.length (2 ^ v.w) + (prefixLen keys - j) * 2 ^ v.w := by
    rw [Y.pos, Nat.sub_mul]; omega
  rw [e]
  exact aligned_add (aligned_padding _ _)

theorem Layout.sized {R : Rules} {b : Bytes} {vals : List BV} {len step : Nat} {typed : Bool} {keys : Option BV} {B : Bytes} {v : BV}
    (Y : Layout b vals len step typed keys B v) (hw : v.w ≤ 3) (hn : len = vals.length) {suf : Bytes}
    (hl : (B ++ suf).length < 2 ^ 64) : Sized R (B ++ suf) v.u (2 ^ v.w) len := by
  have hB := Y.bound
  have hp := Y.pos
  have hpre : 1 ≤ prefixLen keys := by cases keys <;> simp [prefixLen]
  have hpw : 2 ^ v.w ≤ prefixLen keys * 2 ^ v.w := Nat.le_mul_of_pos_left _ hpre
  have hl' : B.length + suf.length < 2 ^ 64 := by simpa using hl
  have hvl : vals.length ≤ vals.length * 2 ^ v.w := Nat.le_mul_of_pos_right _ (Nat.two_pow_pos _)
  have ha := Y.aligned 1 hpre
  rw [Nat.one_mul] at ha
  exact sized_le hw (Y.size.append_right suf) ha (by omega) (lt_of_widthU Y.wlen hw (by omega))

/-- The elements of a vector of any kind, in a longer buffer. -/
theorem Layout.stands {N : Prop} {b : Bytes} {vals : List BV} {len step : Nat} {keys : Option BV} {B : Bytes} {v : BV}
    (Y : Layout b vals len step false keys B v) {ds : List Doc} (hg : All2 (Good N b) vals ds)
    (hs : 1 ≤ step) (hw : v.w ≤ 3) {suf : Bytes} (hl : (B ++ suf).length < 2 ^ 64) :
    ∃ t : Nat → UInt8, (∀ i, i < ds.length → At (B ++ suf) (v.u + ds.length * 2 ^ v.w + i) [t i]) ∧
    ∀ i (h : i < ds.length), Stands (.built N) (B ++ suf) (v.u + i * 2 ^ v.w) (2 ^ v.w) ((t i).toNat / 4)
      (2 ^ ((t i).toNat % 4)) ds[i] := by
  have hB := Y.bound
  have hp := Y.pos
  have hl' : B.length + suf.length < 2 ^ 64 := by simpa using hl
  have hdl : ds.length = vals.length := hg.length.symm
  have hf : ∀ i (h : i < vals.length), (fun i => UInt8.ofNat ((vals[i]?.getD ⟨0, 0, 0⟩).packed v.w)) i =
      UInt8.ofNat (vals[i].packed v.w) := fun i h => by simp [List.getElem?_eq_getElem h]
  refine ⟨fun i => UInt8.ofNat ((vals[i]?.getD ⟨0, 0, 0⟩).packed v.w), fun i hi => ?_, fun i hi => ?_⟩
  · have hi' : i < vals.length := hdl ▸ hi
    rw [hf i hi', hdl]
    have ht := (Y.types rfl).append_right suf
    have hsp : (vals.map (fun x => UInt8.ofNat (x.packed v.w))) = (vals.take i).map (fun x => UInt8.ofNat (x.packed v.w)) ++
        ([UInt8.ofNat (vals[i].packed v.w)] ++ (vals.drop (i + 1)).map (fun x => UInt8.ofNat (x.packed v.w))) := by
      rw [← List.map_singleton (f := fun x : BV => UInt8.ofNat (x.packed v.w)), ← List.map_append, ← List.map_append,
        List.singleton_append, ← List.drop_eq_getElem_cons hi', List.take_append_drop]
    rw [hsp] at ht
    have := ht.right
    rw [List.length_map, List.length_take, Nat.min_eq_left (by omega)] at this
    exact this.left
  · have hi' : i < vals.length := hdl ▸ hi
    have hG := hg.get i hi' hi
    have hiw : (i + 1) * 2 ^ v.w ≤ vals.length * 2 ^ v.w := Nat.mul_le_mul_right _ hi'
    rw [Nat.succ_mul] at hiw
    rw [hf i hi']
    obtain ⟨x, rfl⟩ := Y.ext
    have hal : (v.u + i * 2 ^ v.w) % 2 ^ v.w = 0 := aligned_add (by simpa using Y.aligned 0 (Nat.zero_le _))
    have key : Stands (.built N) (b ++ (x ++ suf)) (v.u + i * 2 ^ v.w) (2 ^ v.w)
        ((UInt8.ofNat (vals[i].packed v.w)).toNat / 4) (2 ^ ((UInt8.ofNat (vals[i].packed v.w)).toNat % 4)) ds[i] := by
      refine hG.slot hw hw (by rw [← List.append_assoc]; exact (Y.elem i hi').append_right suf) hal
        (by rw [← List.append_assoc]; exact hl) (fun ht => ?_) (fun ht => ?_)
      · have := Y.wvals i hi'
        unfold BV.elemWidth at this
        rw [if_pos ht] at this
        exact this
      · have hu := hG.u_le ht
        refine ⟨by omega, ?_⟩
        have hfit := offset_fits ht hu (Y.wvals i hi') hw (j := prefixLen keys + i)
          (by have : i ≤ step * i := Nat.le_mul_of_pos_left _ hs
              omega)
          (by rw [Nat.add_mul]; omega)
        rw [Nat.add_mul] at hfit
        rw [hp]
        have e : b.length + padding b.length (2 ^ v.w) + prefixLen keys * 2 ^ v.w + i * 2 ^ v.w =
          b.length + padding b.length (2 ^ v.w) + (prefixLen keys * 2 ^ v.w + i * 2 ^ v.w) := by omega
        rw [e]
        exact hfit
    rw [List.append_assoc]
    exact key

theorem good_vec {N : Prop} {b : Bytes} {vals : List BV} {ds : List Doc} (hg : All2 (Good N b) vals ds) :
    Good N (createVector b vals vals.length 1 false none).1 (createVector b vals vals.length 1 false none).2
      (.vec ds) := by
  have Y := createVector_layout b vals vals.length 1 false none
  generalize createVector b vals vals.length 1 false none = c at Y
  have hw : c.2.w ≤ 3 := Y.bit (fun x hx => by
    obtain ⟨i, hi, rfl⟩ := List.getElem_of_mem hx
    exact (hg.get i hi (hg.length ▸ hi)).w_le) (fun k hk => by cases hk)
  have hty : c.2.ty = 10 := Y.ty
  refine .off (by rw [hty]; rfl) ⟨by rw [hty]; decide, fun k h => by cases h⟩ hw (by have := Y.bound; omega)
    fun suf p pw hl hi => ?_
  obtain ⟨t, h1, h2⟩ := Y.stands hg (Nat.le_refl _) hw hl
  have h3 := Y.sized (R := .built N) hw rfl hl
  rw [hg.length] at h3
  rw [hty]
  exact .vec t hi h3 h1 h2

/-! ## Keys -/

theorem cstr_append_nul {k : Bytes} (h : (0 : UInt8) ∉ k) (e : Bytes) : cstr (k ++ 0 :: e) = k := by
  induction k with
  | nil => simp [cstr]
  | cons c k ih =>
    have hc : c ≠ 0 := fun e => h (by simp [e])
    have := ih (fun hk => h (by simp [hk]))
    simp only [cstr, List.cons_append, List.takeWhile_cons, hc, ne_eq, not_false_eq_true, decide_true, if_true] at this ⊢
    rw [this]

theorem cstrAt_at {b : Bytes} {p : Nat} {k : Bytes} (h0 : (0 : UInt8) ∉ k) (h : At b p (k ++ [0])) :
    cstrAt b p = .ok k := by
  obtain ⟨x, y, rfl, rfl⟩ := h
  have e : (x ++ (k ++ [0] ++ y)).drop x.length = k ++ 0 :: y := by simp
  rw [cstrAt, e, if_pos (by simp), cstr_append_nul h0]

/-- The vector of keys of a map. -/
theorem Layout.keys {N : Prop} {b : Bytes} {vals : List BV} {len step : Nat} {B : Bytes} {v : BV}
    (Y : Layout b vals len step true none B v) {ks : List Bytes}
    (hg : All2 (fun x k => Good N b x (.key k) ∧ x.ty = 4) vals ks)
    (hs : 1 ≤ step) (hw : v.w ≤ 3) {suf : Bytes} (hl : (B ++ suf).length < 2 ^ 64) :
    ∃ kq : Nat → Nat, ∀ i (h : i < ks.length), Points (.built N) (B ++ suf) (v.u + i * 2 ^ v.w) (2 ^ v.w) (kq i) ∧
      At (B ++ suf) (kq i) (ks[i] ++ [0]) ∧ (0 : UInt8) ∉ ks[i] := by
  have hw0 : 0 < 2 ^ v.w := Nat.two_pow_pos _
  have hB := Y.bound
  have hp := Y.pos
  simp only [prefixLen, Nat.one_mul] at hp
  have hl' : B.length + suf.length < 2 ^ 64 := by simpa using hl
  have hdl : ks.length = vals.length := hg.length.symm
  refine ⟨fun i => (vals[i]?.getD ⟨0, 0, 0⟩).u, fun i hi => ?_⟩
  have hi' : i < vals.length := hdl ▸ hi
  have hf : (fun i => (vals[i]?.getD ⟨0, 0, 0⟩).u) i = vals[i].u := by simp [List.getElem?_eq_getElem hi']
  rw [hf]
  obtain ⟨hG, hty⟩ := hg.get i hi' hi
  have hin : isInline vals[i].ty = false := by rw [hty]; rfl
  have hiw : (i + 1) * 2 ^ v.w ≤ vals.length * 2 ^ v.w := Nat.mul_le_mul_right _ hi'
  rw [Nat.succ_mul] at hiw
  have hu := hG.u_le hin
  have hfit := offset_fits hin hu (Y.wvals i hi') hw (j := 1 + i)
    (by have : i ≤ step * i := Nat.le_mul_of_pos_left _ hs
        simp only [prefixLen]; omega)
    (by rw [Nat.add_mul]; omega)
  rw [Nat.add_mul, Nat.one_mul] at hfit
  have hq : v.u + i * 2 ^ v.w - vals[i].u < 2 ^ (8 * 2 ^ v.w) := by
    have e : v.u + i * 2 ^ v.w = b.length + padding b.length (2 ^ v.w) + (2 ^ v.w + i * 2 ^ v.w) := by omega
    rw [e]; exact hfit
  have hat := (Y.elem i hi').append_right suf
  have hbytes : vals[i].bytes (v.u + i * 2 ^ v.w) (2 ^ v.w) = le (2 ^ v.w) (v.u + i * 2 ^ v.w - vals[i].u) := by
    unfold BV.bytes
    rw [hty]; rfl
  rw [hbytes] at hat
  refine ⟨points_le hw hat (aligned_add (by simpa using Y.aligned 0 (Nat.zero_le _))) (by omega) hq, ?_⟩
  generalize vals[i] = x at hG hty
  cases hG with
  | key _ _ k3 k4 =>
    obtain ⟨x, rfl⟩ := Y.ext
    exact ⟨by rw [List.append_assoc]; exact k4.append_right _, k3⟩
  | off k1 k2 k3 k4 k5 =>
    exact absurd rfl (k2.2 _)

/-- How much a vector adds to the buffer. -/
theorem Layout.length_le {b : Bytes} {vals : List BV} {len step : Nat} {typed : Bool} {keys : Option BV} {B : Bytes}
    {v : BV} (Y : Layout b vals len step typed keys B v) (hw : v.w ≤ 3) :
    B.length ≤ b.length + 7 + 8 * prefixLen keys + 8 * vals.length + if typed then 0 else vals.length := by
  have h1 := Y.total
  have h2 := Y.pos
  have h8 : 2 ^ v.w ≤ 8 := Nat.pow_le_pow_right (by decide) hw
  have hp := padding_lt b.length (Nat.two_pow_pos v.w)
  have h3 : vals.length * 2 ^ v.w ≤ vals.length * 8 := Nat.mul_le_mul_left _ h8
  have h4 : prefixLen keys * 2 ^ v.w ≤ prefixLen keys * 8 := Nat.mul_le_mul_left _ h8
  omega

/-! ## Maps -/

/-- A key and a value on the stack of the builder. -/
def PairOk (N : Prop) (b : Bytes) (p : BV × BV) (e : Bytes × Doc) : Prop :=
  p.1.ty = 4 ∧ Good N b p.1 (.key e.1) ∧ Good N b p.2 e.2

theorem pairs_unpairs {α : Type} : ∀ ps : List (α × α), pairs (unpairs ps) = ps
  | [] => rfl
  | (a, c) :: ps => by simp [unpairs, pairs, pairs_unpairs ps]

theorem leftover_unpairs {α : Type} : ∀ ps : List (α × α), leftover (unpairs ps) = []
  | [] => rfl
  | (a, c) :: ps => by simp [unpairs, leftover, leftover_unpairs ps]

theorem evens_unpairs {α : Type} : ∀ ps : List (α × α), evens (unpairs ps) = ps.map Prod.fst
  | [] => rfl
  | (a, c) :: ps => by simp [unpairs, evens, evens_unpairs ps]

theorem odds_unpairs {α : Type} : ∀ ps : List (α × α), odds (unpairs ps) = ps.map Prod.snd
  | [] => rfl
  | [(a, c)] => rfl
  | (a, c) :: (d, e) :: ps => by
    have := odds_unpairs ((d, e) :: ps)
    simp only [odds, unpairs, List.tail_cons, evens, List.map_cons] at this ⊢
    rw [this]

theorem unpairs_length {α : Type} : ∀ ps : List (α × α), (unpairs ps).length = 2 * ps.length
  | [] => rfl
  | (a, c) :: ps => by simp [unpairs, unpairs_length ps]; omega

theorem Good.key_at {N : Prop} {b : Bytes} {v : BV} {k : Bytes} (h : Good N b v (.key k)) :
    v.ty = 4 ∧ (0 : UInt8) ∉ k ∧ At b v.u (k ++ [0]) := by
  cases h with
  | key h1 _ h3 h4 => exact ⟨h1, h3, h4⟩
  | off _ h2 => exact absurd rfl (h2.2 _)

theorem keyStrings_ok {N : Prop} {b : Bytes} {ps : List (BV × BV)} {es : List (Bytes × Doc)} (h : All2 (PairOk N b) ps es) :
    ∃ xs, keyStrings b ps = .ok xs ∧ xs.map Prod.fst = es.map Prod.fst ∧
      All2 (fun (x : Bytes × (BV × BV)) (e : Bytes × Doc) => PairOk N b x.2 e) xs es := by
  induction h with
  | nil => exact ⟨[], rfl, rfl, .nil⟩
  | @cons p e ps es hp _ ih =>
    obtain ⟨xs, h1, h2, h3⟩ := ih
    obtain ⟨_, k0, ka⟩ := hp.2.1.key_at
    refine ⟨(e.1, p) :: xs, ?_, by simp [h2], .cons hp h3⟩
    rw [keyStrings, cstrAt_at k0 ka, h1]
    rfl

theorem sortPairs_ok {N : Prop} {b : Bytes} {ps : List (BV × BV)} {es : List (Bytes × Doc)} (L : Lib)
    (h : All2 (PairOk N b) ps es) :
    ∃ ps', sortPairs L b ps = .ok ps' ∧ All2 (PairOk N b) ps' (L.sort es) := by
  unfold sortPairs
  by_cases hl : ps.length ≤ 1
  · rw [if_pos hl]
    refine ⟨ps, rfl, ?_⟩
    rw [Lib.sort, if_pos (h.length ▸ hl)]
    exact h
  · obtain ⟨xs, h1, h2, h3⟩ := keyStrings_ok h
    rw [if_neg hl, h1]
    exact ⟨_, rfl, (sort_all2 (L := L) h3 h2).map_left fun _ _ hx => hx⟩

theorem evens_any {N : Prop} {b : Bytes} {ps : List (BV × BV)} {es : List (Bytes × Doc)} (h : All2 (PairOk N b) ps es) :
    (ps.map Prod.fst).any (fun v => v.ty ≠ 4) = false := by
  induction h with
  | nil => rfl
  | cons hp _ ih => simp only [List.map_cons, List.any_cons, ih, hp.1]; rfl

theorem good_map {N : Prop} {b : Bytes} {ps : List (BV × BV)} {es : List (Bytes × Doc)} (L : Lib) (dbg : Bool)
    (h : All2 (PairOk N b) ps es) :
    ∃ c, buildMap L dbg b (unpairs ps) = .ok c ∧ (∃ suf, c.1 = b ++ suf) ∧ Good N c.1 c.2 (.map (L.sort es)) ∧
      c.1.length ≤ b.length + 17 * (L.sort es).length + 46 := by
  obtain ⟨ps', h1, h2⟩ := sortPairs_ok L h
  generalize L.sort es = ms at h2
  unfold buildMap
  rw [evens_unpairs, evens_any h, unpairs_length, pairs_unpairs, leftover_unpairs, h1]
  rw [if_neg (by intro hc; rcases hc.2 with e | e
                 · omega
                 · cases e)]
  simp only [Res.ok_bind, List.append_nil, evens_unpairs, odds_unpairs]
  refine ⟨_, rfl, ?_⟩
  have K := createVector_layout b (ps'.map Prod.fst) ps'.length 2 true none
  generalize createVector b (ps'.map Prod.fst) ps'.length 2 true none = kv at K
  have Y := createVector_layout kv.1 (ps'.map Prod.snd) ps'.length 2 false (some kv.2)
  generalize createVector kv.1 (ps'.map Prod.snd) ps'.length 2 false (some kv.2) = c at Y
  have hk2 : All2 (fun x k => Good N b x (.key k) ∧ x.ty = 4) (ps'.map Prod.fst) (ms.map Prod.fst) :=
    (h2.map_left (f := Prod.fst) (S := fun x e => Good N b x (.key e.1) ∧ x.ty = 4)
      fun _ _ hx => ⟨hx.2.1, hx.1⟩).map_right fun _ _ hx => hx
  have hv2 : All2 (Good N kv.1) (ps'.map Prod.snd) (ms.map Prod.snd) := by
    obtain ⟨xx, hx⟩ := K.ext
    rw [hx]
    exact (h2.map_left (f := Prod.snd) (S := fun x e => Good N (b ++ xx) x e.2)
      fun _ _ hx => hx.2.2.mono _).map_right fun _ _ hx => hx
  have hkty : isInline kv.2.ty = false := by
    rw [K.ty]
    cases hp : ps' with
    | nil => rfl
    | cons p t =>
      rw [hp] at h2
      cases h2 with
      | cons hx _ => simp only [List.map_cons, List.head?_cons, Option.elim_some, hx.1]; rfl
  have hku : kv.2.u ≤ kv.1.length := by have := K.bound; omega
  have hkw : kv.2.w ≤ 3 := K.bit (fun x hx => by
    obtain ⟨i, hi, rfl⟩ := List.getElem_of_mem hx
    exact (hk2.get i hi (hk2.length ▸ hi)).1.w_le) (fun k hk => by cases hk)
  have hsome : ∀ k, some kv.2 = some k → k.w ≤ 3 := fun k hk => by cases hk; exact hkw
  have hw : c.2.w ≤ 3 := Y.bit (fun x hx => by
    obtain ⟨i, hi, rfl⟩ := List.getElem_of_mem hx
    exact (hv2.get i hi (hv2.length ▸ hi)).w_le) hsome
  have hty : c.2.ty = 9 := Y.ty
  obtain ⟨xk, hxk⟩ := K.ext
  obtain ⟨xc, hxc⟩ := Y.ext
  refine ⟨⟨xk ++ xc, by rw [hxc, hxk, List.append_assoc]⟩, ?_⟩
  have hlen : ms.length = ps'.length := h2.length.symm
  refine ⟨?_, by
    have l1 := K.length_le hkw
    have l2 := Y.length_le hw
    simp only [prefixLen, List.length_map, if_true, Bool.false_eq_true, if_false] at l1 l2
    omega⟩
  refine .off (by rw [hty]; rfl) ⟨by rw [hty]; decide, fun k h => by cases h⟩ hw (by have := Y.bound; omega)
    fun suf p pw hl hi => ?_
  obtain ⟨t, v1, v2⟩ := Y.stands hv2 (by decide) hw hl
  have hl2 : (kv.1 ++ (xc ++ suf)).length < 2 ^ 64 := by
    rw [hxc, List.append_assoc] at hl; exact hl
  obtain ⟨kq, k2⟩ := K.keys hk2 (by decide) hkw hl2
  have k1 := K.sized (R := .built N) hkw (by simp) hl2
  have v0 := Y.sized (R := .built N) hw (by simp) hl
  rw [← List.append_assoc, ← hxc] at k1 k2
  rw [← hlen] at k1 v0
  simp only [List.length_map] at v1 v2 k2
  have hW : 0 < 2 ^ c.2.w := Nat.two_pow_pos _
  have hpos := Y.pos
  simp only [prefixLen] at hpos
  have hbound := Y.bound
  have hl' : c.1.length + suf.length < 2 ^ 64 := by simpa using hl
  obtain ⟨p1, p2⟩ := Y.kpos _ rfl
  have hfit := offset_fits hkty hku (Y.wkeys _ rfl) hw (Nat.le_refl 0) (by omega)
  rw [Nat.zero_mul, Nat.add_zero] at hfit
  have e0 : c.2.u - 3 * 2 ^ c.2.w = kv.1.length + padding kv.1.length (2 ^ c.2.w) := by omega
  have hkw8 : 2 ^ kv.2.w ≤ 2 ^ 3 := Nat.pow_le_pow_right (by decide) hkw
  have h256 := two_pow_pos8 c.2.w
  have e256 : 2 ^ kv.2.w % 256 = 2 ^ kv.2.w := Nat.mod_eq_of_lt (by omega)
  have hof : ms.length * 2 ^ c.2.w % 2 ^ 64 = ms.length * 2 ^ c.2.w := by
    rw [List.length_map, ← hlen] at hbound
    exact Nat.mod_eq_of_lt (by omega)
  rw [hty]
  refine .map (q := c.2.u) (kp := kv.2.u) (w := 2 ^ kv.2.w) (n := ms.length) (kw := 2 ^ kv.2.w) t kq hi v0 (fun _ => rfl)
    (by omega) ?_ (word_le hw (p2.append_right suf) (Y.aligned 2 (by simp [prefixLen])))
    (by rw [numeral_le, Nat.mod_eq_of_lt (by omega)]) e256.symm (fun _ => rfl) k1 ?_ hof.symm (fun _ => rfl) (fun i hi _ => v1 i hi) (fun i hi _ => ?_) (fun i h1 h2 => absurd h1 (by omega))
  · exact points_le hw (p1.append_right suf) (Y.aligned 3 (by simp [prefixLen])) (by omega) (by rw [e0]; exact hfit)
  · intro i hi
    simpa using k2 i hi
  · simpa using v2 i hi

/-! ## The pool of keys -/

/-- Every offset of the pool leads to a key. -/
def PoolOk (b : Bytes) (pool : List Nat) : Prop := ∀ p ∈ pool, ∃ k, (0 : UInt8) ∉ k ∧ At b p (k ++ [0])

theorem PoolOk.mono {b : Bytes} {pool : List Nat} (h : PoolOk b pool) (e : Bytes) : PoolOk (b ++ e) pool :=
  fun p hp => let ⟨k, h1, h2⟩ := h p hp; ⟨k, h1, h2.append_right e⟩

theorem findKey_ok {b : Bytes} {sloc : Nat} {k : Bytes} (h0 : (0 : UInt8) ∉ k) (hk : At b sloc (k ++ [0])) :
    ∀ {pool : List Nat}, PoolOk b pool →
      ∃ o, findKey b sloc pool = .ok o ∧ ∀ p, o = some p → p ∈ pool ∧ At b p (k ++ [0])
  | [], _ => ⟨none, rfl, fun p hp => by cases hp⟩
  | p :: ps, h => by
    obtain ⟨x, x0, xa⟩ := h p (by simp)
    rw [findKey, cstrAt_at x0 xa, cstrAt_at h0 hk]
    simp only [Res.ok_bind]
    by_cases e : x = k
    · rw [if_pos e]
      subst e
      exact ⟨some p, rfl, fun q hq => by cases hq; exact ⟨by simp, xa⟩⟩
    · rw [if_neg e]
      obtain ⟨o, h1, h2⟩ := findKey_ok h0 hk (pool := ps) (fun q hq => h q (by simp [hq]))
      exact ⟨o, h1, fun q hq => ⟨by simp [(h2 q hq).1], (h2 q hq).2⟩⟩

/-- A key whose bytes are followed by a NUL byte in memory; what follows it inside the copy does not
matter. -/
theorem createKey_ok {N : Prop} {b k : Bytes} {pool : List Nat} (h0 : (0 : UInt8) ∉ k) (tail : Bytes) (hp : PoolOk b pool) :
    ∃ c u pool', createKey b pool (k ++ [0] ++ tail) = .ok (c, u, pool') ∧ (∃ suf, c = b ++ suf) ∧
      PoolOk c pool' ∧ Good N c ⟨4, u, 0⟩ (.key k) ∧ c.length ≤ b.length + (k ++ [0] ++ tail).length := by
  have hat : At (b ++ (k ++ [0] ++ tail)) b.length (k ++ [0]) := (At.self_end _ _).left
  obtain ⟨o, h1, h2⟩ := findKey_ok h0 hat (hp.mono (k ++ [0] ++ tail))
  rw [createKey, h1]
  simp only [Res.ok_bind]
  cases o with
  | some p =>
    obtain ⟨q1, q2⟩ := h2 p rfl
    obtain ⟨x, x0, xa⟩ := hp p q1
    have := xa.append_right (k ++ [0] ++ tail)
    have e1 := cstrAt_at x0 this
    rw [cstrAt_at h0 q2] at e1
    cases e1
    exact ⟨b, p, pool, rfl, ⟨[], by simp⟩, hp, .key rfl rfl h0 xa, Nat.le_add_right _ _⟩
  | none =>
    refine ⟨_, _, _, rfl, ⟨_, rfl⟩, ?_, .key rfl rfl h0 hat, by rw [List.length_append]; exact Nat.le_refl _⟩
    intro p hpp
    rcases List.mem_cons.1 hpp with rfl | hpp
    · exact ⟨k, h0, hat⟩
    · exact hp.mono _ p hpp

/-! ## The root -/

theorem finishRoot_length {b : Bytes} {v : BV} (hv : v.w ≤ 3) : (finishRoot b v).length ≤ b.length + 17 := by
  have hw := elemWidth_le3 hv b.length 0
  have hp := padding_lt b.length (Nat.two_pow_pos (v.elemWidth b.length 0))
  have h8 : 2 ^ v.elemWidth b.length 0 ≤ 8 := Nat.pow_le_pow_right (by decide) hw
  simp only [finishRoot, List.length_append, align_length, bytes_length, List.length_cons, List.length_nil]
  omega


/-- The finished buffer is a document. -/
theorem finishRoot_holding {N : Prop} {b : Bytes} {v : BV} {d : Doc} (h : Good N b v d) (hl : (finishRoot b v).length < 2 ^ 64) :
    Holding (.built N) (finishRoot b v) d := by
  have hw := elemWidth_le3 h.w_le b.length 0
  unfold finishRoot at hl ⊢
  simp only at hl ⊢
  generalize hbit : v.elemWidth b.length 0 = bit at hw hl
  have hal := align_length b (2 ^ bit)
  have hbl := bytes_length v (align b (2 ^ bit)).length (2 ^ bit)
  have hW8 : 2 ^ bit ≤ 2 ^ 3 := Nat.pow_le_pow_right (by decide) hw
  have hA2 : (align b (2 ^ bit)).length % 2 ^ bit = 0 := by rw [align_length]; exact aligned_padding _ _
  generalize hA : align b (2 ^ bit) = A at hl hal hbl hA2
  generalize hV : v.bytes A.length (2 ^ bit) = V at hl hbl
  have hfl : (A ++ V ++ [UInt8.ofNat (v.packed 0), UInt8.ofNat (2 ^ bit)]).length = A.length + 2 ^ bit + 2 := by
    simp [hbl]; omega
  have hav : (A ++ V).length = A.length + 2 ^ bit := by rw [List.length_append, hbl]
  have hwn : (UInt8.ofNat (2 ^ bit)).toNat = 2 ^ bit := by
    rw [UInt8.toNat_ofNat']; omega
  refine .inl ⟨A ++ V, _, _, rfl, by rw [hwn, hav]; omega, ?_⟩
  rw [hwn, hav, Nat.add_sub_cancel]
  have hat : At (A ++ V ++ [UInt8.ofNat (v.packed 0), UInt8.ofNat (2 ^ bit)]) A.length V :=
    (At.self_end _ _).append_right _
  have hX : ∃ suf, A ++ V ++ [UInt8.ofNat (v.packed 0), UInt8.ofNat (2 ^ bit)] = b ++ suf :=
    ⟨_, by rw [← hA, align, List.append_assoc, List.append_assoc]⟩
  obtain ⟨suf, hX⟩ := hX
  rw [hX] at hat hl ⊢
  rw [← hV] at hat
  refine h.slot hw (Nat.zero_le _) hat hA2 hl (fun ht => ?_) (fun ht => ?_)
  · unfold BV.elemWidth at hbit
    rw [if_pos ht] at hbit
    omega
  · have hu := h.u_le ht
    refine ⟨by omega, ?_⟩
    have hfl2 := congrArg List.length hX
    have hfit := offset_fits ht hu (Nat.le_of_eq hbit) hw (Nat.le_refl 0) (by omega)
    rw [Nat.zero_mul, Nat.add_zero, ← hal] at hfit
    exact hfit

theorem opn_finishRoot {N : Prop} {b : Bytes} {v : BV} {d : Doc} (h : Good N b v d) (hl : (finishRoot b v).length < 2 ^ 64) :
    ∃ r, opn (finishRoot b v) = .ok r ∧ Holds r d :=
  (finishRoot_holding h hl).opn (R := .built N) (fun h => h) hl (.inl trivial)

end Zer.Flex
