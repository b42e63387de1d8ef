import Verif.Text.Spec
import Verif.Props.Cbor

/-!
# What the CBOR reader prints

Every array is printed with as many elements as the root array has.
-/

namespace Zer

mutual
/-- The value with every array cut to its first `m` elements. -/
def Val.cut (m : Nat) : Val → Val
  | .null => .null
  | .bool b => .bool b
  | .int i => .int i
  | .uint n => .uint n
  | .dbl d => .dbl d
  | .str s => .str s
  | .blob s => .blob s
  | .arr xs => .arr ((cutList m xs).take m)
  | .map ms => .map (cutEntries m ms)
def Val.cutList (m : Nat) : List Val → List Val
  | [] => []
  | x :: xs => x.cut m :: cutList m xs
def Val.cutEntries (m : Nat) : List (Bytes × Val) → List (Bytes × Val)
  | [] => []
  | (k, v) :: ms => (k, v.cut m) :: cutEntries m ms
end

/-- Number of elements of the root, if it is an array. -/
def Val.rootLen : Val → Option Nat
  | .arr xs => some xs.length
  | _ => none

/-- Every array has at least as many elements as the root array (so there is none if the root is not an array), and no
map is empty. -/
def Val.Showable (n : Option Nat) : Val → Prop := Val.Each
  (fun v => match v with | .arr xs => ∃ m, n = some m ∧ m ≤ xs.length | .map ms => ms ≠ [] | _ => True) (fun _ => True)

namespace Cbor
open Zer.Text

section
variable {F : Fmt} {hard : Bool} {f : Nat} {root : View}

theorem dump_int {z : Int} {b : Bytes} (H : EncInt z b) (h1 : -2 ^ 63 ≤ z) {p : Nat} (ha : At root.buf p b) (d pad : Nat) :
    ∃ t, dump F hard f root (d + 1) p pad = .ok t ∧ (t = asc "int|" ++ F.dec z ∨ 0 ≤ z ∧ t = asc "uint|" ++ F.dec z) := by
  rcases H with ⟨h0, H⟩ | ⟨h0, H⟩
  · obtain ⟨a, hr⟩ := H.read (by omega) false ha
    have : ((z.toNat : Nat) : Int) = z := by omega
    exact ⟨_, by simp [dump, hr, this], .inr ⟨h0, rfl⟩⟩
  · obtain ⟨a, hr⟩ := H.read (by omega) false ha
    have e : (Int64.ofInt ((-1 - z).toNat : Int)).toInt = -1 - z := by
      rw [show ((-1 - z).toNat : Int) = -1 - z by omega]; exact i64_toInt (by omega) (by omega)
    have e2 : -1 - (Int64.ofInt ((-1 - z).toNat : Int)).toInt = z := by rw [e]; omega
    exact ⟨_, by simp only [dump, hr, Res.ok_bind, e2]; rfl, .inl rfl⟩

theorem Fine.sub {v : Bytes} {stop stop' : Nat} {e e' : Prop} (h : Fine hard v stop e) (hs : stop' ≤ stop) (he : e → e') :
    Fine hard v stop' e' := fun hh => (h hh).imp (fun h => by omega) he

mutual
theorem dump_enc (hv : root.buf.length < 2 ^ 64) (hf : root.buf.length ≤ f) {m : Option Nat}
    (hm : ∀ n, m = some n → View.arraySize f root = .ok n) :
    ∀ (v : Val) {b : Bytes}, v.Showable m → Enc false v b → ∀ d, b.length < d → ∀ {p : Nat}, At root.buf p b →
    Fine hard root.buf (p + b.length) v.NoEmpty → ∀ pad,
    ∃ t, dump F hard f root d p pad = .ok t ∧ Prints rawBar F pad (v.cut (m.getD 0)) t
  | .null, b, _, h, d + 1, _, p, ha, _, pad => by
      simp only [Enc] at h; subst h
      have hr := simple_read (n := 22) (by omega) false ha
      exact ⟨_, by simp only [dump, hr, Res.ok_bind]; rfl, rfl⟩
  | .bool x, b, _, h, d + 1, _, p, ha, _, pad => by
      simp only [Enc] at h; subst h
      cases x
      · have hr := simple_read (n := 20) (by omega) false ha
        exact ⟨_, by simp only [dump, hr, Res.ok_bind]; rfl, rfl⟩
      · have hr := simple_read (n := 21) (by omega) false ha
        exact ⟨_, by simp only [dump, hr, Res.ok_bind]; rfl, rfl⟩
  | .int i, b, _, h, d + 1, _, p, ha, _, pad => by
      simp only [Enc] at h
      obtain ⟨t, h1, h2⟩ := dump_int (F := F) (hard := hard) (f := f) h (Int64.le_toInt i) ha d pad
      exact ⟨t, h1, h2⟩
  | .uint n, b, _, h, d + 1, _, p, ha, _, pad => by
      simp only [Enc] at h
      obtain ⟨t, h1, h2⟩ := dump_int (F := F) (hard := hard) (f := f) h (by omega) ha d pad
      exact ⟨t, h1, h2.imp id And.right⟩
  | .dbl x, b, _, h, d + 1, _, p, ha, _, pad => by
      simp only [Enc] at h
      have e := (asDouble_enc h (UInt64.toNat_lt x) ha (ind := false) (hard := hard) (f := f)).2
      rw [UInt64.ofNat_toNat] at e
      refine ⟨asc "float|" ++ F.dbl x, ?_, rfl⟩
      cases h with
      | f64 => have hr := flt_read (k := 8) false (by simp) ha; simp [dump, hr, e]
      | f32 => have hr := flt_read (k := 4) false (by simp) ha; simp [dump, hr, e]
      | f16 => have hr := flt_read (k := 2) false (by simp) ha; simp [dump, hr, e]
  | .str s, b, hb, h, d + 1, _, p, ha, hfi, pad => by
      simp only [Enc] at h
      obtain ⟨a, n, l, i, hr, h1, h2, h3⟩ := h.read (.inr rfl) hv ha (hfi.sub (Nat.le_refl _) (fun h => h)) (Nat.le_refl _)
      have hi : i = false := by cases i <;> simp_all
      subst hi
      exact ⟨_, by simp only [dump, hr, Res.ok_bind, (h3 rfl).2]; rfl, by simp [Val.cut, Prints, rawBar, bar]⟩
  | .blob s, b, hb, h, d + 1, _, p, ha, hfi, pad => by
      simp only [Enc] at h
      cases h with
      | @definite h hh =>
        obtain ⟨a, hr⟩ := hh.read (by omega) false ha.left
        exact ⟨_, by simp only [dump, hr, Res.ok_bind]; rfl, by simp [Val.cut, Prints, rawBar, bar]⟩
      | chunked h => cases h
  | .arr xs, b, hb, h, d + 1, hd, p, ha, hfi, pad => by
      simp only [Enc] at h
      obtain ⟨cs, hc, hg⟩ := h
      obtain ⟨n, rfl, hn⟩ := hb.self
      cases hg with
      | @definite h hh =>
        obtain ⟨a, hr⟩ := hh.read (by omega) false ha.left
        have hp := hh.pos
        simp only [List.length_append] at hd hfi
        obtain ⟨ls, h1, h2⟩ := dumpArr_enc hv hf hm xs hb.arr hc d
          (fun c hc => by have := mem_flatten_le hc; omega) ha.right
          (hfi.sub (by omega) (fun h => h.arr)) pad n hn
        exact ⟨_, by simp only [dump, hr, Res.ok_bind, hm n rfl, h2]; rfl,
          by simp only [Val.cut, Prints]; exact ⟨ls, h1, by simp [spaces]⟩⟩
      | indef h => cases h
  | .map ms, b, hb, h, d + 1, hd, p, ha, hfi, pad => by
      simp only [Enc] at h
      obtain ⟨cs, hc, hg⟩ := h
      cases hg with
      | @definite h hh =>
        obtain ⟨a, hr⟩ := hh.read (by omega) false ha.left
        have hp := hh.pos
        have hlen := (EncEntries.item ms hc).1
        have hge := flatten_ge (fun c h => ((EncEntries.item ms hc).2 c h).pos)
        have hbd := ha.bound
        simp only [List.length_append] at hd hfi hbd
        obtain ⟨ls, h1, h2⟩ := dumpMap_enc hv hf hm ms hb.self (fun e he => (hb.map e he).2) hc d
          (fun c hc => by have := mem_flatten_le hc; omega) ha.right
          (hfi.sub (by omega) (fun h => h.map)) pad ms.length 0 (by omega) f (by omega)
        exact ⟨_, by simp only [dump, hr, Res.ok_bind]; simp only [Bool.false_eq_true, if_false, Res.pure_eq, Res.ok_bind, h2]; rfl,
          by simp only [Val.cut, Prints]; exact ⟨ls, h1, by simp [spaces]⟩⟩
      | indef h => cases h
theorem dumpArr_enc (hv : root.buf.length < 2 ^ 64) (hf : root.buf.length ≤ f) {m : Option Nat}
    (hm : ∀ n, m = some n → View.arraySize f root = .ok n) :
    ∀ (xs : List Val) {cs : List Bytes}, (∀ x ∈ xs, x.Showable m) → EncList false xs cs → ∀ d, (∀ c ∈ cs, c.length < d) →
    ∀ {p : Nat}, At root.buf p cs.flatten → Fine hard root.buf (p + cs.flatten.length) (∀ x ∈ xs, x.NoEmpty) → ∀ (pad n : Nat),
    n ≤ xs.length → ∃ ls, PrintsList rawBar F (pad + 2) ((Val.cutList (m.getD 0) xs).take n) ls ∧
      dumpArr root.buf f (fun e => dump F hard f root d e (pad + 2)) pad n p = .ok (lines (pad + 2) ls)
  | _, cs, _, _, d, _, p, _, _, pad, 0, _ => ⟨[], rfl, rfl⟩
  | x :: xs, cs, hb, h, d, hd, p, ha, hfi, pad, n + 1, hn => by
      simp only [EncList] at h
      obtain ⟨c, cs', hc, hcs, rfl⟩ := h
      simp only [List.flatten_cons, List.length_append] at ha hfi
      have hbd := ha.bound
      simp only [List.length_append] at hbd
      obtain ⟨t, h1, h2⟩ := dump_enc hv hf hm x (hb x (by simp)) hc d (hd c (by simp)) ha.left (hfi.sub (by omega) (fun h => h x (by simp))) (pad + 2)
      obtain ⟨ls, h3, h4⟩ := dumpArr_enc hv hf hm xs (fun y hy => hb y (by simp [hy])) hcs d (fun e he => hd e (by simp [he])) ha.right
        (hfi.sub (by omega) (fun h y hy => h y (by simp [hy]))) pad n (by simp at hn; omega)
      have hs := (Enc.item x hc).skip false hv ha.left (f := f) (by omega)
      refine ⟨t :: ls, by simp only [Val.cutList, List.take_succ_cons, PrintsList]; exact ⟨t, ls, h2, h3, rfl⟩, ?_⟩
      have e : (n ≠ 0) = (ls ≠ []) := by
        have hl := h3.length
        have hcl : ∀ ys : List Val, (Val.cutList (m.getD 0) ys).length = ys.length := by
          intro ys; induction ys with
          | nil => rfl
          | cons y ys ih => simp [Val.cutList, ih]
        rw [List.length_take, hcl] at hl
        simp only [List.length_cons] at hn
        rw [ne_eq, ne_eq, ← List.length_eq_zero_iff, hl, Nat.min_eq_left (by omega)]
      simp only [dumpArr, h1, hs, h4, Res.ok_bind, lines_cons, e, Res.pure_eq]
theorem dumpMap_enc (hv : root.buf.length < 2 ^ 64) (hf : root.buf.length ≤ f) {m : Option Nat}
    (hm : ∀ n, m = some n → View.arraySize f root = .ok n) :
    ∀ (ms : List (Bytes × Val)) {cs : List Bytes}, ms ≠ [] → (∀ e ∈ ms, e.2.Showable m) → EncEntries false ms cs → ∀ d, (∀ c ∈ cs, c.length < d) →
    ∀ {p : Nat}, At root.buf p cs.flatten → Fine hard root.buf (p + cs.flatten.length) (∀ e ∈ ms, e.1 ≠ [] ∧ e.2.NoEmpty) →
    ∀ (pad count i : Nat), count = i + ms.length → ∀ g, ms.length ≤ g →
    ∃ ls, PrintsEntries rawBar F (pad + 2) (Val.cutEntries (m.getD 0) ms) ls ∧
      dumpMap hard root.buf f (fun e => dump F hard f root d e (pad + 2)) pad false count g i p = .ok (lines (pad + 2) ls)
  | (k, x) :: ms, cs, _, hb, h, d, hd, p, ha, hfi, pad, count, i, hcount, g + 1, hg => by
      simp only [EncEntries] at h
      obtain ⟨ck, c, cs', hk, hc, hcs, rfl⟩ := h
      simp only [List.flatten_cons, List.length_append] at ha hfi
      have hbd := ha.bound
      simp only [List.length_append] at hbd
      have hp := (Enc.item x hc).pos
      have hak := ha.left
      have hac := ha.right.left
      obtain ⟨t, h1, h2⟩ := dump_enc hv hf hm x (hb (k, x) (by simp)) hc d (hd c (by simp)) hac (hfi.sub (by omega) (fun h => (h (k, x) (by simp)).2)) (pad + 2)
      have hks := asString_text hk hv hak (hard := hard) (fun _ => .inl (by omega)) hf
      have hs1 := (Item.str (.inr rfl) hk).skip false hv hak (f := f) (by omega)
      have hs2 := (Enc.item x hc).skip false hv hac (f := f) (by omega)
      by_cases hms : ms = []
      · subst hms
        refine ⟨[asc "\"" ++ k ++ asc "\": " ++ t], by simp only [Val.cutEntries, PrintsEntries]; exact ⟨t, [], h2, rfl, rfl⟩, ?_⟩
        simp only [List.length_cons, List.length_nil] at hcount
        have hc1 : ¬ i + 1 < count := by omega
        have hc2 : count ≤ i + 1 := by omega
        simp only [dumpMap, Bool.false_eq_true, if_false, Res.pure_eq, Res.ok_bind, hks, hs1, h1, hs2, hc1, hc2, true_and, if_true]
        simp [lines, spaces]
      · have hpos := List.length_pos_iff.2 hms
        simp only [List.length_cons] at hcount hg
        obtain ⟨ls, h3, h4⟩ := dumpMap_enc hv hf hm ms hms (fun y hy => hb y (by simp [hy])) hcs d (fun e he => hd e (by simp [he])) ha.right.right
          (hfi.sub (by omega) (fun h y hy => h y (by simp [hy]))) pad count (i + 1) (by omega) g (by omega)
        refine ⟨(asc "\"" ++ k ++ asc "\": " ++ t) :: ls, by simp only [Val.cutEntries, PrintsEntries]; exact ⟨t, ls, h2, h3, rfl⟩, ?_⟩
        have hls : ls ≠ [] := by
          have hl := h3.length
          have hcl : ∀ ys : List (Bytes × Val), (Val.cutEntries (m.getD 0) ys).length = ys.length := by
            intro ys; induction ys with
            | nil => rfl
            | cons y ys ih => simp [Val.cutEntries, ih]
          rw [hcl] at hl
          exact List.length_pos_iff.1 (by omega)
        have hc1 : i + 1 < count := by omega
        have hc2 : ¬ count ≤ i + 1 := by omega
        simp only [dumpMap, Bool.false_eq_true, if_false, Res.pure_eq, Res.ok_bind, hks, hs1, h1, hs2, hc1, hc2, true_and, if_true, h4]
        simp [lines_cons, spaces, hls]
end

/-! ## Arrays in a value that is none -/

/-- No array anywhere. -/
def _root_.Zer.Val.NoArr : Val → Prop := Val.Each (fun v => match v with | .arr _ => False | _ => True) (fun _ => True)

theorem dumpMap_noarr (hv : root.buf.length < 2 ^ 64) (hf : root.buf.length ≤ f) {rec : Nat → Res Bytes} (pad count : Nat) :
    ∀ (ms : List (Bytes × Val)) {cs : List Bytes}, EncEntries false ms cs →
    (∀ e ∈ ms, ∀ {b : Bytes} {p : Nat}, b ∈ cs → Enc false e.2 b → At root.buf p b → ¬ e.2.NoArr → ∀ t, rec p ≠ .ok t) →
    (∃ e ∈ ms, ¬ e.2.NoArr) → ∀ {p : Nat}, At root.buf p cs.flatten → ∀ i, count = i + ms.length → ∀ g t,
    dumpMap hard root.buf f rec pad false count g i p ≠ .ok t
  | [], _, _, _, hx, _, _, _, _, _, _ => by simp at hx
  | (k, x) :: ms, cs, h, hr, hx, p, ha, i, hcount, 0, t => by simp [dumpMap]
  | (k, x) :: ms, cs, h, hr, hx, p, ha, i, hcount, g + 1, t => by
      simp only [EncEntries] at h
      obtain ⟨ck, c, cs', hk, hc, hcs, rfl⟩ := h
      simp only [List.flatten_cons] at ha
      have hbd := ha.bound
      simp only [List.length_append] at hbd
      have hp := (Enc.item x hc).pos
      have hak := ha.left
      have hac := ha.right.left
      have hks := asString_text hk hv hak (hard := hard) (fun _ => .inl (by omega)) hf
      have hs1 := (Item.str (.inr rfl) hk).skip false hv hak (f := f) (by omega)
      have hs2 := (Enc.item x hc).skip false hv hac (f := f) (by omega)
      intro hok
      simp only [dumpMap, Bool.false_eq_true, if_false, Res.pure_eq, Res.ok_bind, hks, hs1] at hok
      obtain ⟨u, hu, hok⟩ := Res.bind_eq_ok.1 hok
      have hxn : x.NoArr := by
        apply Classical.byContradiction
        intro hn
        exact hr (k, x) (by simp) (by simp) hc hac hn u hu
      obtain ⟨e, he, hen⟩ := hx
      rcases List.mem_cons.1 he with rfl | he
      · exact hen hxn
      · have hpos := List.length_pos_of_mem he
        simp only [List.length_cons] at hcount
        have hc2 : ¬ count ≤ i + 1 := by omega
        simp only [hs2, Res.ok_bind, hc2, and_false, if_false] at hok
        obtain ⟨w, hw, _⟩ := Res.bind_eq_ok.1 hok
        exact dumpMap_noarr hv hf pad count ms hcs (fun e he b q hb => hr e (by simp [he]) (by simp [hb])) ⟨e, he, hen⟩ ha.right.right
          (i + 1) (by omega) g w hw

theorem dump_noarr (hv : root.buf.length < 2 ^ 64) (hf : root.buf.length ≤ f) (hroot : ∀ n, View.arraySize f root ≠ .ok n) :
    ∀ (v : Val) {b : Bytes}, Enc false v b → ∀ {p : Nat}, At root.buf p b → ¬ v.NoArr → ∀ d pad t,
      dump F hard f root d p pad ≠ .ok t := by
  intro v
  induction v using Val.ind with
  | arr xs _ =>
    intro b h p ha _ d pad t
    cases d with
    | zero => simp [dump]
    | succ d =>
      simp only [Enc] at h
      obtain ⟨cs, hc, hg⟩ := h
      cases hg with
      | @definite h hh =>
        obtain ⟨a, hr⟩ := hh.read (by omega) false ha.left
        intro hok
        simp only [dump, hr, Res.ok_bind] at hok
        obtain ⟨n, hn, _⟩ := Res.bind_eq_ok.1 hok
        exact hroot n hn
      | indef h => cases h
  | map ms ih =>
    intro b h p ha hn d pad t
    cases d with
    | zero => simp [dump]
    | succ d =>
      simp only [Enc] at h
      obtain ⟨cs, hc, hg⟩ := h
      cases hg with
      | @definite h hh =>
        obtain ⟨a, hr⟩ := hh.read (by omega) false ha.left
        have hx : ∃ e ∈ ms, ¬ e.2.NoArr := by
          apply Classical.byContradiction
          intro hno
          refine hn ⟨trivial, (Val.eachEntries_iff ms).2 (fun e he => ⟨trivial, ?_⟩)⟩
          apply Classical.byContradiction
          exact fun hne => hno ⟨e, he, hne⟩
        intro hok
        simp only [dump, hr, Res.ok_bind] at hok
        simp only [Bool.false_eq_true, if_false, Res.pure_eq, Res.ok_bind] at hok
        obtain ⟨u, hu, _⟩ := Res.bind_eq_ok.1 hok
        exact dumpMap_noarr hv hf pad _ ms hc (fun e he b q _ hb hq hne u => ih e he hb hq hne d _ u) hx ha.right 0 (by omega) f u hu
      | indef h => cases h
  | _ => intro b _ p _ hn; exact absurd trivial hn

end

end Cbor
end Zer
