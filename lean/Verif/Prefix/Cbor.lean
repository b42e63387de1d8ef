import Verif.Prefix.Basic
import Verif.Cbor.Write
import Verif.Cbor.Safe

/-!
# CBOR: truncated input
-/

namespace Zer.Cbor

open Zer Res
open Zer.MsgPack (be_length)

/-! ## What is read from a prefix is read from the whole -/

theorem le_ensure {raw c d : Bool} (h : c = true → d = true) : (ensure raw c).Le (ensure raw d) := by
  unfold ensure
  exact .ite (.refl _) (.require h)

theorem le_in {raw : Bool} {v t : Bytes} {k : Nat} : (ensure raw (decide (k < v.length))).Le (ensure raw (decide (k < (v ++ t).length))) :=
  le_ensure (by simp; omega)

theorem le_fits {raw : Bool} {v t : Bytes} {k : Nat} : (ensure raw (decide (k ≤ v.length))).Le (ensure raw (decide (k ≤ (v ++ t).length))) :=
  le_ensure (by simp; omega)

theorem le_getBe (v t : Bytes) : ∀ n p acc, (getBe v p n acc).Le (getBe (v ++ t) p n acc)
  | 0, _, _ => .refl _
  | n + 1, p, acc => .bind (.byteAt _ _ _) fun _ => le_getBe v t n _ _

theorem le_readHead (raw : Bool) (v t : Bytes) (p : Nat) : (readHead raw v p).Le (readHead raw (v ++ t) p) := by
  refine .bind le_in fun _ => .bind (.byteAt _ _ _) fun b => ?_
  repeat' apply Res.Le.ite
  all_goals first
    | exact .refl _
    | exact .bind le_fits fun _ => .refl _
    | exact .bind le_fits fun _ => .bind (.byteAt _ _ _) fun _ => .refl _
    | exact .bind le_fits fun _ => .bind (le_getBe _ _ _ _ _) fun _ => .refl _

theorem le_items {rec rec' : Nat → Res Nat} (h : ∀ q, (rec q).Le (rec' q)) : ∀ n q, (items rec n q).Le (items rec' n q)
  | 0, _ => .refl _
  | n + 1, q => .bind (h q) fun _ => le_items h n _

theorem le_untilBreak {raw : Bool} {v t : Bytes} {rec rec' : Nat → Res Nat} (h : ∀ q, (rec q).Le (rec' q)) (k : Nat) :
    ∀ f q, (untilBreak raw v rec k f q).Le (untilBreak raw (v ++ t) rec' k f q)
  | 0, _ => .diverge
  | f + 1, q => .bind le_in fun _ => .bind (.byteAt _ _ _) fun _ => .ite (.refl _) (.bind (le_items h _ _) fun _ => le_untilBreak h k f _)

theorem le_chunks {raw : Bool} {v t : Bytes} {m : Nat} : ∀ f q, (chunks raw v m f q).Le (chunks raw (v ++ t) m f q)
  | 0, _ => .diverge
  | f + 1, q => .bind le_in fun _ => .bind (.byteAt _ _ _) fun _ => .ite (.refl _)
      (.bind (le_readHead _ _ _ _) fun _ => .bind (.refl _) fun _ => .bind (.refl _) fun _ => le_chunks f _)

theorem le_skip (raw : Bool) (v t : Bytes) : ∀ f p, (skip raw v f p).Le (skip raw (v ++ t) f p)
  | 0, _ => .diverge
  | f + 1, p => by
    have ih := le_skip raw v t f
    refine .bind (le_readHead _ _ _ _) fun h => ?_
    repeat' apply Res.Le.ite
    all_goals first
      | exact .refl _
      | exact le_chunks _ _
      | exact .bind le_fits fun _ => .refl _
      | exact le_untilBreak ih _ _ _
      | exact le_items ih _ _
      | exact ih _

theorem le_range (hard : Bool) (v t : Bytes) (q n : Nat) : (View.range hard v q n).Le (View.range hard (v ++ t) q n) := by
  intro x h
  unfold View.range at h ⊢
  split at h
  · cases h
  · rename_i hn
    rw [if_neg (by rintro ⟨h1, h2⟩; exact hn ⟨h1, by simp at h2; omega⟩)]
    exact Res.Le.sliceAt _ _ _ _ _ h

theorem le_need {v t : Bytes} {k : Nat} {e : Err} :
    (Res.require (decide (k ≤ v.length)) e).Le (Res.require (decide (k ≤ (v ++ t).length)) e) :=
  .require (by simp; omega)

theorem le_inside {v t : Bytes} {k : Nat} {e : Err} :
    (Res.require (decide (k < v.length)) e).Le (Res.require (decide (k < (v ++ t).length)) e) :=
  .require (by simp; omega)

theorem le_definite (hard : Bool) (v t : Bytes) (h : Head) (q : Nat) : (View.definite hard v h q).Le (View.definite hard (v ++ t) h q) :=
  .bind le_need fun _ => le_range _ _ _ _ _

theorem le_gather (hard : Bool) (v t : Bytes) (m : Nat) : ∀ f q, (View.gather hard v m f q).Le (View.gather hard (v ++ t) m f q)
  | 0, _ => .diverge
  | f + 1, q => .bind le_inside fun _ => .bind (.byteAt _ _ _) fun _ => .ite (.refl _)
      (.bind (le_readHead _ _ _ _) fun _ => .bind (.refl _) fun _ => .bind le_need fun _ => .bind (le_range _ _ _ _ _) fun _ =>
        .bind (le_gather hard v t m f _) fun _ => .refl _)

theorem le_asString (hard : Bool) (f : Nat) (v t : Bytes) (p : Nat) : (View.asString hard f ⟨v, p⟩).Le (View.asString hard f ⟨v ++ t, p⟩) :=
  .bind (le_readHead _ _ _ _) fun _ => .bind (.refl _) fun _ => .ite (le_gather _ _ _ _ _ _) (le_definite _ _ _ _ _)

theorem le_keysEnd (f : Nat) (v t : Bytes) (p : Nat) : (View.keysEnd f v p).Le (View.keysEnd f (v ++ t) p) :=
  .bind (le_readHead _ _ _ _) fun _ => .ite (le_untilBreak (le_skip _ _ _ _) _ _ _) (le_items (le_skip _ _ _ _) _ _)

theorem le_keyDeref (hard : Bool) (f : Nat) (v t : Bytes) (q : Nat) : (View.keyDeref hard f v q).Le (View.keyDeref hard f (v ++ t) q) :=
  .bind (le_readHead _ _ _ _) fun _ => .ite (le_range _ _ _ _ _) (le_asString _ _ _ _ _)

theorem le_keyNext (f : Nat) (v t : Bytes) (i : Bool) (q n : Nat) : (View.keyNext f v i q n).Le (View.keyNext f (v ++ t) i q n) :=
  .ite (.bind (.byteAt _ _ _) fun _ => .ite (.refl _) (.bind (le_skip _ _ _ _ _) fun _ => .bind (le_skip _ _ _ _ _) fun _ => .refl _))
    (.ite (.refl _) (.bind (le_skip _ _ _ _ _) fun _ => .bind (le_skip _ _ _ _ _) fun _ => .refl _))

theorem le_keysFrom (hard : Bool) (f : Nat) (v t : Bytes) (i : Bool) (stop : Nat) :
    ∀ g q n, (View.keysFrom hard f v i stop g q n).Le (View.keysFrom hard f (v ++ t) i stop g q n)
  | 0, _, _ => .diverge
  | g + 1, q, n => .ite (.refl _) (.bind (le_keyDeref _ _ _ _ _) fun _ => .bind (le_keyNext _ _ _ _ _ _) fun _ =>
      .bind (le_keysFrom hard f v t i stop g _ _) fun _ => .refl _)

theorem le_mapKeys (hard : Bool) (f : Nat) (v t : Bytes) (p : Nat) :
    (View.mapKeys hard f ⟨v, p⟩).Le (View.mapKeys hard f ⟨v ++ t, p⟩) :=
  .bind (le_readHead _ _ _ _) fun _ => .bind (.refl _) fun _ => .bind (le_readHead _ _ _ _) fun _ => .bind (le_keysEnd _ _ _ _) fun _ =>
    le_keysFrom _ _ _ _ _ _ _ _ _

/-! ## Truncated items -/

theorem range_bound {hard : Bool} {v : Bytes} {q n : Nat} {s : Bytes} (h : View.range hard v q n = .ok s) : q + n ≤ v.length := by
  unfold View.range at h
  split at h
  · cases h
  · unfold sliceAt at h
    split at h
    · assumption
    · cases h

theorem byteAt_bound {v : Bytes} {p x : Nat} (h : byteAt v p = .ok x) : p < v.length := by
  by_cases hp : p < v.length
  · exact hp
  · simp [byteAt, List.getElem?_eq_none (Nat.le_of_not_lt hp)] at h

theorem getBe_bound {v : Bytes} : ∀ {n p acc x : Nat}, getBe v p n acc = .ok x → n = 0 ∨ p + n ≤ v.length
  | 0, _, _, _, _ => .inl rfl
  | n + 1, p, acc, x, h => by
    simp only [getBe] at h
    obtain ⟨y, h1, h2⟩ := Res.bind_eq_ok.1 h
    have := byteAt_bound h1
    rcases getBe_bound h2 with h | h <;> right <;> omega

/-- A text cut short cannot be viewed. -/
theorem text_cut {hard : Bool} {m : Nat} (hm : m ≤ 6) {s b P t : Bytes} {p : Nat} (H : Text false m s b) (ha : At (P ++ t) p b)
    (hl : P.length < p + b.length) {h : Head} (hr : readHead false P p = .ok h) : ∀ x, View.definite hard P h (p + h.hlen) ≠ .ok x := by
  intro x hx
  cases H with
  | chunked h => cases h
  | @definite hd hh =>
    obtain ⟨a, hr'⟩ := hh.read hm false ha.left
    have := le_readHead false P t p _ hr
    rw [hr'] at this
    cases this
    simp only [View.definite] at hx
    obtain ⟨_, _, hx⟩ := Res.bind_eq_ok.1 hx
    have := range_bound hx
    simp at hl this
    omega

/-- Presenting a value needs a readable head. -/
theorem agrees_head {hard : Bool} {f : Nat} {P : Bytes} {p : Nat} {w : Val} (h : (reader hard f).Agrees ⟨P, p⟩ w) :
    ∃ hd, readHead false P p = .ok hd := by
  obtain ⟨ar, ⟨h0, _⟩, _⟩ := h.shows
  have h0 : View.isNull ⟨P, p⟩ = _ := h0
  simp only [View.isNull, View.head] at h0
  obtain ⟨hd, h1, _⟩ := Res.bind_eq_ok.1 h0
  exact ⟨hd, h1⟩

theorem readHead_bound {P : Bytes} {p : Nat} {h : Head} (hr : readHead false P p = .ok h) : p + h.hlen ≤ P.length :=
  ((readHead_clean P p).2 h hr).2.2.1

theorem head_kind {hard : Bool} {f : Nat} {P : Bytes} {p : Nat} {w : Val} (h : (reader hard f).Agrees ⟨P, p⟩ w) {hd : Head}
    (hr : readHead false P p = .ok hd) :
    (hd.major = 7 → hd.addl = 25 ∨ hd.addl = 26 ∨ hd.addl = 27 → w.kind = 3) ∧ (hd.major = 3 → w.kind = 4) ∧ (hd.major = 2 → w.kind = 5) ∧
    (hd.major = 5 → w.kind = 6) ∧ (hd.major = 4 → w.kind = 7) := by
  obtain ⟨ar, h1, har⟩ := h.shows
  have hs := shows_of_head (ind := false) (hard := hard) (f := f) hr
  rw [readerI_false] at hs
  obtain ⟨e0, e1, e2, e3, e4, e5, e6, e7⟩ := h1.unique hs
  have key : ∀ {n : Nat} {P : Prop} [Decidable P], (w.kind == n) = decide P → P → w.kind = n := by
    intro n P _ he hp
    rw [decide_eq_true hp] at he
    simpa using he
  refine ⟨fun h h' => key e3 ⟨h, h'⟩, fun h => key e4 h, fun h => key e5 h, fun h => key e6 h, fun h => ?_⟩
  have : w.kind ≠ 5 := by
    intro h5
    rw [h5] at e5
    simp at e5
    omega
  have := har this
  rw [e7, decide_eq_true h] at this
  simpa using this.symm

theorem int_cut {z : Int} {P t b : Bytes} {p : Nat} (H : EncInt z b) (ha : At (P ++ t) p b) (hl : P.length < p + b.length) :
    ∀ h, readHead false P p ≠ .ok h := by
  intro h hr
  have hm := le_readHead false P t p _ hr
  have hb := readHead_bound hr
  rcases H with ⟨_, H⟩ | ⟨_, H⟩
  · obtain ⟨a, hr'⟩ := H.read (by omega) false ha
    rw [hr'] at hm
    cases hm
    simp at hb
    omega
  · obtain ⟨a, hr'⟩ := H.read (by omega) false ha
    rw [hr'] at hm
    cases hm
    simp at hb
    omega

theorem dbl_cut {d : Nat} {P t b : Bytes} {p : Nat} (H : EncDbl d b) (ha : At (P ++ t) p b) (hl : P.length < p + b.length) {h : Head}
    (hr : readHead false P p = .ok h) : (h.major = 7 ∧ (h.addl = 25 ∨ h.addl = 26 ∨ h.addl = 27)) ∧ ∀ x, View.asDouble ⟨P, p⟩ ≠ .ok x := by
  have hm := le_readHead false P t p _ hr
  cases H with
  | f64 =>
    have hr' := flt_read (k := 8) false (by simp) ha
    rw [hr'] at hm
    cases hm
    refine ⟨by simp, fun x hx => ?_⟩
    simp [View.asDouble, View.isFloat, View.head, hr] at hx
    obtain ⟨y, hy, _⟩ := Res.bind_eq_ok.1 hx
    rcases getBe_bound hy with h | h
    · omega
    · simp at hl; omega
  | f32 =>
    have hr' := flt_read (k := 4) false (by simp) ha
    rw [hr'] at hm
    cases hm
    refine ⟨by simp, fun x hx => ?_⟩
    simp [View.asDouble, View.isFloat, View.head, hr] at hx
    obtain ⟨y, hy, _⟩ := Res.bind_eq_ok.1 hx
    rcases getBe_bound hy with h | h
    · omega
    · simp at hl; omega
  | f16 =>
    have hr' := flt_read (k := 2) false (by simp) ha
    rw [hr'] at hm
    cases hm
    refine ⟨by simp, fun x hx => ?_⟩
    simp [View.asDouble, View.isFloat, View.head, hr] at hx
    obtain ⟨y, hy, hx⟩ := Res.bind_eq_ok.1 hx
    obtain ⟨z, hz, hx⟩ := Res.bind_eq_ok.1 hx
    have := byteAt_bound hz
    simp at hl
    omega

/-- A definite container cut short: its head is read whole, and something follows it. -/
theorem group_cut {m n : Nat} (hm : m ≤ 6) {c b P t : Bytes} {p : Nat} (H : Group false m n c b) (ha : At (P ++ t) p b)
    (hl : P.length < p + b.length) {h : Head} (hr : readHead false P p = .ok h) :
    h.major = m ∧ h.val = n ∧ h.indef = false ∧ At (P ++ t) (p + h.hlen) c ∧ P.length < p + h.hlen + c.length ∧ c ≠ [] := by
  cases H with
  | indef h => cases h
  | @definite hd hh =>
    obtain ⟨a, hr'⟩ := hh.read hm false ha.left
    have := le_readHead false P t p _ hr
    rw [hr'] at this
    cases this
    have hb := readHead_bound hr
    simp only [List.length_append] at hl hb
    refine ⟨rfl, rfl, rfl, ha.right, by simp only; omega, ?_⟩
    intro h
    subst h
    simp at hl
    omega

/-! ### Checked skipping ends inside the buffer -/

theorem items_bound {rec : Nat → Res Nat} {L : Nat} (hr : ∀ p q, rec p = .ok q → q ≤ L) :
    ∀ n p q, p ≤ L → items rec n p = .ok q → q ≤ L
  | 0, p, q, hp, h => by simp only [items, Res.pure_eq, Res.ok.injEq] at h; omega
  | n + 1, p, q, hp, h => by
    obtain ⟨x, h1, h2⟩ := Res.bind_eq_ok.1 h
    exact items_bound hr n x q (hr _ _ h1) h2

theorem untilBreak_bound {v : Bytes} {rec : Nat → Res Nat} {k : Nat} :
    ∀ f p q, untilBreak false v rec k f p = .ok q → q ≤ v.length
  | 0, _, _, h => by cases h
  | f + 1, p, q, h => by
    obtain ⟨_, h1, h⟩ := Res.bind_eq_ok.1 h
    have h1 : p < v.length := by simpa [ensure, Res.require_eq_ok] using h1
    obtain ⟨x, _, h⟩ := Res.bind_eq_ok.1 h
    split at h
    · simp only [Res.pure_eq, Res.ok.injEq] at h; omega
    · obtain ⟨y, _, h⟩ := Res.bind_eq_ok.1 h
      exact untilBreak_bound f _ _ h

theorem chunks_bound {v : Bytes} {m : Nat} : ∀ f p q, chunks false v m f p = .ok q → q ≤ v.length
  | 0, _, _, h => by cases h
  | f + 1, p, q, h => by
    obtain ⟨_, h1, h⟩ := Res.bind_eq_ok.1 h
    have h1 : p < v.length := by simpa [ensure, Res.require_eq_ok] using h1
    obtain ⟨x, _, h⟩ := Res.bind_eq_ok.1 h
    split at h
    · simp only [Res.pure_eq, Res.ok.injEq] at h; omega
    · obtain ⟨y, _, h⟩ := Res.bind_eq_ok.1 h
      obtain ⟨_, _, h⟩ := Res.bind_eq_ok.1 h
      obtain ⟨_, _, h⟩ := Res.bind_eq_ok.1 h
      exact chunks_bound f _ _ h

theorem skip_bound {v : Bytes} : ∀ f p q, skip false v f p = .ok q → q ≤ v.length
  | 0, _, _, h => by cases h
  | f + 1, p, q, h => by
    obtain ⟨hd, h1, h⟩ := Res.bind_eq_ok.1 h
    have hb := readHead_bound h1
    have fit : ∀ n, (do ensure false (decide (n ≤ v.length)); pure n : Res Nat) = .ok q → q ≤ v.length := by
      intro n hn
      obtain ⟨_, h2, h3⟩ := Res.bind_eq_ok.1 hn
      have h2 : n ≤ v.length := by simpa [ensure, Res.require_eq_ok] using h2
      simp only [Res.pure_eq, Res.ok.injEq] at h3; omega
    have here : (pure (p + hd.hlen) : Res Nat) = .ok q → q ≤ v.length := by
      intro h; simp only [Res.pure_eq, Res.ok.injEq] at h; omega
    dsimp only at h
    repeat' split at h
    all_goals first
      | exact fit _ h
      | exact here h
      | exact chunks_bound _ _ _ h
      | exact untilBreak_bound _ _ _ h
      | exact items_bound (fun p q => skip_bound f p q) _ _ _ hb h
      | exact skip_bound f _ _ h

/-- A lookup that answers `false` went over all the entries. -/
theorem containsN_items {hard : Bool} {f : Nat} {v key : Bytes} : ∀ n q, View.containsN hard f v key n q = .ok false →
    ∃ r, items (skip false v f) (2 * n) q = .ok r
  | 0, q, _ => ⟨q, rfl⟩
  | n + 1, q, h => by
    simp only [View.containsN] at h
    obtain ⟨k, _, h⟩ := Res.bind_eq_ok.1 h
    split at h
    · cases h
    · obtain ⟨q1, h1, h⟩ := Res.bind_eq_ok.1 h
      obtain ⟨q2, h2, h⟩ := Res.bind_eq_ok.1 h
      obtain ⟨r, hr⟩ := containsN_items n q2 h
      refine ⟨r, ?_⟩
      rw [show 2 * (n + 1) = 2 * n + 1 + 1 by omega]
      simp only [items, h1, h2, Res.ok_bind, hr]

theorem no_value_cut {hard : Bool} {f : Nat} {P t : Bytes} (hv : (P ++ t).length < 2 ^ 64) (hf : (P ++ t).length ≤ f) :
    ∀ (v : Val) {b : Bytes} {p : Nat}, Enc false v b → At (P ++ t) p b → P.length < p + b.length →
      ∀ w, ¬ (reader hard f).Agrees ⟨P, p⟩ w := by
  intro v
  induction v using Val.ind with
  | null =>
    intro b p h ha hl w hA
    obtain ⟨hd, hr⟩ := agrees_head hA
    have := ((readHead_clean P p).2 hd hr).1
    simp only [Enc] at h
    subst h
    simp at hl
    omega
  | bool x =>
    intro b p h ha hl w hA
    obtain ⟨hd, hr⟩ := agrees_head hA
    have := ((readHead_clean P p).2 hd hr).1
    simp only [Enc] at h
    subst h
    simp at hl
    omega
  | int i =>
    intro b p h ha hl w hA
    obtain ⟨hd, hr⟩ := agrees_head hA
    simp only [Enc] at h
    exact int_cut h ha hl _ hr
  | uint n =>
    intro b p h ha hl w hA
    obtain ⟨hd, hr⟩ := agrees_head hA
    simp only [Enc] at h
    exact int_cut h ha hl _ hr
  | dbl d =>
    intro b p h ha hl w hA
    obtain ⟨hd, hr⟩ := agrees_head hA
    simp only [Enc] at h
    obtain ⟨⟨h1, h2⟩, h3⟩ := dbl_cut h ha hl hr
    have hk := (head_kind hA hr).1 h1 h2
    cases hA with
    | dbl _ hx => exact h3 _ hx
    | _ => simp [Val.kind] at hk
  | str s =>
    intro b p h ha hl w hA
    obtain ⟨hd, hr⟩ := agrees_head hA
    simp only [Enc] at h
    have h3 := text_cut (hard := hard) (by omega) h ha hl hr
    have hmaj : hd.major = 3 := by
      cases h with
      | chunked h => cases h
      | definite hh =>
        obtain ⟨a, hr'⟩ := hh.read (by omega) false ha.left
        have := le_readHead false P t p _ hr
        rw [hr'] at this
        cases this
        rfl
    have hk := (head_kind hA hr).2.1 hmaj
    cases hA with
    | @str _ x _ _ hx =>
      have hx : View.asStringView hard ⟨P, p⟩ = .ok x := hx
      simp only [View.asStringView, View.head, hr, Res.ok_bind] at hx
      obtain ⟨_, _, hx⟩ := Res.bind_eq_ok.1 hx
      obtain ⟨_, _, hx⟩ := Res.bind_eq_ok.1 hx
      exact h3 _ hx
    | _ => simp [Val.kind] at hk
  | blob s =>
    intro b p h ha hl w hA
    obtain ⟨hd, hr⟩ := agrees_head hA
    simp only [Enc] at h
    have h3 := text_cut (hard := hard) (by omega) h ha hl hr
    have hmaj : hd.major = 2 := by
      cases h with
      | chunked h => cases h
      | definite hh =>
        obtain ⟨a, hr'⟩ := hh.read (by omega) false ha.left
        have := le_readHead false P t p _ hr
        rw [hr'] at this
        cases this
        rfl
    have hk := (head_kind hA hr).2.2.1 hmaj
    cases hA with
    | @blob _ x _ _ hx _ =>
      have hx : View.asBlob hard ⟨P, p⟩ = .ok x := hx
      simp only [View.asBlob, View.head, hr, Res.ok_bind] at hx
      obtain ⟨_, _, hx⟩ := Res.bind_eq_ok.1 hx
      obtain ⟨_, _, hx⟩ := Res.bind_eq_ok.1 hx
      exact h3 _ hx
    | _ => simp [Val.kind] at hk
  | arr xs ih =>
    intro b p h ha hl w hA
    obtain ⟨hd, hr⟩ := agrees_head hA
    simp only [Enc] at h
    obtain ⟨cs, hc, hg⟩ := h
    obtain ⟨h1, h2, h3, h4, h5, h6⟩ := group_cut (by omega) hg ha hl hr
    obtain ⟨hlen, hit⟩ := EncList.item xs hc
    have hne : cs ≠ [] := by rintro rfl; simp at h6
    have hpos := List.length_pos_iff.2 hne
    have hk := (head_kind hA hr).2.2.2.2 h1
    obtain ⟨ys, child, hsz, hget⟩ := hA.arr_of_kind hk
    have hsz : View.arraySize f ⟨P, p⟩ = .ok ys.length := hsz
    simp only [View.arraySize, View.head, hr, Res.ok_bind, h1, h2, h3, decide_true, Res.require_true, Bool.false_eq_true, if_false,
      Res.pure_eq, Res.ok.injEq] at hsz
    obtain ⟨hg1, hg2⟩ := hget (cs.length - 1) (by omega)
    have hg1 : View.getIdx f ⟨P, p⟩ (cs.length - 1) = .ok (child (cs.length - 1)) := hg1
    simp only [View.getIdx, View.head, hr, Res.ok_bind, h1, h2, h3, decide_true, Res.require_true, Bool.false_eq_true, if_false,
      decide_eq_true (show cs.length - 1 < xs.length by omega)] at hg1
    obtain ⟨q, hq, hg1⟩ := Res.bind_eq_ok.1 hg1
    have hq' := le_items (le_skip false P t f) _ _ _ hq
    rw [items_take hv hf hit h4 (by omega)] at hq'
    cases hq'
    simp only [Res.pure_eq, Res.ok.injEq] at hg1
    rw [← hg1] at hg2
    have hat := at_nth h4 (cs.length - 1) (by omega)
    have hx := EncList.nth hc (cs.length - 1) (by omega) (by omega)
    refine ih _ (List.getElem_mem _) hx hat ?_ _ hg2
    · have e : cs.flatten.length = (cs.take (cs.length - 1)).flatten.length + cs[cs.length - 1].length := by
        have this : cs.flatten.length = (cs.take (cs.length - 1) ++ cs.drop (cs.length - 1)).flatten.length := by rw [List.take_append_drop]
        have hd1 : cs.drop (cs.length - 1) = [cs[cs.length - 1]] := by
          rw [List.drop_eq_getElem_cons (by omega), List.drop_eq_nil_of_le (by omega)]
        rw [this, hd1, List.flatten_append, List.length_append, List.flatten_singleton]
      omega
  | map ms ih =>
    intro b p h ha hl w hA
    obtain ⟨hd, hr⟩ := agrees_head hA
    simp only [Enc] at h
    obtain ⟨cs, hc, hg⟩ := h
    obtain ⟨h1, h2, h3, h4, h5, h6⟩ := group_cut (by omega) hg ha hl hr
    have hk := (head_kind hA hr).2.2.2.1 h1
    obtain ⟨k, hc0⟩ := hA.no_key hk
    have hc0 : View.contains hard f ⟨P, p⟩ k = .ok false := hc0
    simp only [View.contains, View.head, hr, Res.ok_bind, h1, h2, h3, if_true, Bool.false_eq_true, if_false] at hc0
    obtain ⟨r, hq⟩ := containsN_items _ _ hc0
    have hb := items_bound (fun p q => skip_bound f p q) _ _ _ (readHead_bound hr) hq
    have hq' := le_items (le_skip false P t f) _ _ _ hq
    obtain ⟨hlen, hit⟩ := EncEntries.item ms hc
    rw [← hlen, items_take hv hf hit h4 (Nat.le_refl _), List.take_length] at hq'
    injection hq' with hq'
    omega

end Zer.Cbor
