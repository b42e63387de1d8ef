import Verif.Cost.Basic
import Verif.Cbor.Term

/-!
# CBOR: steps of skipping and of lookups

Counted are the calls of `skip` (cbor.hpp:127-186 and its unchecked copy, 397-415) and the rounds of the loops over the chunks of
an indefinite string.
-/

namespace Zer

namespace Cnt
variable {α β : Type}

/-- The steps of a sequence stay below `n` if those of its first part do and those of both parts together do. -/
theorem bind_le_of {x : Cnt α} {k : α → Cnt β} {n : Nat} (h0 : x.cost ≤ n) (h : ∀ a, x.res = .ok a → x.cost + (k a).cost ≤ n) :
    (x >>= k).cost ≤ n := by
  cases hx : x.res with
  | ok a => rw [bind_ok_cost hx]; exact h a hx
  | _ => rw [bind_cost_of (by rw [hx]; intro a; exact fun h => by cases h)]; exact h0

@[simp] theorem map_tick_cost (g : Unit → α) : (g <$> tick).cost = 1 := rfl

end Cnt

namespace Cbor

open Cnt (tick)

/-! ## Skipping -/

/-- `items` with steps. -/
def itemsC (rec : Nat → Cnt Nat) : Nat → Nat → Cnt Nat
  | 0, q => pure q
  | n + 1, q => do
    let q ← rec q
    itemsC rec n q

/-- `untilBreak` with steps, cbor.hpp:155-159, 166-171, 407, 410. -/
def untilBreakC (raw : Bool) (v : Bytes) (rec : Nat → Cnt Nat) (k : Nat) : Nat → Nat → Cnt Nat
  | 0, _ => Cnt.lift .diverge
  | f + 1, q => do
    ensure raw (decide (q < v.length))
    let b ← byteAt v q
    if b = 0xff then pure (q + 1)
    else do
      let q ← itemsC rec k q
      untilBreakC raw v rec k f q

/-- `chunks` with steps: one for every round, cbor.hpp:141-149, 404. -/
def chunksC (raw : Bool) (v : Bytes) (major : Nat) : Nat → Nat → Cnt Nat
  | 0, _ => Cnt.lift .diverge
  | f + 1, q => do
    tick
    ensure raw (decide (q < v.length))
    let b ← byteAt v q
    if b = 0xff then pure (q + 1)
    else do
      let ch ← readHead raw v q
      ensure raw (decide (ch.major = major))
      ensure raw (!ch.indef)
      chunksC raw v major f (u64 (q + (ch.hlen + ch.val)))

/-- `skip` with steps: one for every call, cbor.hpp:127-186 and 397-415. -/
def skipC (raw : Bool) (v : Bytes) : Nat → Nat → Cnt Nat
  | 0, _ => Cnt.lift .diverge
  | f + 1, p => do
    tick
    let h ← readHead raw v p
    let q := p + h.hlen
    if h.major ≤ 1 then pure q
    else if h.major ≤ 3 then
      if h.indef then chunksC raw v h.major f q
      else do
        ensure raw (decide (u64 (q + h.val) ≤ v.length))
        pure (u64 (q + h.val))
    else if h.major = 4 then
      if h.indef then untilBreakC raw v (skipC raw v f) 1 f q
      else itemsC (skipC raw v f) h.val q
    else if h.major = 5 then
      if h.indef then untilBreakC raw v (skipC raw v f) 2 f q
      else itemsC (skipC raw v f) (2 * h.val) q
    else if h.major = 6 then skipC raw v f q
    else if h.addl = 25 then do
      ensure raw (decide (q + 2 ≤ v.length))
      pure (q + 2)
    else if h.addl = 26 then do
      ensure raw (decide (q + 4 ≤ v.length))
      pure (q + 4)
    else if h.addl = 27 then do
      ensure raw (decide (q + 8 ≤ v.length))
      pure (q + 8)
    else if h.addl = 24 ∧ raw = false then do
      ensure raw (decide (q + 1 ≤ v.length))
      pure (q + 1)
    else pure q

theorem itemsC_res {rec : Nat → Cnt Nat} : ∀ n q, (itemsC rec n q).res = items (fun q => (rec q).res) n q
  | 0, _ => rfl
  | n + 1, q => by simp only [itemsC, items, Cnt.bind_res, itemsC_res n]

theorem untilBreakC_res {raw : Bool} {v : Bytes} {rec : Nat → Cnt Nat} {k : Nat} : ∀ f q,
    (untilBreakC raw v rec k f q).res = untilBreak raw v (fun q => (rec q).res) k f q
  | 0, _ => rfl
  | f + 1, q => by
    simp only [untilBreakC, untilBreak, Cnt.bind_res, Cnt.monadLift_eq, Cnt.lift_res, Cnt.ite_res, Cnt.pure_res, Res.pure_eq, itemsC_res,
      untilBreakC_res f]

theorem chunksC_res {raw : Bool} {v : Bytes} {m : Nat} : ∀ f q, (chunksC raw v m f q).res = chunks raw v m f q
  | 0, _ => rfl
  | f + 1, q => by
    simp only [chunksC, chunks, Cnt.bind_res, Cnt.monadLift_eq, Cnt.lift_res, Cnt.ite_res, Cnt.pure_res, Res.pure_eq, Cnt.tick_res,
      Res.ok_bind, chunksC_res f]

/-- Counting changes nothing. -/
theorem skipC_res {raw : Bool} {v : Bytes} : ∀ f p, (skipC raw v f p).res = skip raw v f p
  | 0, _ => rfl
  | f + 1, p => by
    have ih : (fun q => (skipC raw v f q).res) = skip raw v f := by funext q; exact skipC_res f q
    simp only [skipC, skip, Cnt.bind_res, Cnt.monadLift_eq, Cnt.lift_res, Cnt.ite_res, Cnt.pure_res, Res.pure_eq, Cnt.tick_res,
      Res.ok_bind, chunksC_res, itemsC_res, untilBreakC_res, ih, skipC_res f]

/-- From `p` on: no more steps than there are bytes left and one; if the call succeeds, no more than the bytes it passed, and no
more than there are left. -/
def Cheap (v : Bytes) (p : Nat) (x : Cnt Nat) : Prop :=
  x.cost ≤ v.length - p + 1 ∧ ∀ r, x.res = .ok r → x.cost + p ≤ r ∧ x.cost ≤ v.length - p

theorem Cheap.of_zero {v : Bytes} {p : Nat} {x : Cnt Nat} (h : x.cost = 0) (hr : ∀ r, x.res = .ok r → p ≤ r) : Cheap v p x :=
  ⟨by omega, fun r e => by have := hr r e; omega⟩

theorem Cheap.lift_bind {α : Type} {v : Bytes} {p : Nat} {x : Res α} {k : α → Cnt Nat} (h : ∀ a, x = .ok a → Cheap v p (k a)) :
    Cheap v p (Cnt.lift x >>= k) := by
  refine ⟨Cnt.lift_bind_le fun a ha => (h a ha).1, fun r hr => ?_⟩
  obtain ⟨a, ha, hr, e⟩ := Cnt.lift_bind_ok hr
  rw [e]
  exact (h a ha).2 r hr

theorem Cheap.bind {v : Bytes} {p : Nat} {x : Cnt Nat} {k : Nat → Cnt Nat} (h0 : Cheap v p x)
    (h : ∀ r, x.res = .ok r → Cheap v r (k r)) : Cheap v p (x >>= k) := by
  refine ⟨Cnt.bind_le_of h0.1 fun a ha => ?_, fun r hr => ?_⟩
  · have h1 := h0.2 a ha
    have h2 := (h a ha).1
    omega
  · obtain ⟨a, ha, hr, e⟩ := Cnt.bind_ok hr
    have h1 := h0.2 a ha
    have h2 := (h a ha).2 r hr
    rw [e]
    omega

/-- One step at a byte of the buffer, then the rest behind it. -/
theorem Cheap.tick {v : Bytes} {p q : Nat} {x : Cnt Nat} (hp : p < v.length) (hq : p < q) (h : Cheap v q x) :
    Cheap v p (Cnt.tick >>= fun _ => x) := by
  obtain ⟨h1, h2⟩ := h
  refine ⟨by rw [Cnt.tick_bind_cost]; omega, fun r hr => ?_⟩
  rw [Cnt.bind_res, Cnt.tick_res, Res.ok_bind] at hr
  have := h2 r hr
  rw [Cnt.tick_bind_cost]
  omega

theorem Cheap.tick_lift {α : Type} {v : Bytes} {p : Nat} {y : Res α} {k : α → Cnt Nat}
    (h : ∀ a, y = .ok a → Cheap v p (Cnt.tick >>= fun _ => k a)) : Cheap v p (Cnt.tick >>= fun _ => Cnt.lift y >>= k) := by
  cases hy : y with
  | ok a => rw [Cnt.lift_ok_bind]; exact h a hy
  | _ =>
    refine ⟨?_, fun r hr => ?_⟩
    · rw [Cnt.tick_bind_cost, Cnt.bind_cost_of (by intro a; exact fun h => by cases h)]
      show 1 + 0 ≤ _
      omega
    · rw [Cnt.bind_res, Cnt.tick_res, Res.ok_bind, Cnt.bind_res] at hr
      cases hr

theorem chunksC_cheap {raw : Bool} {v : Bytes} (hn : NoHugeAll v) (hv : v.length < 2 ^ 63) (m : Nat) :
    ∀ f q, Cheap v q (chunksC raw v m f q)
  | 0, q => .of_zero rfl fun r h => by cases h
  | f + 1, q => by
    unfold chunksC
    simp only [Cnt.monadLift_eq]
    refine .tick_lift fun _ _ => .tick_lift fun b hb => ?_
    have hq := byteAt_lt hb
    split
    · exact .tick hq (Nat.lt_succ_self q) (.of_zero rfl fun r h => by injection h with h; omega)
    · refine .tick_lift fun h hr => .tick_lift fun _ _ => .tick_lift fun _ _ => ?_
      have hw := no_wrap_all hn hv hr
      obtain ⟨_, h1, -⟩ := readHead_ok hr
      have e : u64 (q + (h.hlen + h.val)) = q + h.hlen + h.val := by
        rw [← Nat.add_assoc]; exact u64_of_lt hw
      rw [e]
      exact .tick hq (by omega) (chunksC_cheap hn hv m f _)

theorem itemsC_cheap {v : Bytes} {rec : Nat → Cnt Nat} (hr : ∀ q, Cheap v q (rec q)) : ∀ n q, Cheap v q (itemsC rec n q)
  | 0, q => .of_zero rfl fun r h => by injection h with h; omega
  | n + 1, q => (hr q).bind fun r _ => itemsC_cheap hr n r

theorem untilBreakC_cheap {raw : Bool} {v : Bytes} {rec : Nat → Cnt Nat} {k : Nat} (hr : ∀ q, Cheap v q (rec q)) :
    ∀ f q, Cheap v q (untilBreakC raw v rec k f q)
  | 0, q => .of_zero rfl fun r h => by cases h
  | f + 1, q => by
    unfold untilBreakC
    simp only [Cnt.monadLift_eq]
    refine .lift_bind fun _ _ => .lift_bind fun b hb => ?_
    split
    · exact .of_zero rfl fun r h => by injection h with h; omega
    · exact (itemsC_cheap hr k q).bind fun r _ => untilBreakC_cheap hr f r

theorem skipC_cheap {raw : Bool} {v : Bytes} (hn : NoHugeAll v) (hv : v.length < 2 ^ 63) : ∀ f p, Cheap v p (skipC raw v f p)
  | 0, q => .of_zero rfl fun r h => by cases h
  | f + 1, p => by
    unfold skipC
    simp only [Cnt.monadLift_eq]
    refine .tick_lift fun h hr => ?_
    have hw := no_wrap_all hn hv hr
    obtain ⟨h0, h1, -⟩ := readHead_ok hr
    have ih : ∀ q, Cheap v q (skipC raw v f q) := fun q => skipC_cheap hn hv f q
    have ens : ∀ c n, Cheap v (p + h.hlen) (Cnt.lift (ensure raw c) >>= fun _ => (pure (p + h.hlen + n) : Cnt Nat)) := fun c n =>
      .lift_bind fun _ _ => .of_zero rfl fun r h => by injection h with h; omega
    have zero : Cheap v (p + h.hlen) (pure (p + h.hlen) : Cnt Nat) := .of_zero rfl fun r h => by injection h with h; omega
    refine Cheap.tick h0 (q := p + h.hlen) (by omega) ?_
    split
    · exact zero
    split
    · split
      · exact chunksC_cheap hn hv _ f _
      · rw [u64_of_lt hw]; exact ens _ _
    split
    · split
      · exact untilBreakC_cheap ih f _
      · exact itemsC_cheap ih _ _
    split
    · split
      · exact untilBreakC_cheap ih f _
      · exact itemsC_cheap ih _ _
    split
    · exact ih _
    split
    · exact ens _ _
    split
    · exact ens _ _
    split
    · exact ens _ _
    split
    · exact ens _ _
    · exact zero

/-! ## Well-formed items -/

theorem Chunks.cost {m : Nat} (hm : m = 2 ∨ m = 3) {s b : Bytes} (hc : Chunks m s b) (raw : Bool)
    {v : Bytes} (hv : v.length < 2 ^ 64) {p : Nat} (ha : At v p (b ++ [0xff])) (f : Nat) : (chunksC raw v m f p).cost ≤ b.length + 1 := by
  induction hc generalizing p f with
  | nil =>
    cases f with
    | zero => exact Nat.zero_le _
    | succ f =>
      have ha' : At v p [0xff] := ha
      simp [chunksC, decide_eq_true (at_lt ha'), at_byte ha']
  | @cons h s t b hh hc ih =>
    cases f with
    | zero => exact Nat.zero_le _
    | succ f =>
      have ha' : At v p ((h ++ s) ++ (b ++ [0xff])) := by simpa using ha
      have hb := ha'.bound
      simp only [List.length_append, List.length_singleton] at hb
      obtain ⟨a, hr⟩ := hh.read (by omega) raw ha'.left.left
      obtain ⟨x, u, hx, hx'⟩ := hh.first (by omega)
      have hxa : At v p (x :: (u ++ s)) := by have := ha'.left; rw [hx] at this; simpa using this
      have e : u64 (p + (h.length + s.length)) = p + (h ++ s).length := by
        rw [List.length_append]; exact u64_of_lt (by omega)
      have := hh.pos
      simp only [chunksC, decide_eq_true (at_lt hxa), ensure_true, Cnt.monadLift_eq, Cnt.lift_ok_bind, at_byte hxa,
        if_neg (show x.toNat ≠ 0xff by omega), hr, decide_true, Bool.not_false, e]
      rw [Cnt.tick_bind_cost]
      have := ih ha'.right f
      simp only [List.length_append] at this ⊢
      omega

theorem itemsC_at {rec : Nat → Cnt Nat} {v : Bytes} : ∀ {cs : List Bytes} {p : Nat},
    (∀ c ∈ cs, ∀ q, At v q c → (rec q).res = .ok (q + c.length) ∧ (rec q).cost ≤ c.length) → At v p cs.flatten →
    (itemsC rec cs.length p).res = .ok (p + cs.flatten.length) ∧ (itemsC rec cs.length p).cost ≤ cs.flatten.length
  | [], _, _, _ => ⟨rfl, Nat.zero_le _⟩
  | c :: cs, p, hr, ha => by
    simp only [List.flatten_cons] at ha
    obtain ⟨h1, h2⟩ := hr c (by simp) p ha.left
    obtain ⟨i1, i2⟩ := itemsC_at (fun d hd => hr d (by simp [hd])) ha.right
    simp only [List.length_cons, itemsC, List.flatten_cons, List.length_append]
    rw [Cnt.bind_ok_cost h1, Cnt.bind_res, h1, Res.ok_bind, i1]
    exact ⟨by congr 1; omega, by omega⟩

theorem untilBreakC_at {rec : Nat → Cnt Nat} {v : Bytes} (raw : Bool) {k : Nat} (hk : 0 < k) :
    ∀ {n : Nat} {cs : List Bytes} {p : Nat} (f : Nat), cs.length = k * n → (∀ c ∈ cs, Item c) →
    (∀ c ∈ cs, ∀ q, At v q c → (rec q).res = .ok (q + c.length) ∧ (rec q).cost ≤ c.length) →
    At v p (cs.flatten ++ [0xff]) → (untilBreakC raw v rec k f p).cost ≤ cs.flatten.length
  | _, _, _, 0, _, _, _, _ => Nat.zero_le _
  | 0, cs, p, f + 1, hn, _, _, ha => by
    have : cs = [] := List.length_eq_zero_iff.1 (by simpa using hn)
    subst this
    have ha' : At v p [0xff] := by simpa using ha
    simp [untilBreakC, decide_eq_true (at_lt ha'), at_byte ha']
  | n + 1, cs, p, f + 1, hn, hi, hr, ha => by
    obtain ⟨a, b, rfl, hka, hkb⟩ := split_k hn
    have ha' : At v p (a.flatten ++ (b.flatten ++ [0xff])) := by simpa using ha
    obtain ⟨c, a', rfl⟩ : ∃ c a', a = c :: a' := by
      cases a with
      | nil => simp at hka; omega
      | cons c a' => exact ⟨c, a', rfl⟩
    obtain ⟨x, u, hx, hx'⟩ := (hi c (by simp)).first
    have hxa : At v p (x :: (u ++ a'.flatten)) := by
      have := ha'.left; simp only [List.flatten_cons, hx] at this; simpa using this
    obtain ⟨h1, h2⟩ := itemsC_at (fun d hd => hr d (by simp only [List.mem_append]; exact .inl hd)) ha'.left
    rw [hka] at h1 h2
    simp only [untilBreakC, decide_eq_true (at_lt hxa), ensure_true, Cnt.monadLift_eq, Cnt.lift_ok_bind, at_byte hxa,
      if_neg (show x.toNat ≠ 0xff by omega)]
    rw [Cnt.bind_ok_cost h1]
    have := untilBreakC_at raw hk f hkb (fun d hd => hi d (by simp only [List.mem_append]; exact .inr hd))
      (fun d hd => hr d (by simp only [List.mem_append]; exact .inr hd)) ha'.right
    rw [List.flatten_append, List.length_append]
    omega

/-- Skipping an item takes no more steps than it has bytes. -/
theorem Item.cost {b : Bytes} (h : Item b) (raw : Bool) {v : Bytes} (hv : v.length < 2 ^ 64)
    {p : Nat} (ha : At v p b) {f : Nat} (hf : b.length ≤ f) : (skipC raw v f p).cost ≤ b.length := by
  have sub : ∀ {c : Bytes} {f q : Nat}, Item c → At v q c → c.length ≤ f → (skipC raw v f q).res = .ok (q + c.length) :=
    fun hc hq hl => by rw [skipC_res]; exact hc.skip raw hv hq hl
  induction h generalizing p f with
  | @num m n h hm hh =>
    have := hh.pos
    obtain ⟨f, rfl⟩ : ∃ g, f = g + 1 := ⟨f - 1, by omega⟩
    obtain ⟨a, hr⟩ := hh.read (by omega) raw ha
    simp [skipC, hr, hm]; omega
  | @str ind m s b hm hh =>
    have hb := ha.bound
    cases hh with
    | @definite h hh =>
      have := hh.pos
      simp only [List.length_append] at hb hf
      obtain ⟨f, rfl⟩ : ∃ g, f = g + 1 := ⟨f - 1, by omega⟩
      obtain ⟨a, hr⟩ := hh.read (by omega) raw ha.left
      have e : u64 (p + h.length + s.length) = p + h.length + s.length := u64_of_lt (by omega)
      simp only [skipC, hr, Cnt.monadLift_eq, Cnt.lift_ok_bind, if_neg (show ¬ m ≤ 1 by omega),
        if_pos (show m ≤ 3 by omega), Bool.false_eq_true, if_false, e,
        decide_eq_true (show p + h.length + s.length ≤ v.length by omega), ensure_true, Cnt.tick_bind_cost, Cnt.pure_cost,
        List.length_append]
      omega
    | @chunked b _ hc =>
      simp only [List.length_cons, List.length_append, List.length_nil] at hb hf
      obtain ⟨f, rfl⟩ : ∃ g, f = g + 1 := ⟨f - 1, by omega⟩
      have hr := indef_read (show m ≤ 6 by omega) raw ha
      simp only [skipC, hr, Cnt.monadLift_eq, Cnt.lift_ok_bind, if_neg (show ¬ m ≤ 1 by omega),
        if_pos (show m ≤ 3 by omega), if_true, Cnt.tick_bind_cost]
      have := hc.cost hm raw hv (at_tail ha) f
      simp only [List.length_cons, List.length_append, List.length_nil]; omega
  | @arr ind cs b hi hg ih =>
    have hb := ha.bound
    cases hg with
    | @definite h hh =>
      have hp := hh.pos
      simp only [List.length_append] at hf
      obtain ⟨f, rfl⟩ : ∃ g, f = g + 1 := ⟨f - 1, by omega⟩
      obtain ⟨a, hr⟩ := hh.read (by omega) raw ha.left
      simp only [skipC, hr, Cnt.monadLift_eq, Cnt.lift_ok_bind, if_neg (show ¬ 4 ≤ 1 by omega),
        if_neg (show ¬ 4 ≤ 3 by omega), if_true, Bool.false_eq_true, if_false, Cnt.tick_bind_cost]
      have := (itemsC_at (rec := skipC raw v f) (v := v) (fun c hc q hq => have hl := mem_flatten_le hc
        ⟨sub (hi c hc) hq (show _ ≤ f by omega), ih c hc hq (by omega)⟩) ha.right).2
      simp only [List.length_append]; omega
    | indef _ =>
      simp only [List.length_cons, List.length_append, List.length_nil] at hb hf
      obtain ⟨f, rfl⟩ : ∃ g, f = g + 1 := ⟨f - 1, by omega⟩
      have hr := indef_read (show 4 ≤ 6 by omega) raw ha
      simp only [skipC, hr, Cnt.monadLift_eq, Cnt.lift_ok_bind, if_neg (show ¬ 4 ≤ 1 by omega),
        if_neg (show ¬ 4 ≤ 3 by omega), if_true, Cnt.tick_bind_cost]
      have := untilBreakC_at (rec := skipC raw v f) raw (k := 1) (by omega) (n := cs.length) f (by omega) hi
        (fun c hc q hq => have hl := mem_flatten_le hc
          ⟨sub (hi c hc) hq (show _ ≤ f by omega), ih c hc hq (by omega)⟩) (at_tail ha)
      simp only [List.length_cons, List.length_append, List.length_nil]; omega
  | @map ind n cs b hn hi hg ih =>
    have hb := ha.bound
    cases hg with
    | @definite h hh =>
      have hp := hh.pos
      simp only [List.length_append] at hf
      obtain ⟨f, rfl⟩ : ∃ g, f = g + 1 := ⟨f - 1, by omega⟩
      obtain ⟨a, hr⟩ := hh.read (by omega) raw ha.left
      simp only [skipC, hr, Cnt.monadLift_eq, Cnt.lift_ok_bind, if_neg (show ¬ 5 ≤ 1 by omega),
        if_neg (show ¬ 5 ≤ 3 by omega), if_neg (show ¬ 5 = 4 by omega), if_true,
        Bool.false_eq_true, if_false, ← hn, Cnt.tick_bind_cost]
      have := (itemsC_at (rec := skipC raw v f) (v := v) (fun c hc q hq => have hl := mem_flatten_le hc
        ⟨sub (hi c hc) hq (show _ ≤ f by omega), ih c hc hq (by omega)⟩) ha.right).2
      simp only [List.length_append]; omega
    | indef _ =>
      simp only [List.length_cons, List.length_append, List.length_nil] at hb hf
      obtain ⟨f, rfl⟩ : ∃ g, f = g + 1 := ⟨f - 1, by omega⟩
      have hr := indef_read (show 5 ≤ 6 by omega) raw ha
      simp only [skipC, hr, Cnt.monadLift_eq, Cnt.lift_ok_bind, if_neg (show ¬ 5 ≤ 1 by omega),
        if_neg (show ¬ 5 ≤ 3 by omega), if_neg (show ¬ 5 = 4 by omega), if_true, Cnt.tick_bind_cost]
      have := untilBreakC_at (rec := skipC raw v f) raw (k := 2) (by omega) (n := n) f hn hi
        (fun c hc q hq => have hl := mem_flatten_le hc
          ⟨sub (hi c hc) hq (show _ ≤ f by omega), ih c hc hq (by omega)⟩) (at_tail ha)
      simp only [List.length_cons, List.length_append, List.length_nil]; omega
  | @tag n h c hh hc ih =>
    have hp := hh.pos
    simp only [List.length_append] at hf
    obtain ⟨f, rfl⟩ : ∃ g, f = g + 1 := ⟨f - 1, by omega⟩
    obtain ⟨a, hr⟩ := hh.read (by omega) raw ha.left
    simp only [skipC, hr, Cnt.monadLift_eq, Cnt.lift_ok_bind, if_neg (show ¬ 6 ≤ 1 by omega),
        if_neg (show ¬ 6 ≤ 3 by omega), if_neg (show ¬ 6 = 4 by omega),
        if_neg (show ¬ 6 = 5 by omega), if_true, Cnt.tick_bind_cost]
    have := ih ha.right (show c.length ≤ f by omega)
    simp only [List.length_append]; omega
  | @simple n hn =>
    simp only [List.length_cons, List.length_nil] at hf
    obtain ⟨f, rfl⟩ : ∃ g, f = g + 1 := ⟨f - 1, by omega⟩
    have hr := simple_read hn raw ha
    simp [skipC, hr, show n ≠ 25 by omega, show n ≠ 26 by omega, show n ≠ 27 by omega,
      show n ≠ 24 by omega]
  | @flt x t hx =>
    simp only [List.length_cons] at hf
    obtain ⟨f, rfl⟩ : ∃ g, f = g + 1 := ⟨f - 1, by omega⟩
    have hr := flt_read raw hx ha
    have hb := ha.bound
    simp only [List.length_cons] at hb
    rcases hx with ⟨rfl, hl⟩ | ⟨rfl, hl⟩ | ⟨rfl, hl⟩
    · simp [skipC, hr, decide_eq_true (show p + 1 + 2 ≤ v.length by omega), hl]
    · simp [skipC, hr, decide_eq_true (show p + 1 + 4 ≤ v.length by omega), hl]
    · simp [skipC, hr, decide_eq_true (show p + 1 + 8 ≤ v.length by omega), hl]

theorem Item.cheap {b : Bytes} (h : Item b) (raw : Bool) {v : Bytes} (hv : v.length < 2 ^ 64)
    {p : Nat} (ha : At v p b) {f : Nat} (hf : b.length ≤ f) : Cheap v p (skipC raw v f p) := by
  have h1 := h.cost raw hv ha hf
  have hb := ha.bound
  refine ⟨by omega, fun r hr => ?_⟩
  rw [skipC_res, h.skip raw hv ha hf] at hr
  injection hr with hr
  omega

end Cbor

end Zer
