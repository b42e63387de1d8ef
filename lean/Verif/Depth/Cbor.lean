import Verif.Cbor.Term
import Verif.Cbor.Agree
import Verif.Depth.MsgPack

/-!
# How deep the CBOR `skip` recurses

`skip` of the model has one budget for the nesting of calls and for the rounds of loops. `skipIn` is the same function
with two: `d` nested calls, and loops of at most `g` rounds.
-/

namespace Zer.Cbor

/-- `skip`, cbor.hpp:127-186 (`raw = false`) and cbor.hpp:397-415 (`raw = true`), with room for `d` nested calls. -/
def skipIn (raw : Bool) (v : Bytes) (g : Nat) : Nat → Nat → Res Nat
  | 0, _ => .diverge
  | d + 1, p => do
    let h ← readHead raw v p
    let q := p + h.hlen
    if h.major ≤ 1 then pure q
    else if h.major ≤ 3 then
      if h.indef then chunks raw v h.major g q
      else do
        ensure raw (decide (u64 (q + h.val) ≤ v.length))
        pure (u64 (q + h.val))
    else if h.major = 4 then
      if h.indef then untilBreak raw v (skipIn raw v g d) 1 g q
      else items (skipIn raw v g d) h.val q
    else if h.major = 5 then
      if h.indef then untilBreak raw v (skipIn raw v g d) 2 g q
      else items (skipIn raw v g d) (2 * h.val) q
    else if h.major = 6 then skipIn raw v g d q
    else if h.addl = 25 then do
      ensure raw (decide (q + 2 ≤ v.length))
      pure (q + 2)
    else if h.addl = 26 then do
      ensure raw (decide (q + 4 ≤ v.length))
      pure (q + 4)
    else if h.addl = 27 then do
      ensure raw (decide (q + 8 ≤ v.length))
      pure (q + 8)
    else if h.addl = 24 ∧ raw = false then do
      ensure raw (decide (q + 1 ≤ v.length))
      pure (q + 1)
    else pure q

/-- More room changes nothing once there was enough. -/
def Roomier (x y : Res Nat) : Prop := x ≠ .diverge → y = x

theorem Roomier.refl (x : Res Nat) : Roomier x x := fun _ => rfl

theorem Roomier.bind {α : Type} {x : Res α} {k k' : α → Res Nat} (h : ∀ a, x = .ok a → Roomier (k a) (k' a)) :
    Roomier (x >>= k) (x >>= k') := by
  intro hn
  cases x with
  | ok a => exact h a rfl hn
  | err e => rfl
  | ub => rfl
  | diverge => rfl

theorem Roomier.bind_left {x y : Res Nat} {k k' : Nat → Res Nat} (hx : Roomier x y) (h : ∀ a, Roomier (k a) (k' a)) :
    Roomier (x >>= k) (y >>= k') := by
  intro hn
  cases x with
  | ok a => rw [hx (by simp)]; exact h a hn
  | err e => rw [hx (by simp)]; rfl
  | ub => rw [hx (by simp)]; rfl
  | diverge => exact absurd rfl hn

theorem more_items {rec rec' : Nat → Res Nat} (h : ∀ q, Roomier (rec q) (rec' q)) :
    ∀ n q, Roomier (items rec n q) (items rec' n q)
  | 0, _ => .refl _
  | n + 1, q => .bind_left (h q) fun a => more_items h n a

theorem more_untilBreak {raw : Bool} {v : Bytes} {rec rec' : Nat → Res Nat} (h : ∀ q, Roomier (rec q) (rec' q)) (k : Nat) :
    ∀ {f g : Nat}, f ≤ g → ∀ q, Roomier (untilBreak raw v rec k f q) (untilBreak raw v rec' k g q)
  | 0, _, _, _ => fun hn => absurd rfl hn
  | f + 1, 0, hg, _ => by omega
  | f + 1, g + 1, hg, q => by
    unfold untilBreak
    refine .bind fun _ _ => .bind fun b _ => ?_
    split
    · exact .refl _
    · exact .bind_left (more_items h k q) fun a => more_untilBreak h k (by omega) a

theorem more_chunks {raw : Bool} {v : Bytes} (m : Nat) :
    ∀ {f g : Nat}, f ≤ g → ∀ q, Roomier (chunks raw v m f q) (chunks raw v m g q)
  | 0, _, _, _ => fun hn => absurd rfl hn
  | f + 1, 0, hg, _ => by omega
  | f + 1, g + 1, hg, q => by
    unfold chunks
    refine .bind fun _ _ => .bind fun b _ => ?_
    split
    · exact .refl _
    · exact .bind fun _ _ => .bind fun _ _ => .bind fun _ _ => more_chunks m (by omega) _

/-- The two budgets follow from the one. -/
theorem more_skipIn {raw : Bool} {v : Bytes} :
    ∀ {f g d : Nat}, f ≤ g → f ≤ d → ∀ p, Roomier (skip raw v f p) (skipIn raw v g d p)
  | 0, _, _, _, _, _ => fun hn => absurd rfl hn
  | f + 1, g, 0, _, hd, _ => by omega
  | f + 1, g, d + 1, hg, hd, p => by
    unfold skip skipIn
    have ih : ∀ q, Roomier (skip raw v f q) (skipIn raw v g d q) := fun q => more_skipIn (by omega) (by omega) q
    refine .bind fun h _ => ?_
    dsimp only
    repeat' split
    all_goals first
      | exact .refl _
      | exact more_chunks _ (by omega) _
      | exact more_untilBreak ih _ (by omega) _
      | exact more_items ih _ _
      | exact ih _

/-- More nesting changes nothing once there was enough. -/
theorem more_depth {raw : Bool} {v : Bytes} {g : Nat} :
    ∀ {d e : Nat}, d ≤ e → ∀ p, Roomier (skipIn raw v g d p) (skipIn raw v g e p)
  | 0, _, _, _ => fun hn => absurd rfl hn
  | d + 1, 0, he, _ => by omega
  | d + 1, e + 1, he, p => by
    unfold skipIn
    have ih : ∀ q, Roomier (skipIn raw v g d q) (skipIn raw v g e q) := fun q => more_depth (by omega) q
    refine .bind fun h _ => ?_
    dsimp only
    repeat' split
    all_goals first
      | exact .refl _
      | exact more_untilBreak ih _ (Nat.le_refl _) _
      | exact more_items ih _ _
      | exact ih _

/-- Where no length is near 2^64 there is an exact depth, at most the number of bytes left and one. -/
theorem skipIn_depth {raw : Bool} {v : Bytes} (hn : NoHugeAll v) (hv : v.length < 2 ^ 63) (p : Nat) {g : Nat} (hg : v.length < g) :
    ∃ d, 1 ≤ d ∧ d ≤ v.length - p + 1 ∧
      ∀ f, skipIn raw v g f p = if d ≤ f then skip raw v (v.length + 1) p else .diverge := by
  have h0 : skip raw v (v.length - p + 1) p ≠ .diverge :=
    (skip_adv hn hv (v.length - p + 1) p (by omega)).1
  have h1 : skipIn raw v g (v.length - p + 1) p ≠ .diverge := by
    rw [more_skipIn (by omega) (Nat.le_refl _) p h0]; exact h0
  have h2 : skip raw v (v.length + 1) p ≠ .diverge := (skip_adv hn hv (v.length + 1) p (by omega)).1
  have key : ∀ n, skipIn raw v g n p ≠ .diverge →
      ∃ d, d ≤ n ∧ skipIn raw v g d p ≠ .diverge ∧ ∀ f, f < d → skipIn raw v g f p = .diverge := by
    intro n
    induction n with
    | zero => intro h; exact absurd rfl h
    | succ n ih =>
      intro h
      by_cases h' : skipIn raw v g n p = .diverge
      · refine ⟨n + 1, Nat.le_refl _, h, fun f hf => ?_⟩
        by_cases hd : skipIn raw v g f p = .diverge
        · exact hd
        · exact absurd (more_depth (Nat.le_of_lt_succ hf) p hd ▸ h') hd
      · obtain ⟨d, h1, h2⟩ := ih h'
        exact ⟨d, by omega, h2⟩
  obtain ⟨d, hd, hne, hlt⟩ := key _ h1
  refine ⟨d, ?_, hd, fun f => ?_⟩
  · cases d with
    | zero => exact absurd rfl hne
    | succ d => omega
  · by_cases hf : d ≤ f
    · rw [if_pos hf, more_depth hf p hne]
      have e1 := more_skipIn (g := g) (show v.length + 1 ≤ g by omega) (Nat.le_refl _) p h2
      rw [← e1]
      exact (more_depth (show d ≤ v.length + 1 by omega) p hne).symm
    · rw [if_neg hf]; exact hlt f (by omega)

/-! ## Encodings: the depth is the nesting of the value, tags count as well -/

/-- `skip` needs exactly `d` nested calls for `b`, wherever it stands. -/
def Depth (b : Bytes) (d : Nat) : Prop :=
  ∀ (raw : Bool) (v : Bytes), v.length < 2 ^ 64 → ∀ g, v.length < g → ∀ p, At v p b → ∀ f,
    skipIn raw v g f p = if d ≤ f then .ok (p + b.length) else .diverge

theorem Depth.scalar {b : Bytes} (hi : Item b)
    (hm : ∀ (raw : Bool) (v : Bytes) (p : Nat), At v p b → ∃ h, readHead raw v p = .ok h ∧ (h.major ≤ 3 ∨ h.major = 7)) :
    Depth b 1 := by
  intro raw v hv g hg p ha f
  cases f with
  | zero => rfl
  | succ f =>
    rw [if_pos (by omega)]
    obtain ⟨h, hr, hmj⟩ := hm raw v p ha
    have hb := ha.bound
    have e := hi.skip raw hv ha (Nat.le_refl _)
    have e2 := more_skipIn (g := g) (d := b.length) (raw := raw) (v := v) (by omega) (Nat.le_refl _) p (by rw [e]; simp)
    rw [e] at e2
    have : skipIn raw v g (f + 1) p = skipIn raw v g b.length p := by
      obtain ⟨n, hn⟩ : ∃ n, b.length = n + 1 := ⟨b.length - 1, by have := hi.pos; omega⟩
      rw [hn]
      unfold skipIn
      rw [hr]
      simp only [Res.ok_bind]
      rcases hmj with hmj | hmj
      · by_cases h1 : h.major ≤ 1
        · simp only [if_pos h1]
        · simp only [if_neg h1, if_pos hmj]
      · simp only [hmj, if_neg (show ¬ 7 ≤ 1 by omega), if_neg (show ¬ 7 ≤ 3 by omega), if_neg (show ¬ 7 = 4 by omega),
          if_neg (show ¬ 7 = 5 by omega), if_neg (show ¬ 7 = 6 by omega)]
    rw [this, e2]

structure Depths (cs : List Bytes) (d : Nat) : Prop where
  each : ∀ c ∈ cs, ∃ e, e ≤ d ∧ Depth c e
  deepest : d ≠ 0 → ∃ c ∈ cs, Depth c d

theorem Depths.nil : Depths [] 0 :=
  ⟨fun c hc => absurd hc List.not_mem_nil, fun h => absurd rfl h⟩

theorem Depths.cons {c : Bytes} {cs : List Bytes} {d e : Nat} (hc : Depth c d) (h : Depths cs e) :
    Depths (c :: cs) (max d e) := by
  refine ⟨fun x hx => ?_, fun hne => ?_⟩
  · rcases List.mem_cons.1 hx with rfl | hx
    · exact ⟨d, by omega, hc⟩
    · obtain ⟨g, hg, hD⟩ := h.each x hx
      exact ⟨g, by omega, hD⟩
  · by_cases hde : e ≤ d
    · rw [show max d e = d by omega]; exact ⟨c, by simp, hc⟩
    · rw [show max d e = e by omega]
      obtain ⟨x, hx, hD⟩ := h.deepest (by omega)
      exact ⟨x, by simp [hx], hD⟩

theorem items_stuck {rec : Nat → Res Nat} {v : Bytes} : ∀ {cs : List Bytes} {p : Nat},
    (∀ c ∈ cs, (∀ q, At v q c → rec q = .ok (q + c.length)) ∨ ∀ q, At v q c → rec q = .diverge) →
    (∃ c ∈ cs, ∀ q, At v q c → rec q = .diverge) → At v p cs.flatten →
    items rec cs.length p = .diverge
  | [], _, _, h, _ => by obtain ⟨c, hc, _⟩ := h; cases hc
  | c :: cs, p, h, h', ha => by
    simp only [List.flatten_cons] at ha
    simp only [List.length_cons, items]
    rcases h c (by simp) with hc | hc
    · rw [hc p ha.left]
      simp only [Res.ok_bind]
      refine items_stuck (fun d hd => h d (by simp [hd])) ?_ ha.right
      obtain ⟨d, hd, hs⟩ := h'
      rcases List.mem_cons.1 hd with rfl | hd
      · have := hs p ha.left; rw [hc p ha.left] at this; cases this
      · exact ⟨d, hd, hs⟩
    · rw [hc p ha.left]; rfl

theorem untilBreak_stuck {rec : Nat → Res Nat} {v : Bytes} (raw : Bool) {k : Nat} (hk : 0 < k) :
    ∀ {n : Nat} {cs : List Bytes} {p f : Nat}, cs.length = k * n →
    (∀ c ∈ cs, Item c) →
    (∀ c ∈ cs, (∀ q, At v q c → rec q = .ok (q + c.length)) ∨ ∀ q, At v q c → rec q = .diverge) →
    (∃ c ∈ cs, ∀ q, At v q c → rec q = .diverge) →
    At v p (cs.flatten ++ [0xff]) →
    untilBreak raw v rec k f p = .diverge
  | 0, cs, p, f, hn, _, _, h, _ => by
    have : cs = [] := List.length_eq_zero_iff.1 (by simpa using hn)
    subst this
    obtain ⟨c, hc, _⟩ := h; cases hc
  | n + 1, cs, p, 0, _, _, _, _, _ => rfl
  | n + 1, cs, p, f + 1, hn, hi, hr, hs, ha => by
    obtain ⟨a, b, rfl, hka, hkb⟩ := split_k hn
    have ha' : At v p (a.flatten ++ (b.flatten ++ [0xff])) := by simpa using ha
    obtain ⟨c, a', rfl⟩ : ∃ c a', a = c :: a' := by
      cases a with
      | nil => simp at hka; omega
      | cons c a' => exact ⟨c, a', rfl⟩
    obtain ⟨x, u, hx, hx'⟩ := (hi c (by simp)).first
    have hxa : At v p (x :: (u ++ a'.flatten)) := by
      have := ha'.left; simp only [List.flatten_cons, hx] at this; simpa using this
    simp only [untilBreak, decide_eq_true (at_lt hxa), ensure_true, Res.ok_bind, at_byte hxa,
      if_neg (show x.toNat ≠ 0xff by omega)]
    by_cases h1 : ∃ d ∈ c :: a', ∀ q, At v q d → rec q = .diverge
    · rw [← hka, items_stuck (fun d hd => hr d (List.mem_append_left _ hd)) h1 ha'.left]; rfl
    · have h2 : items rec k p = .ok (p + (c :: a').flatten.length) := by
        rw [← hka]
        refine items_at (fun d hd => ?_) ha'.left
        rcases hr d (List.mem_append_left _ hd) with h | h
        · exact h
        · exact absurd ⟨d, hd, h⟩ h1
      rw [h2]
      simp only [Res.ok_bind]
      refine untilBreak_stuck raw hk hkb (fun d hd => hi d (List.mem_append_right _ hd))
        (fun d hd => hr d (List.mem_append_right _ hd)) ?_ ha'.right
      obtain ⟨d, hd, hD⟩ := hs
      rcases List.mem_append.1 hd with hd | hd
      · exact absurd ⟨d, hd, hD⟩ h1
      · exact ⟨d, hd, hD⟩

theorem Depths.ok {cs : List Bytes} {d f : Nat} (h : Depths cs d) (hd : d ≤ f) {raw : Bool} {v : Bytes}
    (hv : v.length < 2 ^ 64) {g : Nat} (hg : v.length < g) :
    ∀ c ∈ cs, ∀ q, At v q c → skipIn raw v g f q = .ok (q + c.length) := by
  intro c hc q hq
  obtain ⟨e, he, hD⟩ := h.each c hc
  rw [hD raw v hv g hg q hq, if_pos (by omega)]

theorem Depths.either {cs : List Bytes} {d f : Nat} (h : Depths cs d) {raw : Bool} {v : Bytes}
    (hv : v.length < 2 ^ 64) {g : Nat} (hg : v.length < g) :
    ∀ c ∈ cs, (∀ q, At v q c → skipIn raw v g f q = .ok (q + c.length)) ∨ ∀ q, At v q c → skipIn raw v g f q = .diverge := by
  intro c hc
  obtain ⟨e, he, hD⟩ := h.each c hc
  by_cases hef : e ≤ f
  · exact .inl fun q hq => by rw [hD raw v hv g hg q hq, if_pos hef]
  · exact .inr fun q hq => by rw [hD raw v hv g hg q hq, if_neg hef]

theorem Depths.stuck {cs : List Bytes} {d f : Nat} (h : Depths cs d) (hd : ¬ d ≤ f) {raw : Bool} {v : Bytes}
    (hv : v.length < 2 ^ 64) {g : Nat} (hg : v.length < g) :
    ∃ c ∈ cs, ∀ q, At v q c → skipIn raw v g f q = .diverge := by
  obtain ⟨c, hc, hD⟩ := h.deepest (by omega)
  exact ⟨c, hc, fun q hq => by rw [hD raw v hv g hg q hq, if_neg hd]⟩

theorem Depths.items {cs : List Bytes} {d f : Nat} (h : Depths cs d) {raw : Bool} {v : Bytes}
    (hv : v.length < 2 ^ 64) {g : Nat} (hg : v.length < g) {p : Nat} (ha : At v p cs.flatten) :
    items (skipIn raw v g f) cs.length p = if d ≤ f then .ok (p + cs.flatten.length) else .diverge := by
  by_cases hd : d ≤ f
  · rw [if_pos hd]; exact items_at (h.ok hd hv hg) ha
  · rw [if_neg hd]; exact items_stuck (h.either hv hg) (h.stuck hd hv hg) ha

theorem Depths.untilBreak {cs : List Bytes} {d f k n : Nat} (h : Depths cs d) (hk : 0 < k) (hn : cs.length = k * n)
    (hi : ∀ c ∈ cs, Item c) {raw : Bool} {v : Bytes}
    (hv : v.length < 2 ^ 64) {g : Nat} (hg : v.length < g) {p : Nat} (ha : At v p (cs.flatten ++ [0xff])) :
    untilBreak raw v (skipIn raw v g f) k g p = if d ≤ f then .ok (p + cs.flatten.length + 1) else .diverge := by
  by_cases hd : d ≤ f
  · rw [if_pos hd]
    have hb := ha.bound
    have hge := flatten_ge (fun c hc => (hi c hc).pos)
    have : n ≤ k * n := Nat.le_mul_of_pos_left n hk
    simp only [List.length_append, List.length_singleton] at hb
    exact untilBreak_at raw hk hn (by omega) hi (h.ok hd hv hg) ha
  · rw [if_neg hd]; exact untilBreak_stuck raw hk hn hi (h.either hv hg) (h.stuck hd hv hg) ha

theorem ite_ok {c : Prop} [Decidable c] {a b : Nat} (h : a = b) :
    (if c then (.ok a : Res Nat) else .diverge) = if c then .ok b else .diverge := by rw [h]

theorem depth_arr {ind : Bool} {cs : List Bytes} {b : Bytes} {d : Nat} (hi : ∀ c ∈ cs, Item c) (hc : Depths cs d)
    (hg : Group ind 4 cs.length cs.flatten b) : Depth b (d + 1) := by
  intro raw v hv g hgv p ha f
  cases f with
  | zero => rfl
  | succ f =>
    cases hg with
    | @definite h hh =>
      obtain ⟨a, hr⟩ := hh.read (by omega) raw ha.left
      simp only [skipIn, hr, Res.ok_bind, if_neg (show ¬ 4 ≤ 1 by omega),
        if_neg (show ¬ 4 ≤ 3 by omega), if_true, Bool.false_eq_true, if_false]
      rw [hc.items hv hgv ha.right]
      simp only [Nat.add_le_add_iff_right]
      exact ite_ok (by simp; omega)
    | indef _ =>
      have hr := indef_read (show 4 ≤ 6 by omega) raw ha
      simp only [skipIn, hr, Res.ok_bind, if_neg (show ¬ 4 ≤ 1 by omega),
        if_neg (show ¬ 4 ≤ 3 by omega), if_true]
      rw [hc.untilBreak (k := 1) (by omega) (n := cs.length) (by omega) hi hv hgv (at_tail ha)]
      simp only [Nat.add_le_add_iff_right]
      exact ite_ok (by simp; omega)

theorem depth_map {ind : Bool} {n : Nat} {cs : List Bytes} {b : Bytes} {d : Nat} (hn : cs.length = 2 * n)
    (hi : ∀ c ∈ cs, Item c) (hc : Depths cs d) (hg : Group ind 5 n cs.flatten b) : Depth b (d + 1) := by
  intro raw v hv g hgv p ha f
  cases f with
  | zero => rfl
  | succ f =>
    cases hg with
    | @definite h hh =>
      obtain ⟨a, hr⟩ := hh.read (by omega) raw ha.left
      simp only [skipIn, hr, Res.ok_bind, if_neg (show ¬ 5 ≤ 1 by omega),
        if_neg (show ¬ 5 ≤ 3 by omega), if_neg (show ¬ 5 = 4 by omega), if_true,
        Bool.false_eq_true, if_false, ← hn]
      rw [hc.items hv hgv ha.right]
      simp only [Nat.add_le_add_iff_right]
      exact ite_ok (by simp; omega)
    | indef _ =>
      have hr := indef_read (show 5 ≤ 6 by omega) raw ha
      simp only [skipIn, hr, Res.ok_bind, if_neg (show ¬ 5 ≤ 1 by omega),
        if_neg (show ¬ 5 ≤ 3 by omega), if_neg (show ¬ 5 = 4 by omega), if_true]
      rw [hc.untilBreak (k := 2) (by omega) (n := n) hn hi hv hgv (at_tail ha)]
      simp only [Nat.add_le_add_iff_right]
      exact ite_ok (by simp; omega)

theorem depth_tag {n d : Nat} {h c : Bytes} (hh : Hd 6 n h) (hc : Depth c d) : Depth (h ++ c) (d + 1) := by
  intro raw v hv g hgv p ha f
  cases f with
  | zero => rfl
  | succ f =>
    obtain ⟨a, hr⟩ := hh.read (by omega) raw ha.left
    simp only [skipIn, hr, Res.ok_bind, if_neg (show ¬ 6 ≤ 1 by omega),
        if_neg (show ¬ 6 ≤ 3 by omega), if_neg (show ¬ 6 = 4 by omega),
        if_neg (show ¬ 6 = 5 by omega), if_true]
    rw [hc raw v hv g hgv _ ha.right]
    simp only [Nat.add_le_add_iff_right]
    exact ite_ok (by simp; omega)

theorem depth_num {m n : Nat} {h : Bytes} (hm : m ≤ 1) (hh : Hd m n h) : Depth h 1 :=
  .scalar (.num hm hh) fun raw v p ha => by
    obtain ⟨a, hr⟩ := hh.read (by omega) raw ha
    exact ⟨_, hr, .inl (by dsimp only; omega)⟩

theorem depth_text {ind : Bool} {m : Nat} {s b : Bytes} (hm : m = 2 ∨ m = 3) (h : Text ind m s b) : Depth b 1 :=
  .scalar (.str hm h) fun raw v p ha => by
    cases h with
    | @definite h hh =>
      obtain ⟨a, hr⟩ := hh.read (by omega) raw ha.left
      exact ⟨_, hr, .inl (by dsimp only; omega)⟩
    | @chunked b _ hc => exact ⟨_, indef_read (show m ≤ 6 by omega) raw ha, .inl (by dsimp only; omega)⟩

theorem depth_simple {n : Nat} (hn : n < 24) : Depth [UInt8.ofNat (7 * 32 + n)] 1 :=
  .scalar (.simple hn) fun raw v p ha => ⟨_, simple_read hn raw ha, .inr rfl⟩

theorem depth_flt {x : UInt8} {p : Bytes} (h : x = 0xf9 ∧ p.length = 2 ∨ x = 0xfa ∧ p.length = 4 ∨ x = 0xfb ∧ p.length = 8) :
    Depth (x :: p) 1 :=
  .scalar (.flt h) fun raw v q ha => ⟨_, flt_read raw h ha, .inr rfl⟩

mutual
theorem Enc.depth {ind : Bool} : ∀ (v : Val) {b : Bytes}, Enc ind v b → Depth b v.depth
  | .null, b, h => by simp only [Enc] at h; subst h; exact depth_simple (n := 22) (by omega)
  | .bool x, b, h => by
      simp only [Enc] at h; subst h
      cases x
      · exact depth_simple (n := 20) (by omega)
      · exact depth_simple (n := 21) (by omega)
  | .int i, b, h => by
      simp only [Enc] at h
      rcases h with ⟨_, h⟩ | ⟨_, h⟩
      · exact depth_num (by omega) h
      · exact depth_num (by omega) h
  | .uint n, b, h => by
      simp only [Enc] at h
      rcases h with ⟨_, h⟩ | ⟨_, h⟩
      · exact depth_num (by omega) h
      · exact depth_num (by omega) h
  | .dbl d, b, h => by
      simp only [Enc] at h
      cases h with
      | f64 => exact depth_flt (by simp)
      | f32 => exact depth_flt (by simp)
      | f16 => exact depth_flt (by simp)
  | .str s, b, h => by simp only [Enc] at h; exact depth_text (.inr rfl) h
  | .blob s, b, h => by simp only [Enc] at h; exact depth_text (.inl rfl) h
  | .arr xs, b, h => by
      simp only [Enc] at h
      obtain ⟨cs, hc, hg⟩ := h
      obtain ⟨h1, h2⟩ := EncList.item xs hc
      exact depth_arr h2 (EncList.depth xs hc) (h1 ▸ hg)
  | .map ms, b, h => by
      simp only [Enc] at h
      obtain ⟨cs, hc, hg⟩ := h
      obtain ⟨h1, h2⟩ := EncEntries.item ms hc
      exact depth_map h1 h2 (EncEntries.depth ms hc) hg
theorem EncList.depth {ind : Bool} : ∀ (xs : List Val) {cs : List Bytes}, EncList ind xs cs → Depths cs (Val.depthList xs)
  | [], cs, h => by simp only [EncList] at h; subst h; exact .nil
  | x :: xs, cs, h => by
      simp only [EncList] at h
      obtain ⟨c, cs', hc, hcs, rfl⟩ := h
      exact (EncList.depth xs hcs).cons (Enc.depth x hc)
theorem EncEntries.depth {ind : Bool} : ∀ (ms : List (Bytes × Val)) {cs : List Bytes}, EncEntries ind ms cs →
    Depths cs (Val.depthEntries ms)
  | [], cs, h => by simp only [EncEntries] at h; subst h; exact .nil
  | (k, v) :: ms, cs, h => by
      simp only [EncEntries] at h
      obtain ⟨ck, c, cs', hk, hc, hcs, rfl⟩ := h
      have := ((EncEntries.depth ms hcs).cons (Enc.depth v hc)).cons (depth_text (.inr rfl) hk)
      have e : max 1 (max v.depth (Val.depthEntries ms)) = Val.depthEntries ((k, v) :: ms) := by
        have := v.one_le_depth
        simp only [Val.depthEntries]; omega
      rwa [e] at this
end

end Zer.Cbor
