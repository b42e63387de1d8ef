import Verif.Cbor.Safe

/-!
# CBOR: termination of the unchecked traversals, and safety on well-formed items
-/

namespace Zer.Cbor

open MsgPack (be be_length)

/-- No head at all with an 8-byte argument in `b` announces a number that wraps a 64-bit offset. -/
def NoHugeAll (b : Bytes) : Prop :=
  ∀ p x n, n < 2 ^ 64 → x.toNat % 32 = 27 → At b p (x :: be 8 n) → p + 9 + n < 2 ^ 64

theorem NoHugeAll.noHuge {b : Bytes} (h : NoHugeAll b) : NoHuge b := by
  intro p n hn ha
  rcases ha with ha | ha
  · exact h p _ n hn (by decide) ha
  · exact h p _ n hn (by decide) ha

theorem returns_ensure (raw c : Bool) : Returns (ensure raw c) := by
  unfold ensure; split
  · exact returns_pure _
  · exact returns_require _ _

theorem returns_getBe (v : Bytes) : ∀ n p acc, Returns (getBe v p n acc)
  | 0, _, _ => returns_pure _
  | n + 1, p, acc => .bind (returns_byteAt _ _) fun _ _ => returns_getBe v n _ _

theorem byteAt_lt {v : Bytes} {p x : Nat} (h : byteAt v p = .ok x) : p < v.length := by
  unfold byteAt at h; split at h
  · rename_i e; exact (List.getElem?_eq_some_iff.1 e).1
  · cases h

theorem getBe_le {v : Bytes} : ∀ {n p acc x : Nat}, getBe v p n acc = .ok x → n = 0 ∨ p + n ≤ v.length
  | 0, _, _, _, _ => .inl rfl
  | n + 1, p, acc, x, h => by
    obtain ⟨y, h1, h2⟩ := Res.bind_eq_ok.1 h
    have := byteAt_lt h1
    rcases getBe_le h2 with rfl | h3 <;> right <;> omega

theorem returns_readHead (raw : Bool) (v : Bytes) (p : Nat) : Returns (readHead raw v p) := by
  unfold readHead
  refine .bind (returns_ensure _ _) fun _ _ => .bind (returns_byteAt _ _) fun _ _ => ?_
  dsimp only
  repeat' split
  all_goals first
    | exact returns_pure _
    | exact returns_err _
    | exact .bind (returns_ensure _ _) fun _ _ => returns_pure _
    | exact .bind (returns_ensure _ _) fun _ _ => .bind (returns_byteAt _ _) fun _ _ => returns_pure _
    | exact .bind (returns_ensure _ _) fun _ _ => .bind (returns_getBe _ _ _ _) fun _ _ => returns_pure _

theorem readHead_ok {raw : Bool} {v : Bytes} {p : Nat} {h : Head} (hr : readHead raw v p = .ok h) :
    p < v.length ∧ 1 ≤ h.hlen ∧ h.hlen ≤ 9 ∧ (h.val < 2 ^ 32 ∨
      ∃ x : UInt8, x.toNat % 32 = 27 ∧ h.hlen = 9 ∧ h.val < 2 ^ 64 ∧ At v p (x :: be 8 h.val)) := by
  unfold readHead at hr
  obtain ⟨_, _, hr⟩ := Res.bind_eq_ok.1 hr
  obtain ⟨b, hb, hr⟩ := Res.bind_eq_ok.1 hr
  have hp := byteAt_lt hb
  refine ⟨hp, ?_⟩
  dsimp only at hr
  split at hr
  · split at hr
    · injection hr with hr; subst hr; simp
    split at hr
    · injection hr with hr; subst hr; simp
    split at hr
    · injection hr with hr; subst hr; simp
    split at hr
    · obtain ⟨_, _, hr⟩ := Res.bind_eq_ok.1 hr; injection hr with hr; subst hr; simp
    split at hr <;> (injection hr with hr; subst hr; simp)
  split at hr
  · injection hr with hr; subst hr; simp; omega
  split at hr
  · obtain ⟨_, _, hr⟩ := Res.bind_eq_ok.1 hr
    obtain ⟨x, hx, hr⟩ := Res.bind_eq_ok.1 hr
    injection hr with hr; subst hr
    have hl := byteAt_lt hx
    have hx' := byteAt_ok hl
    rw [hx'] at hx; injection hx with hx
    have := v[p + 1].toNat_lt
    simp; omega
  split at hr
  · obtain ⟨_, _, hr⟩ := Res.bind_eq_ok.1 hr
    obtain ⟨x, hx, hr⟩ := Res.bind_eq_ok.1 hr
    injection hr with hr; subst hr
    obtain ⟨y, hy, hlt⟩ := getBe_ok (v := v) 2 (p := p + 1) (acc := 0) (by rcases getBe_le hx with h | h <;> omega)
    rw [hy] at hx; injection hx with hx
    simp; omega
  split at hr
  · obtain ⟨_, _, hr⟩ := Res.bind_eq_ok.1 hr
    obtain ⟨x, hx, hr⟩ := Res.bind_eq_ok.1 hr
    injection hr with hr; subst hr
    obtain ⟨y, hy, hlt⟩ := getBe_ok (v := v) 4 (p := p + 1) (acc := 0) (by rcases getBe_le hx with h | h <;> omega)
    rw [hy] at hx; injection hx with hx
    simp; omega
  split at hr
  · rename_i h27
    obtain ⟨_, _, hr⟩ := Res.bind_eq_ok.1 hr
    obtain ⟨x, hx, hr⟩ := Res.bind_eq_ok.1 hr
    injection hr with hr; subst hr
    have hl : p + 1 + 8 ≤ v.length := by rcases getBe_le hx with h | h <;> omega
    obtain ⟨y, hy, hlt⟩ := getBe_ok (v := v) 8 (p := p + 1) (acc := 0) hl
    have hnum := getBe_num hl hx
    have hb' := byteAt_ok hp
    rw [hb'] at hb; injection hb with hb
    refine ⟨by simp, by simp, .inr ⟨v[p], by rw [hb]; exact h27, rfl, ?_, ?_⟩⟩
    · rw [hy] at hx; injection hx with hx; simp; omega
    · have hs : At v p ((v.drop p).take 9) := At.of_slice (by omega)
      have e : (v.drop p).take 9 = v[p] :: (v.drop (p + 1)).take 8 := by
        rw [List.drop_eq_getElem_cons hp]; rfl
      rw [e] at hs
      have hl' : ((v.drop (p + 1)).take 8).length = 8 := by simp; omega
      simp only
      rw [← hnum, be_num 8 hl']
      exact hs
  split at hr
  · injection hr with hr; subst hr; simp
  split at hr
  · injection hr with hr; subst hr; simp
  · cases hr

theorem no_wrap_all {raw : Bool} {v : Bytes} (hn : NoHugeAll v) (hv : v.length < 2 ^ 63) {p : Nat}
    {h : Head} (hr : readHead raw v p = .ok h) : p + h.hlen + h.val < 2 ^ 64 := by
  obtain ⟨h1, h2, h3, h4 | ⟨x, hx, e, hv', ha⟩⟩ := readHead_ok hr
  · omega
  · rw [e]; exact hn p x _ hv' hx ha

/-- The call returns; if it succeeds it has moved forward. -/
def Adv (q : Nat) (x : Res Nat) : Prop := Returns x ∧ ∀ r, x = .ok r → q < r

theorem Adv.weaken {q q' : Nat} {x : Res Nat} (h : Adv q x) (hq : q' ≤ q) : Adv q' x :=
  ⟨h.1, fun r hr => by have := h.2 r hr; omega⟩

theorem Adv.ok {q r : Nat} (h : q < r) : Adv q (.ok r) :=
  ⟨returns_ok _, fun r' e => by injection e with e; omega⟩

theorem Adv.bind {α : Type} {q : Nat} {x : Res α} {g : α → Res Nat} (hx : Returns x)
    (hg : ∀ a, x = .ok a → Adv q (g a)) : Adv q (x >>= g) := by
  refine ⟨.bind hx fun a ha => (hg a ha).1, fun r hr => ?_⟩
  obtain ⟨a, ha, hr⟩ := Res.bind_eq_ok.1 hr
  exact (hg a ha).2 r hr

theorem chunks_adv {raw : Bool} {v : Bytes} (hn : NoHugeAll v) (hv : v.length < 2 ^ 63) (m : Nat) :
    ∀ (f q : Nat), v.length - q < f → Adv q (chunks raw v m f q)
  | f + 1, q, hf => by
    unfold chunks
    refine .bind (returns_ensure _ _) fun _ _ => .bind (returns_byteAt _ _) fun b hb => ?_
    have hq := byteAt_lt hb
    split
    · exact .ok (by omega)
    · refine .bind (returns_readHead _ _ _) fun h hr => .bind (returns_ensure _ _) fun _ _ =>
        .bind (returns_ensure _ _) fun _ _ => ?_
      have hw := no_wrap_all hn hv hr
      obtain ⟨_, h1, -⟩ := readHead_ok hr
      have e : u64 (q + (h.hlen + h.val)) = q + h.hlen + h.val := by
        rw [← Nat.add_assoc]; exact u64_of_lt hw
      rw [e]
      exact (chunks_adv hn hv m f _ (by omega)).weaken (by omega)

theorem items_adv {rec : Nat → Res Nat} {q0 : Nat} (hr : ∀ q, q0 ≤ q → Adv q (rec q)) :
    ∀ (n q : Nat), q0 ≤ q → Returns (items rec n q) ∧
      ∀ r, items rec n q = .ok r → q ≤ r ∧ (0 < n → q < r)
  | 0, q, _ => ⟨returns_pure _, fun r h => by
      simp only [items, Res.pure_eq, Res.ok.injEq] at h; omega⟩
  | n + 1, q, hq => by
    obtain ⟨h1, h2⟩ := hr q hq
    refine ⟨.bind h1 fun r hrr => (items_adv hr n r (by have := h2 r hrr; omega)).1, fun r h => ?_⟩
    obtain ⟨s, hs, h⟩ := Res.bind_eq_ok.1 h
    have := h2 s hs
    have := ((items_adv hr n s (by omega)).2 r h).1
    exact ⟨by omega, fun _ => by omega⟩

theorem untilBreak_adv {raw : Bool} {v : Bytes} {rec : Nat → Res Nat} {q0 k : Nat} (hk : 0 < k)
    (hr : ∀ q, q0 ≤ q → Adv q (rec q)) : ∀ (f q : Nat), v.length - q < f → q0 ≤ q →
    Adv q (untilBreak raw v rec k f q)
  | f + 1, q, hf, hq => by
    unfold untilBreak
    refine .bind (returns_ensure _ _) fun _ _ => .bind (returns_byteAt _ _) fun b hb => ?_
    have hql := byteAt_lt hb
    split
    · exact .ok (by omega)
    · obtain ⟨h1, h2⟩ := items_adv hr k q hq
      refine .bind h1 fun r hrr => ?_
      have h3 := (h2 r hrr).2 hk
      exact (untilBreak_adv hk hr f r (by omega) (by omega)).weaken (by omega)

theorem skip_adv {raw : Bool} {v : Bytes} (hn : NoHugeAll v) (hv : v.length < 2 ^ 63) :
    ∀ (f p : Nat), v.length - p < f → Adv p (skip raw v f p)
  | f + 1, p, hf => by
    unfold skip
    refine .bind (returns_readHead _ _ _) fun h hr => ?_
    have hw := no_wrap_all hn hv hr
    obtain ⟨h0, h1, -⟩ := readHead_ok hr
    have ih : ∀ q, p + h.hlen ≤ q → Adv q (skip raw v f q) := fun q hq =>
      skip_adv hn hv f q (by omega)
    have itm : ∀ n, Adv p (items (skip raw v f) n (p + h.hlen)) := by
      intro n
      obtain ⟨hc, hk⟩ := items_adv ih n (p + h.hlen) (Nat.le_refl _)
      exact ⟨hc, fun r hr => by have := (hk r hr).1; omega⟩
    have ens : ∀ c n, Adv p (ensure raw c >>= fun _ => (pure (p + h.hlen + n) : Res Nat)) := fun c n =>
      .bind (returns_ensure _ _) fun _ _ => .ok (by omega)
    dsimp only
    split
    · exact .ok (by omega)
    split
    · split
      · exact (chunks_adv hn hv _ f _ (by omega)).weaken (by omega)
      · rw [u64_of_lt hw]; exact ens _ _
    split
    · split
      · exact (untilBreak_adv (by omega) ih f _ (by omega) (Nat.le_refl _)).weaken (by omega)
      · exact itm _
    split
    · split
      · exact (untilBreak_adv (by omega) ih f _ (by omega) (Nat.le_refl _)).weaken (by omega)
      · exact itm _
    split
    · exact (ih _ (Nat.le_refl _)).weaken (by omega)
    split
    · exact ens _ _
    split
    · exact ens _ _
    split
    · exact ens _ _
    split
    · exact ens _ _
    · exact .ok (by omega)

theorem returns_range (hard : Bool) (v : Bytes) (q n : Nat) : Returns (View.range hard v q n) := by
  unfold View.range; split
  · exact fun h => by cases h
  · exact returns_sliceAt _ _ _

/-- `operator*` of the key iterator reads at the cursor. -/
theorem keyDeref_lt {hard : Bool} {f : Nat} {v : Bytes} {q : Nat} {k : Bytes}
    (h : View.keyDeref hard f v q = .ok k) : q < v.length := by
  obtain ⟨kh, hr, _⟩ := Res.bind_eq_ok.1 h
  exact (readHead_ok hr).1

section
variable {b : Bytes} (hn : NoHugeAll b) (hv : b.length < 2 ^ 63) {f : Nat} (hf : b.length < f)
include hn hv hf

theorem returns_keyDeref (q : Nat) : Returns (View.keyDeref false f b q) := by
  unfold View.keyDeref
  refine .bind (returns_readHead _ _ _) fun kh _ => ?_
  split
  · exact returns_range _ _ _ _
  · exact (asString_clean hn.noHuge hv hf q).returns

theorem returns_keysFromN (stop : Nat) : ∀ (g q n : Nat), b.length - q < g →
    items (skip true b f) (2 * n) q = .ok stop →
    Returns (View.keysFrom false f b false stop g q n)
  | g + 1, q, n, hg, hs => by
    unfold View.keysFrom
    split
    · exact returns_pure _
    · rename_i hne
      refine .bind (returns_keyDeref hn hv hf q) fun k hk => ?_
      have hq := keyDeref_lt hk
      cases n with
      | zero => simp only [Nat.mul_zero, items, Res.pure_eq, Res.ok.injEq] at hs; exact absurd hs hne
      | succ n =>
        rw [show 2 * (n + 1) = 2 * n + 1 + 1 by omega] at hs
        simp only [items] at hs
        obtain ⟨r, hr, hs⟩ := Res.bind_eq_ok.1 hs
        obtain ⟨s, hr', hs⟩ := Res.bind_eq_ok.1 hs
        have a1 := (skip_adv (raw := true) hn hv f q (by omega)).2 r hr
        have a2 := (skip_adv (raw := true) hn hv f r (by omega)).2 s hr'
        simp only [View.keyNext, Bool.false_eq_true, if_false, if_neg (Nat.succ_ne_zero n), hr, hr',
          Res.ok_bind, Res.pure_eq, Nat.add_sub_cancel]
        exact .bind (returns_keysFromN stop g s n (by omega) hs) fun _ _ => returns_ok _

theorem returns_keysFromB (stop : Nat) : ∀ (g q n : Nat), b.length - q < g →
    Returns (View.keysFrom false f b true stop g q n)
  | g + 1, q, n, hg => by
    unfold View.keysFrom
    split
    · exact returns_pure _
    · refine .bind (returns_keyDeref hn hv hf q) fun k hk => ?_
      have hq := keyDeref_lt hk
      by_cases hb : b[q].toNat = 0xff
      · exfalso
        have hat : At b q [0xff] := by
          have := At.of_slice (b := b) (o := q) (n := 1) (by omega)
          rw [List.drop_eq_getElem_cons hq, List.take_succ_cons, List.take_zero] at this
          have e : b[q] = 0xff := UInt8.toNat_inj.1 (by rw [hb]; rfl)
          rw [e] at this; exact this
        rw [keyDeref_break hat] at hk; cases hk
      · simp only [View.keyNext, if_true, byteAt_ok hq, Res.ok_bind, if_neg hb, bind_assoc]
        obtain ⟨a1, a2⟩ := skip_adv (raw := true) hn hv f q (by omega)
        refine .bind a1 fun r hr => ?_
        have := a2 r hr
        obtain ⟨a3, a4⟩ := skip_adv (raw := true) hn hv f r (by omega)
        refine .bind a3 fun s hs => ?_
        have := a4 s hs
        simp only [Res.pure_eq, Res.ok_bind]
        exact .bind (returns_keysFromB stop g s n (by omega)) fun _ _ => returns_ok _

theorem returns_mapKeys (p : Nat) : Returns (View.mapKeys false f ⟨b, p⟩) := by
  unfold View.mapKeys
  refine .bind (returns_readHead _ _ _) fun _ _ => .bind (returns_require _ _) fun _ _ =>
    .bind (returns_readHead _ _ _) fun h hr => ?_
  have ih : ∀ q, p + h.hlen ≤ q → Adv q (skip true b f q) := fun q _ =>
    skip_adv hn hv f q (by omega)
  have he : View.keysEnd f b p = (if h.indef then untilBreak true b (skip true b f) 2 f (p + h.hlen)
      else items (skip true b f) (2 * h.val) (p + h.hlen)) := by
    simp only [View.keysEnd, hr, Res.ok_bind]
  refine .bind ?_ fun stop hs => ?_
  · rw [he]; split
    · exact (untilBreak_adv (by omega) ih f _ (by omega) (Nat.le_refl _)).1
    · exact (items_adv ih _ _ (Nat.le_refl _)).1
  · rw [he] at hs
    cases hi : h.indef
    · rw [hi] at hs
      exact returns_keysFromN hn hv hf stop f _ _ (by omega) hs
    · exact returns_keysFromB hn hv hf stop f _ _ (by omega)

omit hv hn hf in
theorem returns_keyAt {b : Bytes} (hn : NoHuge b) (hv : b.length < 2 ^ 63) {f : Nat}
    (hf : b.length < f) (q : Nat) : Returns (View.keyAt false f b q) := by
  unfold View.keyAt
  refine .bind (returns_readHead _ _ _) fun kh _ => ?_
  split
  · exact returns_range _ _ _ _
  · exact (asString_clean hn hv hf q).returns

end

section
variable {b : Bytes} (hn : NoHuge b) (hv : b.length < 2 ^ 63) {f : Nat} (hf : b.length < f)
include hn hv hf

theorem returns_containsN (key : Bytes) : ∀ (n q : Nat), Returns (View.containsN false f b key n q)
  | 0, _ => returns_pure _
  | n + 1, q => by
    unfold View.containsN
    refine .bind (returns_keyAt hn hv hf q) fun _ _ => ?_
    split
    · exact returns_pure _
    · exact .bind (skip_clean hn hv hf q).returns fun r _ =>
        .bind (skip_clean hn hv hf r).returns fun s _ => returns_containsN key n s

theorem containsB_clean (key : Bytes) : ∀ (g q : Nat), b.length - q < g →
    (View.containsB false f b key g q).Clean
  | g + 1, q, hg => by
    unfold View.containsB
    refine .bind (.require _) fun _ hq => ?_
    rw [Res.require_eq_ok, decide_eq_true_iff] at hq
    rw [byteAt_ok hq, Res.ok_bind]
    split
    · exact .pure _
    · refine .bind (asString_clean hn hv hf q) fun k _ => ?_
      obtain ⟨a1, a2⟩ := skip_fwd hn hv f q (by omega)
      refine .bind a1 fun r hr => ?_
      have h1 := a2 r hr
      split
      · exact .pure _
      · obtain ⟨a3, a4⟩ := skip_fwd hn hv f r (by omega)
        refine .bind a3 fun s hs => ?_
        have h2 := a4 s hs
        exact containsB_clean key g s (by omega)

theorem returns_contains (p : Nat) (key : Bytes) : Returns (View.contains false f ⟨b, p⟩ key) := by
  unfold View.contains
  refine .bind (returns_readHead _ _ _) fun h _ => ?_
  dsimp only
  split
  · split
    · exact (containsB_clean hn hv hf key f _ (by omega)).returns
    · exact returns_containsN hn hv hf key _ _
  · exact returns_pure _

end

/-! ## Well-formed items -/

theorem Item.head {b : Bytes} (h : Item b) {v : Bytes} {p : Nat} (ha : At v p b) :
    ∃ hd, readHead false v p = .ok hd := by
  have hb := ha.bound
  cases h with
  | num hm hh => obtain ⟨a, hr⟩ := hh.read (by omega) false ha; exact ⟨_, hr⟩
  | str hm ht =>
    cases ht with
    | definite hh => obtain ⟨a, hr⟩ := hh.read (by omega) false ha.left; exact ⟨_, hr⟩
    | chunked => exact ⟨_, indef_read (by omega) false ha⟩
  | arr _ hg =>
    cases hg with
    | definite hh => obtain ⟨a, hr⟩ := hh.read (by omega) false ha.left; exact ⟨_, hr⟩
    | indef => exact ⟨_, indef_read (by omega) false ha⟩
  | map _ _ hg =>
    cases hg with
    | definite hh => obtain ⟨a, hr⟩ := hh.read (by omega) false ha.left; exact ⟨_, hr⟩
    | indef => exact ⟨_, indef_read (by omega) false ha⟩
  | tag hh _ => obtain ⟨a, hr⟩ := hh.read (by omega) false ha.left; exact ⟨_, hr⟩
  | simple hn => exact ⟨_, simple_read hn false ha⟩
  | flt hx => exact ⟨_, flt_read false hx ha⟩

theorem fineF (v : Bytes) (n : Nat) (e : Prop) : Fine false v n e := fun h => by cases h

/-- An item that is not text has a head that is not text, whichever copy of `read_head` reads it. -/
theorem Item.not_text {b : Bytes} (h : Item b) {v : Bytes} {p : Nat} (ha : At v p b) :
    (∃ ind s, Text ind 3 s b) ∨ (∀ raw, ∃ hd, readHead raw v p = .ok hd ∧ hd.major ≠ 3) := by
  cases h with
  | num hm hh => right; intro raw; obtain ⟨a, hr⟩ := hh.read (by omega) raw ha; exact ⟨_, hr, by simp; omega⟩
  | @str ind m s _ hm ht =>
    rcases hm with rfl | rfl
    · right; intro raw
      cases ht with
      | definite hh => obtain ⟨a, hr⟩ := hh.read (by omega) raw ha.left; exact ⟨_, hr, by simp⟩
      | chunked => exact ⟨_, indef_read (by omega) raw ha, by simp⟩
    · exact .inl ⟨_, _, ht⟩
  | arr _ hg =>
    right; intro raw
    cases hg with
    | definite hh => obtain ⟨a, hr⟩ := hh.read (by omega) raw ha.left; exact ⟨_, hr, by simp⟩
    | indef => exact ⟨_, indef_read (by omega) raw ha, by simp⟩
  | map _ _ hg =>
    right; intro raw
    cases hg with
    | definite hh => obtain ⟨a, hr⟩ := hh.read (by omega) raw ha.left; exact ⟨_, hr, by simp⟩
    | indef => exact ⟨_, indef_read (by omega) raw ha, by simp⟩
  | tag hh _ => right; intro raw; obtain ⟨a, hr⟩ := hh.read (by omega) raw ha.left; exact ⟨_, hr, by simp⟩
  | simple hn => right; intro raw; exact ⟨_, simple_read hn raw ha, by simp⟩
  | flt hx => right; intro raw; exact ⟨_, flt_read raw hx ha, by simp⟩

section
variable {v : Bytes} (hv : v.length < 2 ^ 64) {f : Nat} (hf : v.length ≤ f)
include hv hf

theorem Item.asString {b : Bytes} (h : Item b) {p : Nat} (ha : At v p b) :
    (View.asString false f ⟨v, p⟩).Clean := by
  rcases h.not_text ha with ⟨ind, s, ht⟩ | hd
  · rw [asString_text ht hv ha (fineF _ _ _) hf]; exact .ok _
  · obtain ⟨hd, hr, hm⟩ := hd false
    simp only [View.asString, View.head, hr, Res.ok_bind, decide_eq_false hm, Res.require_false, Res.err_bind]
    exact .inr rfl

theorem Item.keyAt {b : Bytes} (h : Item b) {p : Nat} (ha : At v p b) :
    (View.keyAt false f v p).Clean := by
  rcases h.not_text ha with ⟨ind, s, ht⟩ | hd
  · rw [keyAt_text ht hv ha (fineF _ _ _) hf]; exact .ok _
  · obtain ⟨hd, hr, hm⟩ := hd false
    simp only [View.keyAt, hr, Res.ok_bind, hm, false_and, if_false]
    exact h.asString hv hf ha

theorem Item.keyDeref {b : Bytes} (h : Item b) {p : Nat} (ha : At v p b) :
    (View.keyDeref false f v p).Clean := by
  rcases h.not_text ha with ⟨ind, s, ht⟩ | hd
  · rw [keyDeref_text ht hv ha (fineF _ _ _) hf]; exact .ok _
  · obtain ⟨hd, hr, hm⟩ := hd true
    simp only [View.keyDeref, hr, Res.ok_bind, hm, false_and, if_false]
    exact h.asString hv hf ha

omit hv hf in
theorem Item.asDouble {b : Bytes} (h : Item b) {p : Nat} (ha : At v p b) :
    (View.asDouble ⟨v, p⟩).Clean := by
  obtain ⟨hd, hr⟩ := h.head ha
  have no : hd.major ≠ 7 ∨ (hd.addl ≠ 25 ∧ hd.addl ≠ 26 ∧ hd.addl ≠ 27) →
      (View.asDouble ⟨v, p⟩).Clean := by
    intro hm
    have : decide (hd.major = 7 ∧ (hd.addl = 25 ∨ hd.addl = 26 ∨ hd.addl = 27)) = false := by
      apply decide_eq_false; omega
    simp only [View.asDouble, View.isFloat, View.head, hr, Res.ok_bind, Res.pure_eq, this,
      Res.require_false, Res.err_bind]
    exact .inr rfl
  have byH : ∀ {h' : Head}, readHead false v p = .ok h' → hd = h' := by
    intro h' e; rw [hr] at e; injection e
  cases h with
  | num hm hh => obtain ⟨a, hr'⟩ := hh.read (by omega) false ha; exact no (by rw [byH hr']; simp; omega)
  | str hm ht =>
    cases ht with
    | definite hh => obtain ⟨a, hr'⟩ := hh.read (by omega) false ha.left; exact no (by rw [byH hr']; simp; omega)
    | chunked => exact no (by rw [byH (indef_read (by omega) false ha)]; simp)
  | arr _ hg =>
    cases hg with
    | definite hh => obtain ⟨a, hr'⟩ := hh.read (by omega) false ha.left; exact no (by rw [byH hr']; simp)
    | indef => exact no (by rw [byH (indef_read (by omega) false ha)]; simp)
  | map _ _ hg =>
    cases hg with
    | definite hh => obtain ⟨a, hr'⟩ := hh.read (by omega) false ha.left; exact no (by rw [byH hr']; simp)
    | indef => exact no (by rw [byH (indef_read (by omega) false ha)]; simp)
  | tag hh _ => obtain ⟨a, hr'⟩ := hh.read (by omega) false ha.left; exact no (by rw [byH hr']; simp)
  | simple hn => exact no (by rw [byH (simple_read hn false ha)]; simp; omega)
  | @flt x p' hx =>
    have hb := ha.bound
    have hr' := flt_read false hx ha
    simp only [View.asDouble, View.isFloat, View.head, hr', Res.ok_bind, Res.pure_eq]
    rcases hx with ⟨rfl, hl⟩ | ⟨rfl, hl⟩ | ⟨rfl, hl⟩
    · simp only [List.length_cons, hl] at hb
      simp [byteAt_ok (show p + 1 < v.length by omega), byteAt_ok (show p + 1 + 1 < v.length by omega)]
      exact .ok _
    · simp only [List.length_cons, hl] at hb
      obtain ⟨y, hy, _⟩ := getBe_ok (v := v) 4 (p := p + 1) (acc := 0) (by omega)
      simp [hy]
      exact .ok _
    · simp only [List.length_cons, hl] at hb
      obtain ⟨y, hy, _⟩ := getBe_ok (v := v) 8 (p := p + 1) (acc := 0) (by omega)
      simp [hy]
      exact .ok _

theorem keysFromN_clean : ∀ {n : Nat} {cs : List Bytes} {p g : Nat}, cs.length = 2 * n →
    (∀ c ∈ cs, Item c) → At v p cs.flatten → n < g →
    (View.keysFrom false f v false (p + cs.flatten.length) g p n).Clean
  | 0, cs, p, g, hl, hi, ha, hg => by
    obtain ⟨g, rfl⟩ : ∃ k, g = k + 1 := ⟨g - 1, by omega⟩
    have : cs = [] := List.length_eq_zero_iff.1 (by omega)
    subst this
    simp [View.keysFrom]; exact .pure _
  | n + 1, cs, p, g, hl, hi, ha, hg => by
    obtain ⟨g, rfl⟩ : ∃ k, g = k + 1 := ⟨g - 1, by omega⟩
    match cs, hl with
    | ck :: c :: cs', hl =>
      have ha' : At v p ((ck ++ c) ++ cs'.flatten) := by simpa using ha
      have hik := hi ck (by simp)
      have hic := hi c (by simp)
      have hp1 := hik.pos
      have e : p + (ck :: c :: cs').flatten.length = p + (ck ++ c).length + cs'.flatten.length := by
        simp only [List.flatten_cons, List.length_append]; omega
      have hne : ¬ p = p + (ck :: c :: cs').flatten.length := by
        simp only [List.flatten_cons, List.length_append]; omega
      have hnx := keyNext_at (raw := false) hv hf hik hic ha'.left (n := n + 1) (by simp)
      have ih := keysFromN_clean (g := g) (n := n) (by simp at hl; omega)
        (fun d hd => hi d (by simp [hd])) ha'.right (by omega)
      unfold View.keysFrom
      rw [if_neg hne]
      refine .bind (hik.keyDeref hv hf ha'.left.left) fun k _ => ?_
      simp only [hnx, Res.ok_bind, Bool.false_eq_true, if_false, Nat.add_sub_cancel, e]
      exact .bind ih fun _ _ => .pure _

theorem keysFromB_clean : ∀ {n : Nat} {cs : List Bytes} {p g : Nat}, cs.length = 2 * n →
    (∀ c ∈ cs, Item c) → At v p (cs.flatten ++ [0xff]) → n < g →
    (View.keysFrom false f v true (p + (cs.flatten ++ [0xff]).length) g p 0).Clean
  | 0, cs, p, g, hl, hi, ha, hg => by
    obtain ⟨g, rfl⟩ : ∃ k, g = k + 1 := ⟨g - 1, by omega⟩
    have : cs = [] := List.length_eq_zero_iff.1 (by omega)
    subst this
    unfold View.keysFrom
    rw [if_neg (by simp), keyDeref_break ha]
    exact .inr rfl
  | n + 1, cs, p, g, hl, hi, ha, hg => by
    obtain ⟨g, rfl⟩ : ∃ k, g = k + 1 := ⟨g - 1, by omega⟩
    match cs, hl with
    | ck :: c :: cs', hl =>
      have ha' : At v p ((ck ++ c) ++ (cs'.flatten ++ [0xff])) := by simpa using ha
      have hik := hi ck (by simp)
      have hic := hi c (by simp)
      have hp1 := hik.pos
      have e : p + ((ck :: c :: cs').flatten ++ [0xff]).length =
          p + (ck ++ c).length + (cs'.flatten ++ [0xff]).length := by
        simp only [List.flatten_cons, List.length_append]; omega
      have hne : ¬ p = p + ((ck :: c :: cs').flatten ++ [0xff]).length := by
        simp only [List.flatten_cons, List.length_append]; omega
      have hnx := keyNext_at (raw := true) hv hf hik hic ha'.left (n := 0) (by simp)
      have ih := keysFromB_clean (g := g) (n := n) (by simp at hl; omega)
        (fun d hd => hi d (by simp [hd])) ha'.right (by omega)
      unfold View.keysFrom
      rw [if_neg hne]
      refine .bind (hik.keyDeref hv hf ha'.left.left) fun k _ => ?_
      simp only [hnx, Res.ok_bind, if_true, e]
      exact .bind ih fun _ _ => .pure _

theorem containsN_clean (key : Bytes) : ∀ {n : Nat} {cs : List Bytes} {p : Nat}, cs.length = 2 * n →
    (∀ c ∈ cs, Item c) → At v p cs.flatten → (View.containsN false f v key n p).Clean
  | 0, _, _, _, _, _ => .pure _
  | n + 1, cs, p, hl, hi, ha => by
    match cs, hl with
    | ck :: c :: cs', hl =>
      have ha' : At v p ((ck ++ c) ++ cs'.flatten) := by simpa using ha
      have hb := ha'.bound
      simp only [List.length_append] at hb
      have hik := hi ck (by simp)
      have hic := hi c (by simp)
      unfold View.containsN
      refine .bind (hik.keyAt hv hf ha'.left.left) fun k _ => ?_
      split
      · exact .pure _
      · rw [hik.skip false hv ha'.left.left (by omega), Res.ok_bind,
          hic.skip false hv ha'.left.right (by omega), Res.ok_bind]
        refine containsN_clean (n := n) (cs := cs') key (by simp at hl; omega) (fun d hd => hi d (by simp [hd])) ?_
        have := ha'.right
        rwa [List.length_append, ← Nat.add_assoc] at this

theorem containsB_item (key : Bytes) : ∀ {n : Nat} {cs : List Bytes} {p g : Nat}, cs.length = 2 * n →
    (∀ c ∈ cs, Item c) → At v p (cs.flatten ++ [0xff]) → n < g →
    (View.containsB false f v key g p).Clean
  | 0, cs, p, g, hl, hi, ha, hg => by
    obtain ⟨g, rfl⟩ : ∃ k, g = k + 1 := ⟨g - 1, by omega⟩
    have : cs = [] := List.length_eq_zero_iff.1 (by omega)
    subst this
    have ha' : At v p [0xff] := ha
    simp [View.containsB, at_lt ha', break_lt ha']
    exact .ok _
  | n + 1, cs, p, g, hl, hi, ha, hg => by
    obtain ⟨g, rfl⟩ : ∃ k, g = k + 1 := ⟨g - 1, by omega⟩
    match cs, hl with
    | ck :: c :: cs', hl =>
      have ha' : At v p ((ck ++ c) ++ (cs'.flatten ++ [0xff])) := by simpa using ha
      have hb := ha'.bound
      simp only [List.length_append] at hb
      have hik := hi ck (by simp)
      have hic := hi c (by simp)
      have hp1 := hik.pos
      have hq : p < v.length := by omega
      obtain ⟨x, u, hx, hx'⟩ := hik.first
      have hxa : At v p (x :: u) := hx ▸ ha'.left.left
      unfold View.containsB
      rw [decide_eq_true hq, Res.require_true, Res.ok_bind, at_byte hxa, Res.ok_bind, if_neg (by omega)]
      refine .bind (hik.asString hv hf ha'.left.left) fun k _ => ?_
      rw [hik.skip false hv ha'.left.left (by omega), Res.ok_bind]
      split
      · exact .pure _
      · rw [hic.skip false hv ha'.left.right (by omega), Res.ok_bind]
        refine containsB_item key (n := n) (cs := cs') (by simp at hl; omega) (fun d hd => hi d (by simp [hd])) ?_ (by omega)
        have := ha'.right
        rwa [List.length_append, ← Nat.add_assoc] at this

theorem Item.contains {b : Bytes} (h : Item b) {p : Nat} (ha : At v p b) (key : Bytes) :
    (View.contains false f ⟨v, p⟩ key).Clean := by
  obtain ⟨hd, hr⟩ := h.head ha
  have byH : ∀ {h' : Head}, readHead false v p = .ok h' → hd = h' := by
    intro h' e; rw [hr] at e; injection e
  have no : hd.major ≠ 5 → (View.contains false f ⟨v, p⟩ key).Clean := by
    intro hm
    simp only [View.contains, View.head, hr, Res.ok_bind, if_neg hm]
    exact .pure _
  have hb := ha.bound
  cases h with
  | num hm hh => obtain ⟨a, hr'⟩ := hh.read (by omega) false ha; exact no (by rw [byH hr']; simp; omega)
  | str hm ht =>
    cases ht with
    | definite hh => obtain ⟨a, hr'⟩ := hh.read (by omega) false ha.left; exact no (by rw [byH hr']; simp; omega)
    | chunked => exact no (by rw [byH (indef_read (by omega) false ha)]; simp; omega)
  | arr _ hg =>
    cases hg with
    | definite hh => obtain ⟨a, hr'⟩ := hh.read (by omega) false ha.left; exact no (by rw [byH hr']; simp)
    | indef => exact no (by rw [byH (indef_read (by omega) false ha)]; simp)
  | @map ind n cs _ hl hi hg =>
    have hge := flatten_ge (fun c hc => (hi c hc).pos)
    cases hg with
    | definite hh =>
      obtain ⟨a, hr'⟩ := hh.read (by omega) false ha.left
      simp only [View.contains, View.head, hr', Res.ok_bind, if_true, Bool.false_eq_true, if_false]
      exact containsN_clean hv hf key hl hi ha.right
    | indef =>
      simp only [List.length_cons, List.length_append, List.length_nil] at hb
      simp only [View.contains, View.head, indef_read (show 5 ≤ 6 by omega) false ha, Res.ok_bind, if_true]
      exact containsB_item hv hf key hl hi (at_tail ha) (by omega)
  | tag hh _ => obtain ⟨a, hr'⟩ := hh.read (by omega) false ha.left; exact no (by rw [byH hr']; simp)
  | simple hn => exact no (by rw [byH (simple_read hn false ha)]; simp)
  | flt hx => exact no (by rw [byH (flt_read false hx ha)]; simp)

theorem Item.mapKeys {b : Bytes} (h : Item b) {p : Nat} (ha : At v p b) :
    (View.mapKeys false f ⟨v, p⟩).Clean := by
  obtain ⟨hd, hr⟩ := h.head ha
  have byH : ∀ {h' : Head}, readHead false v p = .ok h' → hd = h' := by
    intro h' e; rw [hr] at e; injection e
  have no : hd.major ≠ 5 → (View.mapKeys false f ⟨v, p⟩).Clean := by
    intro hm
    simp only [View.mapKeys, View.head, hr, Res.ok_bind, decide_eq_false hm, Res.require_false, Res.err_bind]
    exact .inr rfl
  have hb := ha.bound
  cases h with
  | num hm hh => obtain ⟨a, hr'⟩ := hh.read (by omega) false ha; exact no (by rw [byH hr']; simp; omega)
  | str hm ht =>
    cases ht with
    | definite hh => obtain ⟨a, hr'⟩ := hh.read (by omega) false ha.left; exact no (by rw [byH hr']; simp; omega)
    | chunked => exact no (by rw [byH (indef_read (by omega) false ha)]; simp; omega)
  | arr _ hg =>
    cases hg with
    | definite hh => obtain ⟨a, hr'⟩ := hh.read (by omega) false ha.left; exact no (by rw [byH hr']; simp)
    | indef => exact no (by rw [byH (indef_read (by omega) false ha)]; simp)
  | @map ind n cs _ hl hi hg =>
    have hge := flatten_ge (fun c hc => (hi c hc).pos)
    have he := keysEnd_at hi hl hg hv ha hf
    cases hg with
    | @definite h hh =>
      obtain ⟨a, hr'⟩ := hh.read (by omega) false ha.left
      obtain ⟨a', hr2⟩ := hh.read (by omega) true ha.left
      simp only [List.length_append] at hb
      have hp := hh.pos
      simp only [View.mapKeys, View.head, hr', hr2, Res.ok_bind, he, decide_true, Res.require_true,
        Bool.false_eq_true, if_false]
      have := keysFromN_clean hv hf hl hi ha.right (g := f) (by omega)
      rwa [List.length_append, ← Nat.add_assoc]
    | indef =>
      simp only [List.length_cons, List.length_append, List.length_nil] at hb
      simp only [View.mapKeys, View.head, indef_read (show 5 ≤ 6 by omega) _ ha, Res.ok_bind, he,
        decide_true, Res.require_true, if_true]
      have := keysFromB_clean hv hf hl hi (at_tail ha) (g := f) (by omega)
      rw [show p + (indefHd 5 :: (cs.flatten ++ [0xff])).length = p + 1 + (cs.flatten ++ [0xff]).length by
        simp only [List.length_cons]; omega]
      exact this
  | tag hh _ => obtain ⟨a, hr'⟩ := hh.read (by omega) false ha.left; exact no (by rw [byH hr']; simp)
  | simple hn => exact no (by rw [byH (simple_read hn false ha)]; simp)
  | flt hx => exact no (by rw [byH (flt_read false hx ha)]; simp)


/-- The call raises, or returns a position at which a well-formed item starts. -/
def AtItem (v : Bytes) (p : Nat) (x : Res View) : Prop :=
  x = .err .deser ∨ ∃ q c, x = .ok ⟨v, q⟩ ∧ Item c ∧ At v q c ∧ p < q

omit hv hf in
theorem AtItem.bind {α : Type} {p : Nat} {x : Res α} {g : α → Res View} (hx : x.Clean)
    (hg : ∀ a, x = .ok a → AtItem v p (g a)) : AtItem v p (x >>= g) := by
  rcases hx with ⟨a, rfl⟩ | rfl
  · exact hg a rfl
  · exact .inl rfl

theorem Item.getIdx {b : Bytes} (h : Item b) {p : Nat} (ha : At v p b) (idx : Nat) :
    AtItem v p (View.getIdx f ⟨v, p⟩ idx) := by
  obtain ⟨hd, hr⟩ := h.head ha
  have byH : ∀ {h' : Head}, readHead false v p = .ok h' → hd = h' := by
    intro h' e; rw [hr] at e; injection e
  have no : hd.major ≠ 4 → AtItem v p (View.getIdx f ⟨v, p⟩ idx) := by
    intro hm
    simp only [View.getIdx, View.head, hr, Res.ok_bind, decide_eq_false hm, Res.require_false, Res.err_bind]
    exact .inl rfl
  cases h with
  | num hm hh => obtain ⟨a, hr'⟩ := hh.read (by omega) false ha; exact no (by rw [byH hr']; simp; omega)
  | str hm ht =>
    cases ht with
    | definite hh => obtain ⟨a, hr'⟩ := hh.read (by omega) false ha.left; exact no (by rw [byH hr']; simp; omega)
    | chunked => exact no (by rw [byH (indef_read (by omega) false ha)]; simp; omega)
  | @arr ind cs _ hi hg =>
    obtain ⟨q, hq, _, hat, hget⟩ := getIdx_at hi hg hv ha hf
    rw [hget]
    split
    · rename_i hlt
      exact .inr ⟨_, cs[idx], rfl, hi _ (List.getElem_mem _), at_nth hat idx hlt, by omega⟩
    · exact .inl rfl
  | map _ _ hg =>
    cases hg with
    | definite hh => obtain ⟨a, hr'⟩ := hh.read (by omega) false ha.left; exact no (by rw [byH hr']; simp)
    | indef => exact no (by rw [byH (indef_read (by omega) false ha)]; simp)
  | tag hh _ => obtain ⟨a, hr'⟩ := hh.read (by omega) false ha.left; exact no (by rw [byH hr']; simp)
  | simple hn => exact no (by rw [byH (simple_read hn false ha)]; simp)
  | flt hx => exact no (by rw [byH (flt_read false hx ha)]; simp)

theorem Item.arraySize {b : Bytes} (h : Item b) {p : Nat} (ha : At v p b) :
    (View.arraySize f ⟨v, p⟩).Clean := by
  obtain ⟨hd, hr⟩ := h.head ha
  have byH : ∀ {h' : Head}, readHead false v p = .ok h' → hd = h' := by
    intro h' e; rw [hr] at e; injection e
  have no : hd.major ≠ 4 → (View.arraySize f ⟨v, p⟩).Clean := by
    intro hm
    simp only [View.arraySize, View.head, hr, Res.ok_bind, decide_eq_false hm, Res.require_false, Res.err_bind]
    exact .inr rfl
  cases h with
  | num hm hh => obtain ⟨a, hr'⟩ := hh.read (by omega) false ha; exact no (by rw [byH hr']; simp; omega)
  | str hm ht =>
    cases ht with
    | definite hh => obtain ⟨a, hr'⟩ := hh.read (by omega) false ha.left; exact no (by rw [byH hr']; simp; omega)
    | chunked => exact no (by rw [byH (indef_read (by omega) false ha)]; simp; omega)
  | @arr ind cs _ hi hg => rw [arraySize_at hi hg hv ha hf]; exact .ok _
  | map _ _ hg =>
    cases hg with
    | definite hh => obtain ⟨a, hr'⟩ := hh.read (by omega) false ha.left; exact no (by rw [byH hr']; simp)
    | indef => exact no (by rw [byH (indef_read (by omega) false ha)]; simp)
  | tag hh _ => obtain ⟨a, hr'⟩ := hh.read (by omega) false ha.left; exact no (by rw [byH hr']; simp)
  | simple hn => exact no (by rw [byH (simple_read hn false ha)]; simp)
  | flt hx => exact no (by rw [byH (flt_read false hx ha)]; simp)

theorem getKeyN_item (key : Bytes) {p0 : Nat} : ∀ {n : Nat} {cs : List Bytes} {p : Nat}, p0 < p →
    cs.length = 2 * n → (∀ c ∈ cs, Item c) → At v p cs.flatten →
    AtItem v p0 (View.getKeyN false f v key n p)
  | 0, _, _, _, _, _, _ => .inl rfl
  | n + 1, cs, p, hp, hl, hi, ha => by
    match cs, hl with
    | ck :: c :: cs', hl =>
      have ha' : At v p ((ck ++ c) ++ cs'.flatten) := by simpa using ha
      have hb := ha'.bound
      simp only [List.length_append] at hb
      have hik := hi ck (by simp)
      have hic := hi c (by simp)
      unfold View.getKeyN
      refine .bind (hik.asString hv hf ha'.left.left) fun k _ => ?_
      rw [hik.skip false hv ha'.left.left (by omega), Res.ok_bind]
      split
      · exact .inr ⟨_, c, rfl, hic, ha'.left.right, by omega⟩
      · rw [hic.skip false hv ha'.left.right (by omega), Res.ok_bind]
        refine getKeyN_item (n := n) (cs := cs') key (by omega) (by simp at hl; omega) (fun d hd => hi d (by simp [hd])) ?_
        have := ha'.right
        rwa [List.length_append, ← Nat.add_assoc] at this

theorem getKeyB_item (key : Bytes) {p0 : Nat} : ∀ {n : Nat} {cs : List Bytes} {p g : Nat}, p0 < p →
    cs.length = 2 * n → (∀ c ∈ cs, Item c) → At v p (cs.flatten ++ [0xff]) → n < g →
    AtItem v p0 (View.getKeyB false f v key g p)
  | 0, cs, p, g, hp, hl, hi, ha, hg => by
    obtain ⟨g, rfl⟩ : ∃ k, g = k + 1 := ⟨g - 1, by omega⟩
    have : cs = [] := List.length_eq_zero_iff.1 (by omega)
    subst this
    have ha' : At v p [0xff] := ha
    simp [View.getKeyB, at_lt ha', break_lt ha']
    exact .inl rfl
  | n + 1, cs, p, g, hp, hl, hi, ha, hg => by
    obtain ⟨g, rfl⟩ : ∃ k, g = k + 1 := ⟨g - 1, by omega⟩
    match cs, hl with
    | ck :: c :: cs', hl =>
      have ha' : At v p ((ck ++ c) ++ (cs'.flatten ++ [0xff])) := by simpa using ha
      have hb := ha'.bound
      simp only [List.length_append] at hb
      have hik := hi ck (by simp)
      have hic := hi c (by simp)
      have hp1 := hik.pos
      have hq : p < v.length := by omega
      obtain ⟨x, u, hx, hx'⟩ := hik.first
      have hxa : At v p (x :: u) := hx ▸ ha'.left.left
      unfold View.getKeyB
      rw [decide_eq_true hq, Res.require_true, Res.ok_bind, at_byte hxa, Res.ok_bind, if_neg (by omega)]
      refine .bind (hik.asString hv hf ha'.left.left) fun k _ => ?_
      rw [hik.skip false hv ha'.left.left (by omega), Res.ok_bind]
      split
      · exact .inr ⟨_, c, rfl, hic, ha'.left.right, by omega⟩
      · rw [hic.skip false hv ha'.left.right (by omega), Res.ok_bind]
        refine getKeyB_item key (n := n) (cs := cs') (by omega) (by simp at hl; omega) (fun d hd => hi d (by simp [hd])) ?_ (by omega)
        have := ha'.right
        rwa [List.length_append, ← Nat.add_assoc] at this

theorem Item.getKey {b : Bytes} (h : Item b) {p : Nat} (ha : At v p b) (key : Bytes) :
    AtItem v p (View.getKey false f ⟨v, p⟩ key) := by
  obtain ⟨hd, hr⟩ := h.head ha
  have byH : ∀ {h' : Head}, readHead false v p = .ok h' → hd = h' := by
    intro h' e; rw [hr] at e; injection e
  have no : hd.major ≠ 5 → AtItem v p (View.getKey false f ⟨v, p⟩ key) := by
    intro hm
    simp only [View.getKey, View.head, hr, Res.ok_bind, decide_eq_false hm, Res.require_false, Res.err_bind]
    exact .inl rfl
  have hb := ha.bound
  cases h with
  | num hm hh => obtain ⟨a, hr'⟩ := hh.read (by omega) false ha; exact no (by rw [byH hr']; simp; omega)
  | str hm ht =>
    cases ht with
    | definite hh => obtain ⟨a, hr'⟩ := hh.read (by omega) false ha.left; exact no (by rw [byH hr']; simp; omega)
    | chunked => exact no (by rw [byH (indef_read (by omega) false ha)]; simp; omega)
  | arr _ hg =>
    cases hg with
    | definite hh => obtain ⟨a, hr'⟩ := hh.read (by omega) false ha.left; exact no (by rw [byH hr']; simp)
    | indef => exact no (by rw [byH (indef_read (by omega) false ha)]; simp)
  | @map ind n cs _ hl hi hg =>
    have hge := flatten_ge (fun c hc => (hi c hc).pos)
    cases hg with
    | definite hh =>
      have hp := hh.pos
      obtain ⟨a, hr'⟩ := hh.read (by omega) false ha.left
      simp only [View.getKey, View.head, hr', Res.ok_bind, decide_true, Res.require_true, Bool.false_eq_true, if_false]
      exact getKeyN_item hv hf key (by omega) hl hi ha.right
    | indef =>
      simp only [List.length_cons, List.length_append, List.length_nil] at hb
      simp only [View.getKey, View.head, indef_read (show 5 ≤ 6 by omega) false ha, Res.ok_bind,
        decide_true, Res.require_true, if_true]
      exact getKeyB_item hv hf key (by omega) hl hi (at_tail ha) (by omega)
  | tag hh _ => obtain ⟨a, hr'⟩ := hh.read (by omega) false ha.left; exact no (by rw [byH hr']; simp)
  | simple hn => exact no (by rw [byH (simple_read hn false ha)]; simp)
  | flt hx => exact no (by rw [byH (flt_read false hx ha)]; simp)

/-- Strings and blobs of an item. -/
theorem Item.strings {b : Bytes} (h : Item b) {p : Nat} (ha : At v p b) :
    (View.asStringView false ⟨v, p⟩).Clean ∧ (View.asBlob false ⟨v, p⟩).Clean ∧
      (View.asBlobVec false f ⟨v, p⟩).Clean := by
  obtain ⟨hd, hr⟩ := h.head ha
  have byH : ∀ {h' : Head}, readHead false v p = .ok h' → hd = h' := by
    intro h' e; rw [hr] at e; injection e
  have n3 : hd.major ≠ 3 → (View.asStringView false ⟨v, p⟩).Clean := by
    intro hm
    simp only [View.asStringView, View.head, hr, Res.ok_bind, decide_eq_false hm, Res.require_false, Res.err_bind]
    exact .inr rfl
  have n2 : hd.major ≠ 2 → (View.asBlob false ⟨v, p⟩).Clean ∧ (View.asBlobVec false f ⟨v, p⟩).Clean := by
    intro hm
    simp only [View.asBlob, View.asBlobVec, View.head, hr, Res.ok_bind, decide_eq_false hm, Res.require_false, Res.err_bind]
    exact ⟨.inr rfl, .inr rfl⟩
  have no : hd.major ≠ 2 → hd.major ≠ 3 → (View.asStringView false ⟨v, p⟩).Clean ∧
      (View.asBlob false ⟨v, p⟩).Clean ∧ (View.asBlobVec false f ⟨v, p⟩).Clean :=
    fun h2 h3 => ⟨n3 h3, n2 h2⟩
  cases h with
  | num hm hh =>
    obtain ⟨a, hr'⟩ := hh.read (by omega) false ha
    exact no (by rw [byH hr']; simp; omega) (by rw [byH hr']; simp; omega)
  | @str ind m s _ hm ht =>
    rcases hm with rfl | rfl
    · obtain ⟨a, n, l, i, hr', _, h2, h3⟩ := ht.read (hard := false) (.inl rfl) hv ha (fineF _ _ _) hf
      refine ⟨n3 (by rw [byH hr']; simp), ?_, by rw [asBlobVec_text ht hv ha (fineF _ _ _) hf]; exact .ok _⟩
      simp only [View.asBlob, View.head, hr', Res.ok_bind, decide_true, Res.require_true]
      cases i
      · simp only [Bool.not_false, Res.require_true, Res.ok_bind]; rw [(h3 rfl).1]; exact .ok _
      · exact .inr rfl
    · obtain ⟨a, n, l, i, hr', _, h2, h3⟩ := ht.read (hard := false) (.inr rfl) hv ha (fineF _ _ _) hf
      refine ⟨?_, n2 (by rw [byH hr']; simp)⟩
      simp only [View.asStringView, View.head, hr', Res.ok_bind, decide_true, Res.require_true]
      cases i
      · simp only [Bool.not_false, Res.require_true, Res.ok_bind]; rw [(h3 rfl).1]; exact .ok _
      · exact .inr rfl
  | arr _ hg =>
    cases hg with
    | definite hh => obtain ⟨a, hr'⟩ := hh.read (by omega) false ha.left; exact no (by rw [byH hr']; simp) (by rw [byH hr']; simp)
    | indef => exact no (by rw [byH (indef_read (by omega) false ha)]; simp) (by rw [byH (indef_read (by omega) false ha)]; simp)
  | map _ _ hg =>
    cases hg with
    | definite hh => obtain ⟨a, hr'⟩ := hh.read (by omega) false ha.left; exact no (by rw [byH hr']; simp) (by rw [byH hr']; simp)
    | indef => exact no (by rw [byH (indef_read (by omega) false ha)]; simp) (by rw [byH (indef_read (by omega) false ha)]; simp)
  | tag hh _ => obtain ⟨a, hr'⟩ := hh.read (by omega) false ha.left; exact no (by rw [byH hr']; simp) (by rw [byH hr']; simp)
  | simple hn => exact no (by rw [byH (simple_read hn false ha)]; simp) (by rw [byH (simple_read hn false ha)]; simp)
  | flt hx => exact no (by rw [byH (flt_read false hx ha)]; simp) (by rw [byH (flt_read false hx ha)]; simp)

end

end Zer.Cbor
