import Verif.Prefix.Extend
import Verif.Cbor.Term
import Verif.Zera.Safety

/-!
# What the three ways of looking into a map say, on arbitrary bytes
-/

namespace Zer.MsgPack

open Zer

/-- One entry, as both lookups read it. -/
theorem contains_of_getKeyFrom {v key : Bytes} : ∀ {n off c}, getKeyFrom v key n off = .ok c → containsFrom v key n off = .ok true
  | 0, _, _, h => by cases h
  | n + 1, off, c, h => by
    unfold getKeyFrom at h
    unfold containsFrom
    obtain ⟨ks, h1, h⟩ := Res.bind_eq_ok.1 h
    obtain ⟨ksz, h2, h⟩ := Res.bind_eq_ok.1 h
    obtain ⟨kd, h3, h⟩ := Res.bind_eq_ok.1 h
    obtain ⟨vs, h4, h⟩ := Res.bind_eq_ok.1 h
    obtain ⟨vsz, h5, h⟩ := Res.bind_eq_ok.1 h
    obtain ⟨hit, h6, h⟩ := Res.bind_eq_ok.1 h
    simp only [h1, h2, h3, h4, h5, h6, Res.ok_bind]
    cases hit with
    | true => rfl
    | false => exact contains_of_getKeyFrom h

theorem getKey_of_containsFrom {v key : Bytes} : ∀ {n off}, containsFrom v key n off = .ok true →
    (∃ c, getKeyFrom v key n off = .ok c) ∨ getKeyFrom v key n off = .ub
  | 0, _, h => by cases h
  | n + 1, off, h => by
    unfold containsFrom at h
    unfold getKeyFrom
    obtain ⟨ks, h1, h⟩ := Res.bind_eq_ok.1 h
    obtain ⟨ksz, h2, h⟩ := Res.bind_eq_ok.1 h
    obtain ⟨kd, h3, h⟩ := Res.bind_eq_ok.1 h
    obtain ⟨vs, h4, h⟩ := Res.bind_eq_ok.1 h
    obtain ⟨vsz, h5, h⟩ := Res.bind_eq_ok.1 h
    obtain ⟨hit, h6, h⟩ := Res.bind_eq_ok.1 h
    simp only [h1, h2, h3, h4, h5, h6, Res.ok_bind]
    cases hit with
    | true =>
      simp only [if_true, first]
      split
      · exact .inl ⟨_, rfl⟩
      · exact .inr rfl
    | false => exact getKey_of_containsFrom h

theorem isString_of_view {v s : Bytes} (h : asStringView v = .ok s) : isString v = true := by
  unfold asStringView at h
  obtain ⟨p, h1, -⟩ := Res.bind_eq_ok.1 h
  unfold strInfo at h1
  obtain ⟨m, hm, h1⟩ := Res.bind_eq_ok.1 h1
  cases v with
  | nil => cases hm
  | cons x w =>
    have hx : x.toNat = m := by injection hm
    simp only [isString, onMarker, hx, decide_eq_true_eq]
    split at h1
    · rename_i h; exact .inl h
    · split at h1
      · rename_i h; exact .inr (.inl h)
      · split at h1
        · rename_i h; exact .inr (.inr (.inl h))
        · split at h1
          · rename_i h; exact .inr (.inr (.inr h))
          · cases h1

/-- The keys listed are those found. -/
theorem contains_of_keysFrom {v key : Bytes} {count endOff : Nat} : ∀ {n i off ks e}, i + n = count →
    skipLoop skip v (2 * n) off = .ok e → e = endOff → ∀ {f}, n < f → keysFrom v count endOff f i off = .ok ks →
    containsFrom v key n off = .ok (decide (key ∈ ks))
  | 0, i, off, ks, e, hi, he, hee, f, hf, h => by
    obtain ⟨f, rfl⟩ : ∃ g, f = g + 1 := ⟨f - 1, by omega⟩
    unfold keysFrom at h
    injection he with he
    rw [if_pos ⟨by omega, by omega⟩] at h
    injection h with h
    subst h
    rfl
  | n + 1, i, off, ks, e, hi, he, hee, f, hf, h => by
    obtain ⟨f, rfl⟩ : ∃ g, f = g + 1 := ⟨f - 1, by omega⟩
    unfold keysFrom at h
    rw [if_neg (by omega)] at h
    obtain ⟨k, h1, h⟩ := Res.bind_eq_ok.1 h
    obtain ⟨off', h2, h⟩ := Res.bind_eq_ok.1 h
    obtain ⟨ks', h3, h⟩ := Res.bind_eq_ok.1 h
    injection h with h
    subst h
    unfold keyDeref at h1
    obtain ⟨a1, b1, h1⟩ := Res.bind_eq_ok.1 h1
    obtain ⟨a2, b2, h1⟩ := Res.bind_eq_ok.1 h1
    obtain ⟨a3, b3, h1⟩ := Res.bind_eq_ok.1 h1
    unfold keyNext at h2
    rw [b1, Res.ok_bind, b2, Res.ok_bind] at h2
    obtain ⟨a4, b4, h2⟩ := Res.bind_eq_ok.1 h2
    obtain ⟨a5, b5, h2⟩ := Res.bind_eq_ok.1 h2
    injection h2 with h2
    rw [show 2 * (n + 1) = 2 * n + 1 + 1 by omega] at he
    simp only [skipLoop, b1, b2, b4, b5, Res.ok_bind] at he
    rw [show off + a2 + a5 = off' by omega] at he
    have ih := contains_of_keysFrom (key := key) (i := i + 1) (by omega) he hee (f := f) (by omega) h3
    unfold containsFrom
    simp only [b1, b2, b3, b4, b5, Res.ok_bind, keyHit, isString_of_view h1, h1, if_true, Res.pure_eq]
    rw [show off + a2 + a5 = off' by omega, ih]
    by_cases hk : k = key
    · subst hk; simp
    · rw [decide_eq_false hk]
      simp [Ne.symm hk]

end Zer.MsgPack

namespace Zer.Cbor

open Zer

theorem keyAt_of_asString {hard : Bool} {f : Nat} {v : Bytes} {q : Nat} {k : Bytes} (h : View.asString hard f ⟨v, q⟩ = .ok k) :
    View.keyAt hard f v q = .ok k := by
  have h' := h
  unfold View.asString View.head at h
  obtain ⟨hd, h1, h⟩ := Res.bind_eq_ok.1 h
  unfold View.keyAt
  have h1 : readHead false v q = .ok hd := h1
  rw [h1, Res.ok_bind]
  split
  · rename_i hc
    obtain ⟨_, -, h⟩ := Res.bind_eq_ok.1 h
    simp only [hc.2, Bool.false_eq_true, if_false, View.definite] at h
    obtain ⟨_, -, h⟩ := Res.bind_eq_ok.1 h
    exact h
  · exact h'

theorem contains_of_getKeyN {hard : Bool} {f : Nat} {v key : Bytes} :
    ∀ {n q c}, View.getKeyN hard f v key n q = .ok c → View.containsN hard f v key n q = .ok true
  | 0, _, _, h => by cases h
  | n + 1, q, c, h => by
    simp only [View.getKeyN] at h
    simp only [View.containsN]
    obtain ⟨k, h1, h⟩ := Res.bind_eq_ok.1 h
    obtain ⟨q1, h2, h⟩ := Res.bind_eq_ok.1 h
    rw [keyAt_of_asString h1, Res.ok_bind]
    by_cases hk : k = key
    · rw [if_pos hk]; rfl
    · rw [if_neg hk] at h ⊢
      obtain ⟨q2, h3, h⟩ := Res.bind_eq_ok.1 h
      simp only [h2, h3, Res.ok_bind]
      exact contains_of_getKeyN h

theorem contains_of_getKeyB {hard : Bool} {f : Nat} {v key : Bytes} :
    ∀ {n q c}, View.getKeyB hard f v key n q = .ok c → View.containsB hard f v key n q = .ok true
  | 0, _, _, h => by cases h
  | n + 1, q, c, h => by
    simp only [View.getKeyB] at h
    simp only [View.containsB]
    obtain ⟨_, h0, h⟩ := Res.bind_eq_ok.1 h
    obtain ⟨b, h0', h⟩ := Res.bind_eq_ok.1 h
    simp only [h0, h0', Res.ok_bind]
    by_cases hb : b = 0xff
    · rw [if_pos hb] at h; cases h
    rw [if_neg hb] at h ⊢
    obtain ⟨k, h1, h⟩ := Res.bind_eq_ok.1 h
    obtain ⟨q1, h2, h⟩ := Res.bind_eq_ok.1 h
    simp only [h1, h2, Res.ok_bind]
    by_cases hk : k = key
    · rw [if_pos hk]; rfl
    · rw [if_neg hk] at h ⊢
      obtain ⟨q2, h3, h⟩ := Res.bind_eq_ok.1 h
      simp only [h3, Res.ok_bind]
      exact contains_of_getKeyB h

theorem getKey_of_containsB {hard : Bool} {f : Nat} {v key : Bytes} :
    ∀ {n q}, View.containsB hard f v key n q = .ok true → ∃ c, View.getKeyB hard f v key n q = .ok c
  | 0, _, h => by cases h
  | n + 1, q, h => by
    simp only [View.containsB] at h
    simp only [View.getKeyB]
    obtain ⟨_, h0, h⟩ := Res.bind_eq_ok.1 h
    obtain ⟨b, h0', h⟩ := Res.bind_eq_ok.1 h
    simp only [h0, h0', Res.ok_bind]
    by_cases hb : b = 0xff
    · rw [if_pos hb] at h; cases h
    rw [if_neg hb] at h ⊢
    obtain ⟨k, h1, h⟩ := Res.bind_eq_ok.1 h
    obtain ⟨q1, h2, h⟩ := Res.bind_eq_ok.1 h
    simp only [h1, h2, Res.ok_bind]
    by_cases hk : k = key
    · rw [if_pos hk]; exact ⟨_, rfl⟩
    · rw [if_neg hk] at h ⊢
      obtain ⟨q2, h3, h⟩ := Res.bind_eq_ok.1 h
      simp only [h3, Res.ok_bind]
      exact getKey_of_containsB h

/-- A text that was gathered can be skipped. -/
theorem chunks_of_gather {hard : Bool} {v : Bytes} (hl : v.length < 2 ^ 64) {m : Nat} : ∀ {g q s}, View.gather hard v m g q = .ok s →
    ∀ {g'}, v.length - q ≤ g' → ∃ e, chunks false v m g' q = .ok e
  | 0, _, _, h, _, _ => by cases h
  | g + 1, q, s, h, g', hg => by
    simp only [View.gather] at h
    obtain ⟨_, h0, h⟩ := Res.bind_eq_ok.1 h
    have hq : q < v.length := by simpa [Res.require_eq_ok] using h0
    obtain ⟨g', rfl⟩ : ∃ k, g' = k + 1 := ⟨g' - 1, by omega⟩
    obtain ⟨b, h0', h⟩ := Res.bind_eq_ok.1 h
    simp only [chunks, ensure, Bool.false_eq_true, if_false, h0, h0', Res.ok_bind]
    by_cases hb : b = 0xff
    · rw [if_pos hb]; exact ⟨_, rfl⟩
    rw [if_neg hb] at h ⊢
    obtain ⟨ch, h1, h⟩ := Res.bind_eq_ok.1 h
    obtain ⟨_, h2, h⟩ := Res.bind_eq_ok.1 h
    obtain ⟨_, h3, h⟩ := Res.bind_eq_ok.1 h
    obtain ⟨x, h4, h⟩ := Res.bind_eq_ok.1 h
    obtain ⟨y, h5, h⟩ := Res.bind_eq_ok.1 h
    have hb4 := range_bound h4
    have hh := ((readHead_clean v q).2 ch h1).2.1
    rw [Res.require_eq_ok, Bool.and_eq_true] at h2
    simp only [h1, h2.1, h2.2, Res.ok_bind, Res.require]
    rw [show u64 (q + (ch.hlen + ch.val)) = u64 (q + ch.hlen + ch.val) by rw [Nat.add_assoc]]
    refine chunks_of_gather hl h5 ?_
    have : u64 (q + ch.hlen + ch.val) = q + ch.hlen + ch.val := Nat.mod_eq_of_lt (by omega)
    omega

theorem skip_of_asString {hard : Bool} {f : Nat} {v : Bytes} {q : Nat} {s : Bytes} (hl : v.length < 2 ^ 64) (hf : v.length ≤ f)
    (h : View.asString hard f ⟨v, q⟩ = .ok s) : ∃ e, skip false v f q = .ok e := by
  simp only [View.asString, View.head] at h
  obtain ⟨hd, h1, h⟩ := Res.bind_eq_ok.1 h
  obtain ⟨_, h2, h⟩ := Res.bind_eq_ok.1 h
  have hm : hd.major = 3 := by simpa [Res.require_eq_ok] using h2
  have hh := (readHead_clean v q).2 hd h1
  have hq : q < v.length := hh.1
  obtain ⟨f, rfl⟩ : ∃ k, f = k + 1 := ⟨f - 1, by omega⟩
  simp only [skip, h1, Res.ok_bind]
  rw [if_neg (by omega), if_pos (by omega), hm]
  cases hi : hd.indef with
  | true =>
    simp only [hi, if_true] at h ⊢
    refine chunks_of_gather hl h ?_
    have := hh.2.1
    omega
  | false =>
    simp only [hi, Bool.false_eq_true, if_false, View.definite] at h ⊢
    obtain ⟨_, h3, h⟩ := Res.bind_eq_ok.1 h
    simp only [ensure, Bool.false_eq_true, if_false, h3, Res.ok_bind]
    exact ⟨_, rfl⟩

theorem getKey_of_containsN {hard : Bool} {f : Nat} {v key : Bytes} (hl : v.length < 2 ^ 64) (hf : v.length ≤ f) :
    ∀ {n q}, View.containsN hard f v key n q = .ok true → ∃ c, View.getKeyN hard f v key n q = .ok c
  | 0, _, h => by cases h
  | n + 1, q, h => by
    simp only [View.containsN] at h
    simp only [View.getKeyN]
    obtain ⟨k, h1, h⟩ := Res.bind_eq_ok.1 h
    have h1 := asString_of_keyAt h1
    obtain ⟨e, he⟩ := skip_of_asString hl hf h1
    simp only [h1, he, Res.ok_bind]
    by_cases hk : k = key
    · rw [if_pos hk]; exact ⟨_, rfl⟩
    · rw [if_neg hk] at h ⊢
      obtain ⟨q1, h2, h⟩ := Res.bind_eq_ok.1 h
      obtain ⟨q2, h3, h⟩ := Res.bind_eq_ok.1 h
      rw [he] at h2
      injection h2 with h2
      rw [← h2] at h3
      simp only [h3, Res.ok_bind]
      exact getKey_of_containsN hl hf h

/-! The unchecked copies of the head reader and of `skip` in `KeysView` follow the checked ones where those succeed,
if there is no simple value with an extra byte (0xf8). -/

theorem le_ensure_raw (c : Bool) : (ensure false c).Le (ensure true c) := fun _ _ => rfl

theorem le_readHead_raw (v : Bytes) (p : Nat) : (readHead false v p).Le (readHead true v p) := by
  refine .bind (le_ensure_raw _) fun _ => .bind (.refl _) fun b => ?_
  repeat' apply Res.Le.ite
  all_goals first
    | exact .refl _
    | exact .bind (le_ensure_raw _) fun _ => .refl _
    | exact .err

theorem le_untilBreak_raw {v : Bytes} {rec rec' : Nat → Res Nat} (h : ∀ q, (rec q).Le (rec' q)) (k : Nat) :
    ∀ f q, (untilBreak false v rec k f q).Le (untilBreak true v rec' k f q)
  | 0, _ => .diverge
  | f + 1, q => .bind (le_ensure_raw _) fun _ => .bind (.refl _) fun _ => .ite (.refl _) (.bind (le_items h _ _) fun _ =>
      le_untilBreak_raw h k f _)

theorem le_chunks_raw {v : Bytes} {m : Nat} : ∀ f q, (chunks false v m f q).Le (chunks true v m f q)
  | 0, _ => .diverge
  | f + 1, q => .bind (le_ensure_raw _) fun _ => .bind (.refl _) fun _ => .ite (.refl _)
      (.bind (le_readHead_raw _ _) fun _ => .bind (le_ensure_raw _) fun _ => .bind (le_ensure_raw _) fun _ => le_chunks_raw f _)

theorem le_skip_raw {v : Bytes} (hs : (0xf8 : UInt8) ∉ v) : ∀ f p, (skip false v f p).Le (skip true v f p)
  | 0, _ => .diverge
  | f + 1, p => by
    have ih := le_skip_raw hs f
    intro e he
    simp only [skip] at he ⊢
    obtain ⟨h, h1, he⟩ := Res.bind_eq_ok.1 he
    rw [le_readHead_raw _ _ _ h1, Res.ok_bind]
    have hh := (readHead_clean v p).2 h h1
    have h24 : ¬ (h.major = 7 ∧ h.addl = 24) := by
      rintro ⟨ha, hb⟩
      obtain ⟨e3, e4⟩ := hh.2.2.2.2.2.2.1 _ (byteAt_ok hh.1)
      apply hs
      have hx : v[p]'hh.1 = 0xf8 := by
        apply UInt8.toNat_inj.1
        show _ = 248
        omega
      rw [← hx]
      exact List.getElem_mem _
    have h7 : h.major ≤ 7 := by
      obtain ⟨e3, e4⟩ := hh.2.2.2.2.2.2.1 _ (byteAt_ok hh.1)
      have := (v[p]'hh.1).toNat_lt
      omega
    revert he
    generalize p + h.hlen = q
    intro he
    by_cases hm : h.major = 7
    · have hne : ¬ h.addl = 24 := fun h' => h24 ⟨hm, h'⟩
      rw [if_neg (by omega), if_neg (by omega), if_neg (by omega), if_neg (by omega), if_neg (by omega)] at he ⊢
      simp only [hne, false_and, if_false] at he ⊢
      exact Res.Le.ite (.bind (le_ensure_raw _) fun _ => .refl _) (.ite (.bind (le_ensure_raw _) fun _ => .refl _)
        (.ite (.bind (le_ensure_raw _) fun _ => .refl _) (.refl _))) e he
    · by_cases c1 : h.major ≤ 1
      · rw [if_pos c1] at he ⊢; exact he
      rw [if_neg c1] at he ⊢
      by_cases c2 : h.major ≤ 3
      · rw [if_pos c2] at he ⊢
        exact Res.Le.ite (le_chunks_raw _ _) (.bind (le_ensure_raw _) fun _ => .refl _) e he
      rw [if_neg c2] at he ⊢
      by_cases c3 : h.major = 4
      · rw [if_pos c3] at he ⊢
        exact Res.Le.ite (le_untilBreak_raw ih _ _ _) (le_items ih _ _) e he
      rw [if_neg c3] at he ⊢
      by_cases c4 : h.major = 5
      · rw [if_pos c4] at he ⊢
        exact Res.Le.ite (le_untilBreak_raw ih _ _ _) (le_items ih _ _) e he
      rw [if_neg c4] at he ⊢
      rw [if_pos (by omega)] at he ⊢
      exact ih _ _ he

/-- The keys listed are those found, in a map whose entries are all in the buffer. -/
theorem contains_of_keysFrom {hard : Bool} {f : Nat} {v key : Bytes} (hn : NoHugeAll v) (hv : v.length < 2 ^ 63) (hf : v.length < f)
    (hs : (0xf8 : UInt8) ∉ v) {stop : Nat} : ∀ {n q g ks}, items (skip false v f) (2 * n) q = .ok stop →
      View.keysFrom hard f v false stop g q n = .ok ks → View.containsN hard f v key n q = .ok (decide (key ∈ ks))
  | _, _, 0, _, _, h => by cases h
  | 0, q, g + 1, ks, hi, h => by
    simp only [items, Nat.mul_zero, Res.pure_eq, Res.ok.injEq] at hi
    simp only [View.keysFrom, if_pos hi, Res.pure_eq, Res.ok.injEq] at h
    subst h
    rfl
  | n + 1, q, g + 1, ks, hi, h => by
    rw [show 2 * (n + 1) = 2 * n + 1 + 1 by omega] at hi
    have hlt := ((items_adv (fun q _ => skip_adv hn hv f q (by omega)) (2 * n + 1 + 1) q (Nat.zero_le _)).2 _ hi).2 (by omega)
    simp only [items] at hi
    obtain ⟨q1, h1, hi⟩ := Res.bind_eq_ok.1 hi
    obtain ⟨q2, h2, hi⟩ := Res.bind_eq_ok.1 hi
    simp only [View.keysFrom] at h
    rw [if_neg (by omega)] at h
    obtain ⟨k, h3, h⟩ := Res.bind_eq_ok.1 h
    simp only [View.keyNext, Bool.false_eq_true, if_false, if_neg (Nat.succ_ne_zero n), le_skip_raw hs _ _ _ h1,
      le_skip_raw hs _ _ _ h2, Res.ok_bind, Res.pure_eq, Nat.add_sub_cancel] at h
    obtain ⟨ks', h4, h⟩ := Res.bind_eq_ok.1 h
    injection h with h
    subst h
    have ih := contains_of_keysFrom (key := key) hn hv hf hs hi h4
    have h5 : View.keyAt hard f v q = .ok k := by
      obtain ⟨f', rfl⟩ : ∃ j, f = j + 1 := ⟨f - 1, by omega⟩
      simp only [skip] at h1
      obtain ⟨hd, g1, -⟩ := Res.bind_eq_ok.1 h1
      unfold View.keyDeref at h3
      rw [le_readHead_raw _ _ _ g1, Res.ok_bind] at h3
      unfold View.keyAt
      rw [g1, Res.ok_bind]
      exact h3
    simp only [View.containsN, h5, h1, h2, Res.ok_bind, ih]
    by_cases hk : k = key
    · subst hk; simp
    · rw [if_neg hk]; simp [Ne.symm hk]

end Zer.Cbor

namespace Zer.Zera

open Zer

theorem contains_of_getKeyFrom {r : View} {k : Bytes} : ∀ {n ofs c}, r.getKeyFrom k n ofs = .ok c → r.containsFrom k n ofs = .ok true
  | 0, _, _, h => by cases h
  | n + 1, ofs, c, h => by
    simp only [View.getKeyFrom] at h
    simp only [View.containsFrom]
    obtain ⟨e, h1, h⟩ := Res.bind_eq_ok.1 h
    obtain ⟨len, h2, h⟩ := Res.bind_eq_ok.1 h
    obtain ⟨_, h3, h⟩ := Res.bind_eq_ok.1 h
    obtain ⟨kp, h4, h⟩ := Res.bind_eq_ok.1 h
    obtain ⟨vp, h5, h⟩ := Res.bind_eq_ok.1 h
    obtain ⟨hit, h6, h⟩ := Res.bind_eq_ok.1 h
    simp only [h1, h2, h3, h4, h6, Res.ok_bind]
    cases hit with
    | true => rfl
    | false =>
      simp only [Bool.false_eq_true, if_false] at h ⊢
      obtain ⟨y, h7, h⟩ := Res.bind_eq_ok.1 h
      rw [h7, Res.ok_bind]
      exact contains_of_getKeyFrom h

theorem getKey_of_containsFrom {r : View} {k : Bytes} : ∀ {n ofs}, r.containsFrom k n ofs = .ok true →
    (∃ c, r.getKeyFrom k n ofs = .ok c) ∨ r.getKeyFrom k n ofs = .err .deser
  | 0, _, h => by cases h
  | n + 1, ofs, h => by
    simp only [View.containsFrom] at h
    simp only [View.getKeyFrom]
    obtain ⟨e, h1, h⟩ := Res.bind_eq_ok.1 h
    obtain ⟨len, h2, h⟩ := Res.bind_eq_ok.1 h
    obtain ⟨_, h3, h⟩ := Res.bind_eq_ok.1 h
    obtain ⟨kp, h4, h⟩ := Res.bind_eq_ok.1 h
    obtain ⟨hit, h6, h⟩ := Res.bind_eq_ok.1 h
    simp only [h1, h2, h3, h4, h6, Res.ok_bind]
    rcases envPtrAt_raises r (u32 (ofs + 4 + len)) 16 with ⟨vp, h5⟩ | h5
    · rw [h5, Res.ok_bind]
      cases hit with
      | true => exact .inl ⟨_, rfl⟩
      | false =>
        simp only [Bool.false_eq_true, if_false] at h ⊢
        obtain ⟨y, h7, h⟩ := Res.bind_eq_ok.1 h
        rw [h7, Res.ok_bind]
        exact getKey_of_containsFrom h
    · rw [h5]; exact .inr rfl

/-- The keys listed are those found, and each of them can be looked up. -/
theorem contains_of_keysFrom {r : View} (hE : r.envSize < 2 ^ 32) {key : Bytes} : ∀ {n ofs ks},
    r.keysFrom n (HeaderSize + u32 ofs) = .ok ks → r.containsFrom key n ofs = .ok (decide (key ∈ ks)) ∧
      (key ∈ ks → ∃ c, r.getKeyFrom key n ofs = .ok c)
  | 0, ofs, ks, h => by
    injection h with h
    subst h
    exact ⟨rfl, fun h => by cases h⟩
  | n + 1, ofs, ks, h => by
    simp only [View.keysFrom] at h
    obtain ⟨k, h1, h⟩ := Res.bind_eq_ok.1 h
    obtain ⟨cur, h2, h⟩ := Res.bind_eq_ok.1 h
    obtain ⟨ks', h3, h⟩ := Res.bind_eq_ok.1 h
    injection h with h
    subst h
    simp only [View.keyDeref] at h1
    obtain ⟨len, g1, h1⟩ := Res.bind_eq_ok.1 h1
    obtain ⟨y, g2, h1⟩ := Res.bind_eq_ok.1 h1
    have hu : ∀ x, u32 (u32 x) = u32 x := fun x => Nat.mod_mod _ _
    have hulim : u32 ofs < 2 ^ 32 := Nat.mod_lt _ (by decide)
    have hmod : ofs % 4294967296 = u32 ofs := rfl
    rw [Nat.add_sub_cancel_left, hu] at g2
    obtain ⟨e1, e2⟩ := envPtrAt_eq g2
    simp only [View.keyNext, g1, Res.ok_bind, Nat.add_sub_cancel_left, hu] at h2
    have e3 : u32 (u32 ofs + u32 (4 + len + 16)) = u32 (ofs + (4 + len + 16)) := by simp [u32]
    rw [e3] at h2
    obtain ⟨e4, e5⟩ := envPtrAt_eq h2
    subst e4
    have ih := contains_of_keysFrom (key := key) hE h3
    have hsl : HeaderSize + u32 ofs + 4 + len ≤ r.buf.length ∧ k.length = len := by
      unfold sliceAt at h1
      split at h1
      · rename_i hl
        injection h1 with h1
        rw [← h1]
        simp
        omega
      · cases h1
    have p1 : r.envPtrAt (u32 ofs) 4 = .ok (HeaderSize + u32 ofs) := envPtrAt_ok (by omega)
    have p2 : u32 (ofs + 4) = u32 ofs + 4 := by unfold u32; omega
    have p3 : u32 (ofs + 4 + len) = u32 ofs + 4 + len := by unfold u32; omega
    have p4 : r.envPtrAt (u32 ofs + 4) len = .ok (HeaderSize + (u32 ofs + 4)) := envPtrAt_ok (by omega)
    have p5 : r.envPtrAt (u32 ofs + 4 + len) 16 = .ok (HeaderSize + (u32 ofs + 4 + len)) := envPtrAt_ok (by omega)
    obtain ⟨x, hx, -⟩ := readU16_ok (b := r.buf) (p := HeaderSize + u32 ofs + 2) (by omega)
    have hit : r.keyHit key (HeaderSize + (u32 ofs + 4)) len = .ok (decide (k = key)) := by
      unfold View.keyHit
      by_cases hk : len = key.length
      · rw [if_pos hk, ← hk, ← Nat.add_assoc, h1]; rfl
      · rw [if_neg hk, decide_eq_false (fun h' => hk (by rw [← hsl.2, h']))]; rfl
    simp only [View.containsFrom, View.getKeyFrom, p1, p2, p3, p4, p5, g1, hx, hit, h2, Res.ok_bind]
    by_cases hk : k = key
    · subst hk
      simp
    · simp only [decide_eq_false hk, Bool.false_eq_true, if_false, ih.1, List.mem_cons, Ne.symm hk, false_or]
      exact ⟨trivial, ih.2⟩

/-- Every element that is counted can be looked up. -/
theorem getIdx_of_arraySize {r : View} (hE : r.envSize < 2 ^ 32) {n i : Nat} (h : r.arraySize = .ok n) (hi : i < n) :
    ∃ c, r.getIdx i = .ok c := by
  simp only [View.arraySize] at h
  simp only [View.getIdx]
  obtain ⟨t, h1, h⟩ := Res.bind_eq_ok.1 h
  obtain ⟨_, h2, h⟩ := Res.bind_eq_ok.1 h
  obtain ⟨_, h3, h⟩ := Res.bind_eq_ok.1 h
  obtain ⟨o, h4, h⟩ := Res.bind_eq_ok.1 h
  obtain ⟨p, h5, h⟩ := Res.bind_eq_ok.1 h
  obtain ⟨m, h6, h⟩ := Res.bind_eq_ok.1 h
  obtain ⟨_, h7, h⟩ := Res.bind_eq_ok.1 h
  injection h with h
  subst h
  obtain ⟨-, e⟩ := envPtrAt_eq h7
  have e1 : u32 (o + 4 + 16 * i) = o + 4 + 16 * i := by unfold u32; omega
  simp only [h1, h2, h3, h4, h5, h6, Res.ok_bind, decide_eq_true hi, Res.require_true, e1,
    envPtrAt_ok (v := r) (ofs := o + 4 + 16 * i) (need := 16) (by omega)]
  exact ⟨_, rfl⟩

end Zer.Zera
