import Verif.Cbor.Write

/-!
# CBOR: arbitrary input

`NoHuge b` excludes string heads whose length, added to their offset, leaves 64 bits. Under it every
checked traversal returns or raises and stays inside the buffer.
-/

namespace Zer.Cbor

open MsgPack (be be_length)

/-- No byte or text string head in `b` announces a length that wraps a 64-bit offset. -/
def NoHuge (b : Bytes) : Prop :=
  ∀ p n, n < 2 ^ 64 → At b p (0x5b :: be 8 n) ∨ At b p (0x7b :: be 8 n) → p + 9 + n < 2 ^ 64

theorem getBe_ok {v : Bytes} : ∀ (n : Nat) {p acc : Nat}, p + n ≤ v.length →
    ∃ x, getBe v p n acc = .ok x ∧ x < (acc + 1) * 256 ^ n
  | 0, p, acc, _ => ⟨acc, rfl, by omega⟩
  | n + 1, p, acc, h => by
    have h' : p < v.length := by omega
    obtain ⟨x, h1, h2⟩ := getBe_ok (v := v) n (p := p + 1) (acc := acc * 256 + v[p].toNat) (by omega)
    refine ⟨x, by simp only [getBe, byteAt_ok h', Res.ok_bind, h1], ?_⟩
    have : (acc * 256 + v[p].toNat + 1) * 256 ^ n ≤ (acc + 1) * 256 ^ (n + 1) := by
      rw [Nat.pow_succ, Nat.mul_comm (256 ^ n) 256, ← Nat.mul_assoc]
      apply Nat.mul_le_mul_right
      have := v[p].toNat_lt
      omega
    omega

/-- What `read_head` guarantees. -/
def HeadOk (v : Bytes) (p : Nat) (h : Head) : Prop :=
  p < v.length ∧ 1 ≤ h.hlen ∧ p + h.hlen ≤ v.length ∧ h.major ≤ 7 ∧ h.val < 2 ^ 64 ∧
  (h.indef = true → h.val = 0) ∧
  (∀ x, byteAt v p = .ok x → h.major = x / 32 ∧ h.addl = x % 32) ∧
  (h.major < 7 → h.indef = true → h.addl = 31) ∧
  (h.major < 7 → h.addl < 27 → h.val < 2 ^ 32) ∧
  (h.major < 7 → h.addl = 27 → h.hlen = 9 ∧ getBe v (p + 1) 8 0 = .ok h.val)

theorem readHead_clean (v : Bytes) (p : Nat) :
    (readHead false v p).Clean ∧ ∀ h, readHead false v p = .ok h → HeadOk v p h := by
  unfold readHead
  by_cases hp : p < v.length
  · have hx := byteAt_ok hp
    have hlt := v[p].toNat_lt
    generalize v[p].toNat = x at hx hlt
    have h2 := fun (h : p + 2 ≤ v.length) => byteAt_ok (show p + 1 < v.length by omega)
    simp only [ensure, Bool.false_eq_true, if_false, decide_eq_true hp, Res.require_true, Res.ok_bind, hx]
    have good : ∀ {h : Head}, 1 ≤ h.hlen → p + h.hlen ≤ v.length → h.major = x / 32 →
        h.addl = x % 32 → h.val < 2 ^ 64 → (h.indef = true → h.val = 0) →
        (h.major < 7 → h.indef = true → h.addl = 31) → (h.major < 7 → h.addl < 27 → h.val < 2 ^ 32) →
        (h.major < 7 → h.addl = 27 → h.hlen = 9 ∧ getBe v (p + 1) 8 0 = .ok h.val) →
        (pure h : Res Head).Clean ∧ ∀ h', (pure h : Res Head) = .ok h' → HeadOk v p h' := by
      intro h h1 h2 h3 h4 h5 h6 h7 h8 h9
      refine ⟨.pure _, fun h' e => ?_⟩
      simp only [Res.pure_eq, Res.ok.injEq] at e
      subst e
      exact ⟨hp, h1, h2, by omega, h5, h6, fun y hy => by rw [hx] at hy; injection hy with hy; subst hy; exact ⟨h3, h4⟩,
        h7, h8, h9⟩
    have bad : (Res.err .deser : Res Head).Clean ∧ ∀ h', (Res.err .deser : Res Head) = .ok h' → HeadOk v p h' :=
      ⟨.inr rfl, fun h' e => by cases e⟩
    have req : ∀ {n : Nat} {g : Unit → Res Head}, (p + n ≤ v.length → (g ()).Clean ∧ ∀ h', g () = .ok h' → HeadOk v p h') →
        ((Res.require (decide (p + n ≤ v.length)) .deser) >>= g).Clean ∧
          ∀ h', ((Res.require (decide (p + n ≤ v.length)) .deser) >>= g) = .ok h' → HeadOk v p h' := by
      intro n g h
      by_cases hn : p + n ≤ v.length
      · simp only [decide_eq_true hn, Res.require_true, Res.ok_bind]; exact h hn
      · simp only [decide_eq_false hn, Res.require_false, Res.err_bind]; exact bad
    by_cases h7 : x / 32 = 7
    · simp only [if_pos h7]
      repeat' split
      all_goals first
        | exact req (fun hn => good (by simp) (by simpa using hn) (by simp; omega) (by simp) (by simp) (by simp) (by simp) (by simp) (by simp))
        | exact good (by simp) (by simp; omega) (by simp; omega) (by simp) (by simp) (by simp) (by simp) (by simp) (by simp)
    · simp only [if_neg h7]
      split
      · exact good (by simp) (by simp; omega) (by simp) (by simp) (by simp; omega) (by simp) (by simp) (by simp; omega) (by simp; omega)
      · split
        · refine req (fun hn => ?_)
          rw [h2 hn]
          have := v[p + 1].toNat_lt
          exact good (by simp) (by simpa using hn) (by simp) (by simp) (by simp; omega) (by simp) (by simp) (by simp; omega) (by simp; omega)
        · split
          · refine req (fun hn => ?_)
            obtain ⟨y, hy, hy'⟩ := getBe_ok (v := v) 2 (p := p + 1) (acc := 0) (by omega)
            rw [hy]
            exact good (by simp) (by simpa using hn) (by simp) (by simp) (by simp; omega) (by simp) (by simp) (by simp; omega) (by simp; omega)
          · split
            · refine req (fun hn => ?_)
              obtain ⟨y, hy, hy'⟩ := getBe_ok (v := v) 4 (p := p + 1) (acc := 0) (by omega)
              rw [hy]
              exact good (by simp) (by simpa using hn) (by simp) (by simp) (by simp; omega) (by simp) (by simp) (by simp; omega) (by simp; omega)
            · split
              · refine req (fun hn => ?_)
                obtain ⟨y, hy, hy'⟩ := getBe_ok (v := v) 8 (p := p + 1) (acc := 0) (by omega)
                rw [hy]
                exact good (by simp) (by simpa using hn) (by simp) (by simp) (by simp; omega) (by simp) (by simp) (by simp; omega) (by simp [hy])
              · split
                · exact good (by simp) (by simp; omega) (by simp) (by simp) (by simp) (by simp) (by simp; omega) (by simp) (by simp; omega)
                · exact bad
  · simp only [ensure, Bool.false_eq_true, if_false, decide_eq_false hp, Res.require_false, Res.err_bind]
    exact ⟨.inr rfl, fun h' e => by cases e⟩

theorem getBe_num {v : Bytes} {p n x : Nat} (h : p + n ≤ v.length) (hx : getBe v p n 0 = .ok x) :
    num 0 ((v.drop p).take n) = x := by
  have ha := At.of_slice h
  have := getBe_at (acc := 0) ha
  have hl : ((v.drop p).take n).length = n := by simp; omega
  rw [hl, hx] at this
  injection this with this
  exact this.symm

theorem num_acc (bs : Bytes) (acc : Nat) : num acc bs = acc * 256 ^ bs.length + num 0 bs := by
  induction bs generalizing acc with
  | nil => simp [num]
  | cons x t ih =>
    have e : ∀ a, num a (x :: t) = num (a * 256 + x.toNat) t := fun _ => rfl
    rw [e, e, ih, ih (0 * 256 + x.toNat), List.length_cons, Nat.pow_succ]
    rw [Nat.zero_mul, Nat.zero_add, Nat.add_mul, Nat.mul_assoc, Nat.mul_comm 256, Nat.add_assoc]

theorem num_lt (bs : Bytes) : num 0 bs < 256 ^ bs.length := by
  induction bs with
  | nil => simp [num]
  | cons x t ih =>
    have e : num 0 (x :: t) = num (0 * 256 + x.toNat) t := rfl
    have := x.toNat_lt
    rw [e, num_acc, List.length_cons, Nat.pow_succ, Nat.zero_mul, Nat.zero_add]
    have : x.toNat * 256 ^ t.length + 256 ^ t.length ≤ 256 ^ t.length * 256 := by
      rw [← Nat.succ_mul, Nat.mul_comm]; exact Nat.mul_le_mul_left _ (by omega)
    omega

theorem snoc_of_length {bs : Bytes} {k : Nat} (h : bs.length = k + 1) :
    ∃ a x, bs = a ++ [x] ∧ a.length = k := by
  refine ⟨bs.dropLast, bs.getLast (by intro e; simp [e] at h), (List.dropLast_concat_getLast _).symm, ?_⟩
  simp [h]

theorem be_num : ∀ (k : Nat) {bs : Bytes}, bs.length = k → be k (num 0 bs) = bs
  | 0, bs, h => by rw [List.length_eq_zero_iff.1 h]; rfl
  | k + 1, bs, h => by
    obtain ⟨a, x, rfl, ha⟩ := snoc_of_length h
    have e : num 0 (a ++ [x]) = num 0 a * 256 + x.toNat := by simp [num, List.foldl_append]
    have := x.toNat_lt
    rw [e, be, show (num 0 a * 256 + x.toNat) / 256 = num 0 a by omega,
      show (num 0 a * 256 + x.toNat) % 256 = x.toNat by omega, be_num k ha]
    simp

/-- Under `NoHuge`, a string's end does not wrap. -/
theorem no_wrap {v : Bytes} (hn : NoHuge v) (hv : v.length < 2 ^ 63) {p : Nat} {h : Head}
    (hr : readHead false v p = .ok h) (hm : h.major = 2 ∨ h.major = 3) :
    p + h.hlen + h.val < 2 ^ 64 := by
  obtain ⟨h0, h1, h2, h3, h4, h5, h6, h7, h8, h9⟩ := (readHead_clean v p).2 h hr
  by_cases ha : h.addl = 27
  · obtain ⟨e1, e2⟩ := h9 (by omega) ha
    have hlen : p + 1 + 8 ≤ v.length := by omega
    have hnum := getBe_num hlen e2
    have hb := byteAt_ok h0
    obtain ⟨e3, e4⟩ := h6 _ hb
    have hat : At v p (v[p] :: be 8 h.val) := by
      have hs : At v p ((v.drop p).take 9) := At.of_slice (by omega)
      have e : (v.drop p).take 9 = v[p] :: (v.drop (p + 1)).take 8 := by
        rw [List.drop_eq_getElem_cons h0]; rfl
      rw [e] at hs
      have hl : ((v.drop (p + 1)).take 8).length = 8 := by simp; omega
      rw [← hnum, be_num 8 hl]
      exact hs
    have hx : v[p].toNat = 0x5b ∨ v[p].toNat = 0x7b := by omega
    have hx' : v[p] = 0x5b ∨ v[p] = 0x7b := by
      rcases hx with hx | hx
      · left; apply UInt8.toNat_inj.1; rw [hx]; rfl
      · right; apply UInt8.toNat_inj.1; rw [hx]; rfl
    rw [e1]
    refine hn p h.val h4 ?_
    rcases hx' with hx' | hx'
    · left; rw [hx'] at hat; exact hat
    · right; rw [hx'] at hat; exact hat
  · by_cases hb : h.addl < 27
    · have := h8 (by omega) hb; omega
    · by_cases hi : h.indef = true
      · have := h5 hi; omega
      · -- reserved additional information is refused
        exfalso
        obtain ⟨e3, e4⟩ := h6 _ (byteAt_ok h0)
        have hp := h0
        unfold readHead at hr
        simp only [ensure, Bool.false_eq_true, if_false, decide_eq_true hp, Res.require_true,
          Res.ok_bind, byteAt_ok h0, ← e3, ← e4] at hr
        rw [if_neg (by omega), if_neg (by omega), if_neg (by omega), if_neg (by omega),
          if_neg (by omega), if_neg (by omega)] at hr
        split at hr
        · injection hr with hr; apply hi; rw [← hr]
        · cases hr

/-! ## Skipping -/

/-- The call returns or raises; if it returns, it has moved forward inside the buffer. -/
def Fwd (v : Bytes) (q : Nat) (x : Res Nat) : Prop :=
  x.Clean ∧ ∀ r, x = .ok r → q < r ∧ r ≤ v.length

theorem Fwd.err {v : Bytes} {q : Nat} : Fwd v q (.err .deser) := ⟨.inr rfl, fun r h => by cases h⟩

theorem Fwd.ok {v : Bytes} {q r : Nat} (h1 : q < r) (h2 : r ≤ v.length) : Fwd v q (.ok r) :=
  ⟨.inl ⟨_, rfl⟩, fun r' h => by injection h with h; subst h; exact ⟨h1, h2⟩⟩

theorem Fwd.weaken {v : Bytes} {q q' : Nat} {x : Res Nat} (h : Fwd v q x) (hq : q' ≤ q) : Fwd v q' x :=
  ⟨h.1, fun r hr => ⟨by have := (h.2 r hr).1; omega, (h.2 r hr).2⟩⟩

theorem Fwd.req {v : Bytes} {q : Nat} {c : Prop} [Decidable c] {g : Unit → Res Nat}
    (h : c → Fwd v q (g ())) : Fwd v q (Res.require (decide c) .deser >>= g) := by
  by_cases hc : c
  · simp only [decide_eq_true hc, Res.require_true, Res.ok_bind]; exact h hc
  · simp only [decide_eq_false hc, Res.require_false, Res.err_bind]; exact .err

theorem chunks_fwd {v : Bytes} (hn : NoHuge v) (hv : v.length < 2 ^ 63) {m : Nat}
    (hm : m = 2 ∨ m = 3) : ∀ (f q : Nat), v.length - q < f → Fwd v q (chunks false v m f q)
  | f + 1, q, hf => by
    simp only [chunks, ensure, Bool.false_eq_true, if_false]
    refine .req (fun hq => ?_)
    rw [byteAt_ok hq, Res.ok_bind]
    split
    · exact .ok (by omega) (by omega)
    · rcases readHead_clean v q with ⟨⟨h, hr⟩ | hr, hok⟩
      · rw [hr, Res.ok_bind]
        refine .req (fun hmaj => ?_)
        cases hi : h.indef
        · have hw := no_wrap hn hv hr (by omega)
          obtain ⟨_, h1, _⟩ := hok h hr
          have e : u64 (q + (h.hlen + h.val)) = q + h.hlen + h.val := by
            rw [← Nat.add_assoc]; exact u64_of_lt hw
          simp only [Bool.not_false, Res.require_true, Res.ok_bind, e]
          by_cases hb : q + h.hlen + h.val ≤ v.length
          · exact (chunks_fwd hn hv hm f _ (by omega)).weaken (by omega)
          · obtain ⟨f, rfl⟩ : ∃ g, f = g + 1 := ⟨f - 1, by omega⟩
            simp only [chunks, ensure, Bool.false_eq_true, if_false,
              decide_eq_false (show ¬ q + h.hlen + h.val < v.length by omega), Res.require_false,
              Res.err_bind]
            exact .err
        · exact .err
      · rw [hr]; exact .err

theorem items_fwd {v : Bytes} {rec : Nat → Res Nat} {q0 : Nat}
    (hr : ∀ q, q0 ≤ q → Fwd v q (rec q)) : ∀ (n q : Nat), q0 ≤ q → q ≤ v.length →
    (items rec n q).Clean ∧ ∀ r, items rec n q = .ok r → q ≤ r ∧ r ≤ v.length ∧ (0 < n → q < r)
  | 0, q, _, hl => ⟨.pure _, fun r h => by
      simp only [items, Res.pure_eq, Res.ok.injEq] at h; subst h; exact ⟨Nat.le_refl _, hl, by simp⟩⟩
  | n + 1, q, hq, hl => by
    obtain ⟨hc, hf⟩ := hr q hq
    rcases hc with ⟨r, hrr⟩ | hrr
    · obtain ⟨h1, h2⟩ := hf r hrr
      obtain ⟨h3, h4⟩ := items_fwd hr n r (by omega) h2
      simp only [items, hrr, Res.ok_bind]
      refine ⟨h3, fun r' h => ?_⟩
      obtain ⟨h5, h6, _⟩ := h4 r' h
      exact ⟨by omega, h6, fun _ => by omega⟩
    · simp only [items, hrr, Res.err_bind]
      exact ⟨.inr rfl, fun r h => by cases h⟩

theorem untilBreak_fwd {v : Bytes} {rec : Nat → Res Nat} {q0 k : Nat} (hk : 0 < k)
    (hr : ∀ q, q0 ≤ q → Fwd v q (rec q)) : ∀ (f q : Nat), v.length - q < f → q0 ≤ q →
    Fwd v q (untilBreak false v rec k f q)
  | f + 1, q, hf, hq => by
    simp only [untilBreak, ensure, Bool.false_eq_true, if_false]
    refine .req (fun hql => ?_)
    rw [byteAt_ok hql, Res.ok_bind]
    split
    · exact .ok (by omega) (by omega)
    · obtain ⟨hc, hok⟩ := items_fwd hr k q hq (by omega)
      rcases hc with ⟨r, hrr⟩ | hrr
      · obtain ⟨h1, h2, h3⟩ := hok r hrr
        have := h3 hk
        rw [hrr, Res.ok_bind]
        exact (untilBreak_fwd hk hr f r (by omega) (by omega)).weaken (by omega)
      · rw [hrr]; exact .err

theorem skip_fwd {v : Bytes} (hn : NoHuge v) (hv : v.length < 2 ^ 63) :
    ∀ (f p : Nat), v.length - p < f → Fwd v p (skip false v f p)
  | f + 1, p, hf => by
    rcases readHead_clean v p with ⟨⟨h, hr⟩ | hr, hok⟩
    · obtain ⟨h0, h1, h2, h3, h4, h5, h6, h7, h8, h9⟩ := hok h hr
      have ih : ∀ q, p + h.hlen ≤ q → Fwd v q (skip false v f q) := fun q hq =>
        skip_fwd hn hv f q (by omega)
      simp only [skip, hr, Res.ok_bind, ensure, Bool.false_eq_true, if_false]
      split
      · exact .ok (by omega) h2
      · split
        · split
          · exact (chunks_fwd hn hv (by omega) f _ (by omega)).weaken (by omega)
          · have hw := no_wrap hn hv hr (by omega)
            rw [u64_of_lt hw]
            exact .req (fun hb => .ok (by omega) hb)
        · have itm : ∀ n, Fwd v p (items (skip false v f) n (p + h.hlen)) := by
            intro n
            obtain ⟨hc, hk⟩ := items_fwd ih n (p + h.hlen) (Nat.le_refl _) h2
            exact ⟨hc, fun r hr => ⟨by have := (hk r hr).1; omega, (hk r hr).2.1⟩⟩
          split
          · split
            · exact (untilBreak_fwd (by omega) ih f _ (by omega) (Nat.le_refl _)).weaken (by omega)
            · exact itm _
          · split
            · split
              · exact (untilBreak_fwd (by omega) ih f _ (by omega) (Nat.le_refl _)).weaken (by omega)
              · exact itm _
            · split
              · exact (ih _ (Nat.le_refl _)).weaken (by omega)
              · split
                · exact .req (fun hb => .ok (by omega) hb)
                · split
                  · exact .req (fun hb => .ok (by omega) hb)
                  · split
                    · exact .req (fun hb => .ok (by omega) hb)
                    · split
                      · exact .req (fun hb => .ok (by omega) hb)
                      · exact .ok (by omega) h2
    · simp only [skip, hr, Res.err_bind]; exact .err

/-! ## Accessors -/

theorem range_clean {v : Bytes} {q n : Nat} (h : q + n ≤ v.length) : (View.range false v q n).Clean := by
  simp only [View.range, Bool.false_eq_true, false_and, if_false, sliceAt, if_pos h]
  exact .ok _

theorem definite_clean {v : Bytes} (hn : NoHuge v) (hv : v.length < 2 ^ 63) {p : Nat} {h : Head}
    (hr : readHead false v p = .ok h) (hm : h.major = 2 ∨ h.major = 3) :
    (View.definite false v h (p + h.hlen)).Clean := by
  have hw := no_wrap hn hv hr hm
  simp only [View.definite, u64_of_lt hw]
  refine .bind (.require _) (fun _ hq => ?_)
  rw [Res.require_eq_ok, decide_eq_true_iff] at hq
  exact range_clean hq

theorem gather_clean {v : Bytes} (hn : NoHuge v) (hv : v.length < 2 ^ 63) {m : Nat}
    (hm : m = 2 ∨ m = 3) : ∀ (f q : Nat), v.length - q < f → (View.gather false v m f q).Clean
  | f + 1, q, hf => by
    simp only [View.gather]
    refine .bind (.require _) (fun _ hq => ?_)
    rw [Res.require_eq_ok, decide_eq_true_iff] at hq
    rw [byteAt_ok hq, Res.ok_bind]
    split
    · exact .pure _
    · obtain ⟨hc, hok⟩ := readHead_clean v q
      refine .bind hc (fun h hr => .bind (.require _) (fun _ hq2 => ?_))
      rw [Res.require_eq_ok, Bool.and_eq_true, decide_eq_true_iff] at hq2
      have hw := no_wrap hn hv hr (by omega)
      obtain ⟨_, h1, _⟩ := hok h hr
      rw [u64_of_lt hw]
      refine .bind (.require _) (fun _ hq3 => ?_)
      rw [Res.require_eq_ok, decide_eq_true_iff] at hq3
      refine .bind (range_clean hq3) (fun s _ => .bind ?_ (fun _ _ => .pure _))
      exact gather_clean hn hv hm f _ (by omega)

section
variable {b : Bytes} (hn : NoHuge b) (hv : b.length < 2 ^ 63) {f : Nat} (hf : b.length < f)
include hn hv hf

theorem asString_clean (p : Nat) : (View.asString false f ⟨b, p⟩).Clean := by
  simp only [View.asString, View.head]
  refine .bind (readHead_clean b p).1 (fun h hr => .bind (.require _) (fun _ hq => ?_))
  rw [Res.require_eq_ok, decide_eq_true_iff] at hq
  split
  · exact gather_clean hn hv (.inr rfl) f _ (by omega)
  · exact definite_clean hn hv hr (.inr hq)

theorem asBlobVec_clean (p : Nat) : (View.asBlobVec false f ⟨b, p⟩).Clean := by
  simp only [View.asBlobVec, View.head]
  refine .bind (readHead_clean b p).1 (fun h hr => .bind (.require _) (fun _ hq => ?_))
  rw [Res.require_eq_ok, decide_eq_true_iff] at hq
  split
  · exact gather_clean hn hv (.inl rfl) f _ (by omega)
  · exact definite_clean hn hv hr (.inl hq)

theorem skip_clean (p : Nat) : (skip false b f p).Clean := (skip_fwd hn hv f p (by omega)).1

theorem countB_clean : ∀ (g q : Nat), b.length - q < g → (View.countB f b g q).Clean
  | g + 1, q, hg => by
    simp only [View.countB]
    refine .bind (.require _) (fun _ hq => ?_)
    rw [Res.require_eq_ok, decide_eq_true_iff] at hq
    rw [byteAt_ok hq, Res.ok_bind]
    split
    · exact .pure _
    · obtain ⟨hc, hk⟩ := skip_fwd hn hv f q (by omega)
      refine .bind hc (fun r hr => .bind ?_ (fun _ _ => .pure _))
      have := hk r hr
      exact countB_clean g r (by omega)

theorem arraySize_clean (p : Nat) : (View.arraySize f ⟨b, p⟩).Clean := by
  simp only [View.arraySize, View.head]
  refine .bind (readHead_clean b p).1 (fun h hr => .bind (.require _) (fun _ hq => ?_))
  split
  · exact countB_clean hn hv hf f _ (by omega)
  · exact .pure _

/-- The call raises, or returns a position inside the buffer and after `p`. -/
def Within (b : Bytes) (p : Nat) (x : Res View) : Prop :=
  x.Clean ∧ ∀ r, x = .ok r → r.buf = b ∧ p < r.pos ∧ r.pos ≤ b.length

omit hn hv hf in
theorem Within.err {b : Bytes} {p : Nat} : Within b p (.err .deser) := ⟨.inr rfl, fun r h => by cases h⟩

omit hn hv hf in
theorem Within.bind {α : Type} {b : Bytes} {p : Nat} {x : Res α} {g : α → Res View} (hx : x.Clean)
    (hg : ∀ a, x = .ok a → Within b p (g a)) : Within b p (x >>= g) := by
  rcases hx with ⟨a, rfl⟩ | rfl
  · exact hg a rfl
  · exact .err

omit hn hv hf in
theorem Within.ok {b : Bytes} {p q : Nat} (hp : p < q) (h : q ≤ b.length) : Within b p (.ok ⟨b, q⟩) :=
  ⟨.inl ⟨_, rfl⟩, fun r e => by injection e with e; subst e; exact ⟨rfl, hp, h⟩⟩

theorem getIdxB_within (p idx : Nat) : ∀ (g i q : Nat), p < q → b.length - q < g →
    Within b p (View.getIdxB f b idx g i q)
  | g + 1, i, q, hp, hg => by
    simp only [View.getIdxB]
    refine .bind (.require _) (fun _ hq => ?_)
    rw [Res.require_eq_ok, decide_eq_true_iff] at hq
    rw [byteAt_ok hq, Res.ok_bind]
    split
    · exact .err
    · split
      · exact .ok hp (by omega)
      · obtain ⟨hc, hk⟩ := skip_fwd hn hv f q (by omega)
        refine .bind hc (fun r hr => ?_)
        have := hk r hr
        exact getIdxB_within p idx g _ r (by omega) (by omega)

theorem getIdx_within (p idx : Nat) : Within b p (View.getIdx f ⟨b, p⟩ idx) := by
  simp only [View.getIdx, View.head]
  obtain ⟨hc, hok⟩ := readHead_clean b p
  refine .bind hc (fun h hr => .bind (.require _) (fun _ hq => ?_))
  obtain ⟨_, h1, h2, _⟩ := hok h hr
  split
  · exact getIdxB_within hn hv hf p idx f 0 _ (by omega) (by omega)
  · refine .bind (.require _) (fun _ _ => ?_)
    obtain ⟨hc, hk⟩ := items_fwd (q0 := p + h.hlen) (fun q _ => skip_fwd hn hv f q (by omega)) idx (p + h.hlen)
      (Nat.le_refl _) h2
    exact .bind hc (fun r hr => .ok (by have := hk r hr; omega) (hk r hr).2.1)

theorem getKeyN_within (p : Nat) (key : Bytes) : ∀ (n q : Nat), p < q →
    Within b p (View.getKeyN false f b key n q)
  | 0, q, _ => .err
  | n + 1, q, hp => by
    simp only [View.getKeyN]
    refine .bind (asString_clean hn hv hf q) (fun k _ => ?_)
    obtain ⟨hc, hk⟩ := skip_fwd hn hv f q (by omega)
    refine .bind hc (fun r hr => ?_)
    have h1 := hk r hr
    split
    · exact .ok (by omega) h1.2
    · obtain ⟨hc, hk⟩ := skip_fwd hn hv f r (by omega)
      exact .bind hc (fun s hs => getKeyN_within p key n s (by have := hk s hs; omega))

theorem getKeyB_within (p : Nat) (key : Bytes) : ∀ (g q : Nat), p < q → b.length - q < g →
    Within b p (View.getKeyB false f b key g q)
  | g + 1, q, hp, hg => by
    simp only [View.getKeyB]
    refine .bind (.require _) (fun _ hq => ?_)
    rw [Res.require_eq_ok, decide_eq_true_iff] at hq
    rw [byteAt_ok hq, Res.ok_bind]
    split
    · exact .err
    · refine .bind (asString_clean hn hv hf q) (fun k _ => ?_)
      obtain ⟨hc, hk⟩ := skip_fwd hn hv f q (by omega)
      refine .bind hc (fun r hr => ?_)
      have h1 := hk r hr
      split
      · exact .ok (by omega) h1.2
      · obtain ⟨hc, hk⟩ := skip_fwd hn hv f r (by omega)
        refine .bind hc (fun s hs => ?_)
        have h2 := hk s hs
        exact getKeyB_within p key g s (by omega) (by omega)

theorem getKey_within (p : Nat) (key : Bytes) : Within b p (View.getKey false f ⟨b, p⟩ key) := by
  simp only [View.getKey, View.head]
  obtain ⟨hc, hok⟩ := readHead_clean b p
  refine .bind hc (fun h hr => .bind (.require _) (fun _ hq => ?_))
  obtain ⟨_, h1, h2, _⟩ := hok h hr
  split
  · exact getKeyB_within hn hv hf p key f _ (by omega) (by omega)
  · exact getKeyN_within hn hv hf p key _ _ (by omega)

omit hf in
theorem asStringView_clean (p : Nat) : (View.asStringView false ⟨b, p⟩).Clean := by
  simp only [View.asStringView, View.head]
  refine .bind (readHead_clean b p).1 (fun h hr => .bind (.require _) (fun _ hq => .bind (.require _) (fun _ _ => ?_)))
  rw [Res.require_eq_ok, decide_eq_true_iff] at hq
  exact definite_clean hn hv hr (.inr hq)

omit hf in
theorem asBlob_clean (p : Nat) : (View.asBlob false ⟨b, p⟩).Clean := by
  simp only [View.asBlob, View.head]
  refine .bind (readHead_clean b p).1 (fun h hr => .bind (.require _) (fun _ hq => .bind (.require _) (fun _ _ => ?_)))
  rw [Res.require_eq_ok, decide_eq_true_iff] at hq
  exact definite_clean hn hv hr (.inl hq)

end

end Zer.Cbor
