import Verif.MsgPack.Term
import Verif.MsgPack.Agree
import Verif.Translate

/-!
# How deep `mp_skip` recurses

`mpSkip f` is `mp_skip` (msgpack.hpp:38-106) on a stack with room for `f` nested calls; `.diverge` means that there was no
room for one more.
-/

namespace Zer

theorem Val.one_le_depth (v : Val) : 1 ≤ v.depth := by cases v <;> simp [Val.depth]

end Zer

namespace Zer.MsgPack

/-- A loop that finds room for every call finds the same with more room. -/
theorem skipLoop_more {rec rec' : Bytes → Res Nat} {v : Bytes} (h : ∀ w, rec w ≠ .diverge → rec' w = rec w) :
    ∀ (n off : Nat), skipLoop rec v n off ≠ .diverge → skipLoop rec' v n off = skipLoop rec v n off
  | 0, _, _ => rfl
  | n + 1, off, hn => by
    simp only [skipLoop] at hn ⊢
    cases hs : subspan v off with
    | ok w =>
      rw [hs] at hn
      simp only [Res.ok_bind] at hn ⊢
      have hw : rec w ≠ .diverge := fun e => hn (by rw [e]; rfl)
      rw [h w hw]
      cases hr : rec w with
      | ok s =>
        rw [hr] at hn
        simp only [Res.ok_bind] at hn ⊢
        exact skipLoop_more h n _ hn
      | err e => rfl
      | ub => rfl
      | diverge => exact absurd hr hw
    | err e => rfl
    | ub => rfl
    | diverge => rfl

theorem mpSkip_more : ∀ (f : Nat) (v : Bytes), mpSkip f v ≠ .diverge → mpSkip (f + 1) v = mpSkip f v
  | 0, v, h => absurd rfl h
  | f + 1, v, h => by
    rcases mpSkip_step v with ⟨r, -, -, hr⟩ | ⟨n, off, -, -, -, hr⟩
    · rw [hr, hr]
    · rw [hr] at h ⊢
      rw [hr]
      exact skipLoop_more (fun w hw => mpSkip_more f w hw) n off h

theorem mpSkip_mono {f g : Nat} (hfg : f ≤ g) (v : Bytes) (h : mpSkip f v ≠ .diverge) : mpSkip g v = mpSkip f v := by
  induction hfg with
  | refl => rfl
  | step _ ih => rw [mpSkip_more _ v (by rw [ih]; exact h), ih]

/-- On any bytes there is an exact depth, at most the length and one. -/
theorem mpSkip_depth (v : Bytes) :
    ∃ d, 1 ≤ d ∧ d ≤ v.length + 1 ∧ ∀ f, mpSkip f v = if d ≤ f then skip v else .diverge := by
  have key : ∀ n, mpSkip n v ≠ .diverge → ∃ d, d ≤ n ∧ mpSkip d v ≠ .diverge ∧ ∀ f, f < d → mpSkip f v = .diverge := by
    intro n
    induction n with
    | zero => intro h; exact absurd rfl h
    | succ n ih =>
      intro h
      by_cases h' : mpSkip n v = .diverge
      · refine ⟨n + 1, Nat.le_refl _, h, fun f hf => ?_⟩
        by_cases hd : mpSkip f v = .diverge
        · exact hd
        · exact absurd (mpSkip_mono (Nat.le_of_lt_succ hf) v hd ▸ h') hd
      · obtain ⟨d, h1, h2⟩ := ih h'
        exact ⟨d, by omega, h2⟩
  obtain ⟨d, hd, hne, hlt⟩ := key (v.length + 1) (skip_ne_diverge v)
  refine ⟨d, ?_, hd, fun f => ?_⟩
  · cases d with
    | zero => exact absurd rfl hne
    | succ d => omega
  · by_cases hf : d ≤ f
    · rw [if_pos hf, mpSkip_mono hf v hne]
      exact (mpSkip_mono hd v hne).symm
    · rw [if_neg hf]; exact hlt f (by omega)

/-! ## Encodings: the depth is the nesting of the value -/

theorem skipLoop_stuck {rec : Bytes → Res Nat} : ∀ (cs : List Bytes) (pre rest : Bytes),
    (∀ c ∈ cs, (∀ t, rec (c ++ t) = .ok c.length) ∨ ∀ t, rec (c ++ t) = .diverge) →
    (∃ c ∈ cs, ∀ t, rec (c ++ t) = .diverge) →
    skipLoop rec (pre ++ (cs.flatten ++ rest)) cs.length pre.length = .diverge
  | [], pre, rest, _, h => by obtain ⟨c, hc, _⟩ := h; cases hc
  | c :: cs, pre, rest, h, h' => by
    simp only [skipLoop, List.length_cons]
    rw [subspan_append]
    simp only [Res.ok_bind, List.flatten_cons, List.append_assoc]
    rcases h c (by simp) with hc | hc
    · rw [hc]
      simp only [Res.ok_bind]
      have h'' : ∃ c ∈ cs, ∀ t, rec (c ++ t) = .diverge := by
        obtain ⟨d, hd, hs⟩ := h'
        rcases List.mem_cons.1 hd with rfl | hd
        · have := hs []; rw [hc] at this; cases this
        · exact ⟨d, hd, hs⟩
      have := skipLoop_stuck cs (pre ++ c) rest (fun d hd => h d (by simp [hd])) h''
      simpa only [List.length_append, List.append_assoc] using this
    · rw [hc]; rfl

/-- `mp_skip` needs exactly `d` nested calls for `b`, whatever follows. -/
def Depth (b : Bytes) (d : Nat) : Prop :=
  ∀ f t, mpSkip f (b ++ t) = if d ≤ f then .ok b.length else .diverge

theorem Depth.scalar {b : Bytes} (h : ∀ f t, mpSkip (f + 1) (b ++ t) = .ok b.length) : Depth b 1
  | 0, _ => rfl
  | f + 1, t => by rw [h, if_pos (by omega)]

/-- The depths of the elements of a container, and of the container. -/
structure Depths (cs : List Bytes) (d : Nat) : Prop where
  each : ∀ c ∈ cs, ∃ e, e ≤ d ∧ Depth c e
  deepest : d ≠ 0 → ∃ c ∈ cs, Depth c d

theorem Depths.loop {cs : List Bytes} {d : Nat} (h : Depths cs d) (f : Nat) (pre rest : Bytes) :
    skipLoop (mpSkip f) (pre ++ (cs.flatten ++ rest)) cs.length pre.length =
      if d ≤ f then .ok (pre.length + cs.flatten.length) else .diverge := by
  by_cases hd : d ≤ f
  · rw [if_pos hd]
    refine skipLoop_chunks cs pre rest fun c hc t => ?_
    obtain ⟨e, he, hD⟩ := h.each c hc
    rw [hD, if_pos (by omega)]
  · rw [if_neg hd]
    refine skipLoop_stuck cs pre rest (fun c hc => ?_) ?_
    · obtain ⟨e, he, hD⟩ := h.each c hc
      by_cases hef : e ≤ f
      · exact .inl fun t => by rw [hD, if_pos hef]
      · exact .inr fun t => by rw [hD, if_neg hef]
    · obtain ⟨c, hc, hD⟩ := h.deepest (by omega)
      exact ⟨c, hc, fun t => by rw [hD, if_neg hd]⟩

theorem Depths.cons {c : Bytes} {cs : List Bytes} {d e : Nat} (hc : Depth c d) (h : Depths cs e) :
    Depths (c :: cs) (max d e) := by
  refine ⟨fun x hx => ?_, fun hne => ?_⟩
  · rcases List.mem_cons.1 hx with rfl | hx
    · exact ⟨d, by omega, hc⟩
    · obtain ⟨g, hg, hD⟩ := h.each x hx
      exact ⟨g, by omega, hD⟩
  · by_cases hde : e ≤ d
    · rw [show max d e = d by omega]; exact ⟨c, by simp, hc⟩
    · rw [show max d e = e by omega]
      obtain ⟨x, hx, hD⟩ := h.deepest (by omega)
      exact ⟨x, by simp [hx], hD⟩

theorem Depths.nil : Depths [] 0 :=
  ⟨fun c hc => absurd hc List.not_mem_nil, fun h => absurd rfl h⟩

theorem depth_single {m : UInt8} (hm : m ≤ 0x7f ∨ 0xe0 ≤ m ∨ m = 0xc0 ∨ m = 0xc2 ∨ m = 0xc3) : Depth [m] 1 := by
  refine .scalar fun f t => ?_
  simp only [MsgPack.mpSkip, List.cons_append, List.nil_append]
  rw [if_pos]
  · rfl
  · simp only [UInt8.le_iff_toNat_le, ← UInt8.toNat_inj] at hm
    exact hm

theorem depth_fixed {m : UInt8} {p : Bytes}
    (hm : (m = 0xcc ∨ m = 0xd0) ∧ p.length = 1 ∨ (m = 0xcd ∨ m = 0xd1) ∧ p.length = 2 ∨
      (m = 0xce ∨ m = 0xd2 ∨ m = 0xca) ∧ p.length = 4 ∨
      (m = 0xcf ∨ m = 0xd3 ∨ m = 0xcb) ∧ p.length = 8) : Depth (m :: p) 1 := by
  refine .scalar fun f t => ?_
  simp only [MsgPack.mpSkip, List.cons_append, List.length_cons]
  rcases hm with ⟨rfl | rfl, hp⟩ | ⟨rfl | rfl, hp⟩ | ⟨rfl | rfl | rfl, hp⟩ | ⟨rfl | rfl | rfl, hp⟩ <;>
    simp [hp]

theorem EncInt.depth {z : Int} {b : Bytes} (H : EncInt z b) : Depth b 1 := by
  cases H with
  | posfix h0 h1 =>
    refine depth_single (.inl ?_)
    rw [UInt8.le_iff_toNat_le]; simp; omega
  | negfix h0 h1 =>
    refine depth_single (.inr (.inl ?_))
    rw [UInt8.le_iff_toNat_le]; simp; omega
  | u8 => exact depth_fixed (.inl ⟨.inl rfl, by simp⟩)
  | i8 => exact depth_fixed (.inl ⟨.inr rfl, by simp⟩)
  | u16 => exact depth_fixed (.inr (.inl ⟨.inl rfl, by simp⟩))
  | i16 => exact depth_fixed (.inr (.inl ⟨.inr rfl, by simp⟩))
  | u32 => exact depth_fixed (.inr (.inr (.inl ⟨.inl rfl, by simp⟩)))
  | i32 => exact depth_fixed (.inr (.inr (.inl ⟨.inr (.inl rfl), by simp⟩)))
  | u64 => exact depth_fixed (.inr (.inr (.inr ⟨.inl rfl, by simp⟩)))
  | i64 => exact depth_fixed (.inr (.inr (.inr ⟨.inr (.inl rfl), by simp⟩)))

theorem depth_str {s h : Bytes} (H : StrHead s.length h) (hs : s.length < 2 ^ 32 - 5) : Depth (h ++ s) 1 :=
  .scalar fun f t => by rw [List.append_assoc, mpSkip_str H hs]; simp

theorem depth_arr {h : Bytes} {cs : List Bytes} {d : Nat} (H : ArrHead cs.length h) (hc : Depths cs d) :
    Depth (h ++ cs.flatten) (d + 1)
  | 0, _ => rfl
  | f + 1, t => by
    rw [List.append_assoc, mpSkip_arr H, hc.loop f h t]
    simp

theorem depth_map {h : Bytes} {cs : List Bytes} {n d : Nat} (H : MapHead n h) (hn : cs.length = 2 * n) (hc : Depths cs d) :
    Depth (h ++ cs.flatten) (d + 1)
  | 0, _ => rfl
  | f + 1, t => by
    rw [List.append_assoc, mpSkip_map H, ← hn, hc.loop f h t]
    simp

mutual
theorem Enc.depth : ∀ (v : Val) {b : Bytes}, v.Below (2 ^ 32 - 5) → Enc v b → Depth b v.depth
  | .null, b, _, h => by
      simp only [Enc] at h; subst h; exact depth_single (.inr (.inr (.inl rfl)))
  | .bool x, b, _, h => by
      simp only [Enc] at h; subst h
      cases x
      · exact depth_single (.inr (.inr (.inr (.inl rfl))))
      · exact depth_single (.inr (.inr (.inr (.inr rfl))))
  | .int i, b, _, h => by simp only [Enc] at h; exact h.depth
  | .uint n, b, _, h => by simp only [Enc] at h; exact h.depth
  | .dbl d, b, _, h => by
      simp only [Enc] at h
      cases h with
      | f64 => exact depth_fixed (.inr (.inr (.inr ⟨.inr (.inr rfl), by simp⟩)))
      | f32 => exact depth_fixed (.inr (.inr (.inl ⟨.inr (.inr rfl), by simp⟩)))
  | .str s, b, hb, h => by
      simp only [Enc] at h; obtain ⟨hd, H, rfl⟩ := h; exact depth_str H (by simpa [Val.Below] using hb)
  | .blob s, b, hb, h => by
      simp only [Enc] at h; obtain ⟨hd, H, rfl⟩ := h
      exact .scalar fun f t => by rw [List.append_assoc, mpSkip_bin H (by simpa [Val.Below] using hb)]; simp
  | .arr xs, b, hb, h => by
      simp only [Enc] at h
      obtain ⟨hd, cs, H, hc, rfl⟩ := h
      obtain ⟨h1, h2⟩ := EncList.depth xs (by simpa [Val.Below] using hb) hc
      exact depth_arr (h1 ▸ H) h2
  | .map ms, b, hb, h => by
      simp only [Enc] at h
      obtain ⟨hd, cs, H, hc, rfl⟩ := h
      obtain ⟨h1, h2⟩ := EncEntries.depth ms (by simpa [Val.Below] using hb) hc
      exact depth_map H h1 h2
theorem EncList.depth : ∀ (xs : List Val) {cs : List Bytes}, Val.Below.belowList (2 ^ 32 - 5) xs →
    EncList xs cs → cs.length = xs.length ∧ Depths cs (Val.depthList xs)
  | [], cs, _, h => by simp only [EncList] at h; subst h; exact ⟨rfl, .nil⟩
  | x :: xs, cs, hb, h => by
      simp only [EncList] at h
      simp only [Val.Below.belowList] at hb
      obtain ⟨c, cs', hc, hcs, rfl⟩ := h
      obtain ⟨h1, h2⟩ := EncList.depth xs hb.2 hcs
      exact ⟨by simp [h1], h2.cons (Enc.depth x hb.1 hc)⟩
theorem EncEntries.depth : ∀ (ms : List (Bytes × Val)) {cs : List Bytes}, Val.Below.belowEntries (2 ^ 32 - 5) ms →
    EncEntries ms cs → cs.length = 2 * ms.length ∧ Depths cs (Val.depthEntries ms)
  | [], cs, _, h => by simp only [EncEntries] at h; subst h; exact ⟨rfl, .nil⟩
  | (k, v) :: ms, cs, hb, h => by
      simp only [EncEntries] at h
      simp only [Val.Below.belowEntries] at hb
      obtain ⟨hd, c, cs', H, hc, hcs, rfl⟩ := h
      obtain ⟨h1, h2⟩ := EncEntries.depth ms hb.2.2 hcs
      refine ⟨by simp [h1]; omega, ?_⟩
      have := (h2.cons (Enc.depth v hb.2.1 hc)).cons (depth_str H hb.1)
      have e : max 1 (max v.depth (Val.depthEntries ms)) = Val.depthEntries ((k, v) :: ms) := by
        have := v.one_le_depth
        simp only [Val.depthEntries]; omega
      rwa [e] at this
end

/-- `d` arrays of one element inside of each other around a null. -/
def nest : Nat → Bytes
  | 0 => [0xc0]
  | d + 1 => 0x91 :: nest d

end Zer.MsgPack
