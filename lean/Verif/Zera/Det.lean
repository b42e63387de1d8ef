import Verif.Zera.Sim

/-!
# The bytes of a ZERA serialization determine the value
-/

namespace Zer.Zera

theorem le16_inj {x y : Nat} (hx : x < 2 ^ 16) (hy : y < 2 ^ 16) (h : le16 x = le16 y) : x = y := by
  have h1 := readU16_at (b := le16 x) (o := 0) (v := x) ⟨[], [], by simp, rfl⟩
  have h2 := readU16_at (b := le16 x) (o := 0) (v := y) ⟨[], [], by simp [h], rfl⟩
  rw [h1] at h2
  injection h2 with h2
  omega

theorem le32_inj {x y : Nat} (hx : x < 2 ^ 32) (hy : y < 2 ^ 32) (h : le32 x = le32 y) : x = y := by
  have h1 := readU32_at (b := le32 x) (o := 0) (v := x) ⟨[], [], by simp, rfl⟩
  have h2 := readU32_at (b := le32 x) (o := 0) (v := y) ⟨[], [], by simp [h], rfl⟩
  rw [h1] at h2
  injection h2 with h2
  omega

theorem lo32_lt (n : Nat) : lo32 n < 2 ^ 32 := by rw [lo32_eq]; omega
theorem hi32_lt (n : Nat) : hi32 n < 2 ^ 32 := by rw [hi32_eq]; omega

theorem makeVr_inj {t f x a b c t' f' x' a' b' c' : Nat}
    (h : makeVr t f x a b c = makeVr t' f' x' a' b' c') :
    UInt8.ofNat t = UInt8.ofNat t' ∧ UInt8.ofNat f = UInt8.ofNat f' ∧ le16 x = le16 x' ∧
      le32 a = le32 a' ∧ le32 b = le32 b' ∧ le32 c = le32 c' := by
  unfold makeVr at h
  obtain ⟨h, h1⟩ := List.append_inj h rfl
  obtain ⟨h, h2⟩ := List.append_inj h rfl
  obtain ⟨h, h3⟩ := List.append_inj h rfl
  obtain ⟨h, h4⟩ := List.append_inj h rfl
  injection h with h5 h
  injection h with h6 h
  exact ⟨h5, h6, h4, h3, h2, h1⟩

theorem inlineVr_inj {s s' : Bytes} (hs : s.length ≤ 12) (hs' : s'.length ≤ 12)
    (h : inlineVr s = inlineVr s') : s = s' := by
  simp only [inlineVr, List.append_assoc] at h
  obtain ⟨_, h⟩ := List.append_inj h rfl
  obtain ⟨h1, h⟩ := List.append_inj h rfl
  have := le16_inj (by omega) (by omega) h1
  exact (List.append_inj h this).1

theorem inlineVr_head (s : Bytes) : ∃ r, inlineVr s = UInt8.ofNat tString :: UInt8.ofNat 1 :: r :=
  ⟨_, rfl⟩

theorem makeVr_head (t f x a b c : Nat) :
    ∃ r, makeVr t f x a b c = UInt8.ofNat t :: UInt8.ofNat f :: r := ⟨_, rfl⟩

theorem inline_ne_arena {s : Bytes} {x a b c : Nat} (h : inlineVr s = makeVr tString 0 x a b c) :
    False := by
  obtain ⟨r, hr⟩ := inlineVr_head s
  obtain ⟨r', hr'⟩ := makeVr_head tString 0 x a b c
  rw [hr, hr'] at h
  injection h with h1 h
  injection h with h2 h
  revert h2; decide

theorem bits_inj {n m : UInt64} (h1 : lo32 n.toNat = lo32 m.toNat) (h2 : hi32 n.toNat = hi32 m.toNat) :
    n = m := by
  apply UInt64.toNat_inj.1
  rw [lo32_eq, lo32_eq] at h1
  rw [hi32_eq, hi32_eq] at h2
  have := n.toNat_lt; have := m.toNat_lt
  omega

/-- The tag byte of a stored value. -/
def tagOf : Val → Nat
  | .null => tNull | .bool _ => tBool | .int _ => tI64 | .uint _ => tU64 | .dbl _ => tF64
  | .str _ => tString | .blob _ => tTyped | .arr _ => tArray | .map _ => tObject

theorem Repr.tag {env arena vr : Bytes} {v : Val} (h : Repr env arena vr v) :
    ∃ r, vr = UInt8.ofNat (tagOf v) :: r := by
  cases h <;> exact ⟨_, rfl⟩

theorem tagOf_eq {v w : Val} (h : UInt8.ofNat (tagOf v) = UInt8.ofNat (tagOf w)) :
    tagOf v = tagOf w := by
  have lt : ∀ x : Val, tagOf x < 9 := by
    intro x; cases x <;> simp only [tagOf, tNull, tBool, tI64, tF64, tString, tArray, tObject, tTyped, tU64] <;> omega
  have h1 := lt v
  have h2 := lt w
  have := congrArg UInt8.toNat h
  simp only [UInt8.toNat_ofNat'] at this
  omega

theorem pairs_det {env arena : Bytes} {l : List Bytes} : ∀ {ps qs : List (Bytes × Val)},
    (∀ p ∈ ps, Repr env arena p.1 p.2) → (∀ q ∈ qs, Repr env arena q.1 q.2) →
    (∀ p ∈ ps, ∀ w, Repr env arena p.1 w → p.2 = w) →
    ps.map Prod.fst = l → qs.map Prod.fst = l → ps.map Prod.snd = qs.map Prod.snd := by
  induction l with
  | nil =>
    intro ps qs _ _ _ h1 h2
    simp at h1 h2
    simp [h1, h2]
  | cons x l ih =>
    intro ps qs hp hq hd h1 h2
    cases ps with
    | nil => simp at h1
    | cons p ps =>
      cases qs with
      | nil => simp at h2
      | cons q qs =>
        simp only [List.map_cons, List.cons.injEq] at h1 h2 ⊢
        have hq0 := hq q (by simp)
        rw [h2.1, ← h1.1] at hq0
        exact ⟨hd p (by simp) _ hq0, ih (fun y hy => hp y (by simp [hy]))
          (fun y hy => hq y (by simp [hy])) (fun y hy => hd y (by simp [hy])) h1.2 h2.2⟩

theorem entries_det {env arena : Bytes} : ∀ {ps qs : List (Bytes × Bytes × Val)} {o : Nat},
    ps.length = qs.length → Entries env o ps → Entries env o qs →
    (∀ q ∈ qs, Repr env arena q.2.1 q.2.2) →
    (∀ p ∈ ps, ∀ w, Repr env arena p.2.1 w → p.2.2 = w) →
    ps.map (fun p => (p.1, p.2.2)) = qs.map (fun p => (p.1, p.2.2))
  | [], [], _, _, _, _, _, _ => rfl
  | [], _ :: _, _, h, _, _, _, _ => by simp at h
  | _ :: _, [], _, h, _, _, _, _ => by simp at h
  | p :: ps, q :: qs, o, hl, hp, hq, hr, hd => by
    obtain ⟨p1, p2⟩ := hp.head
    obtain ⟨q1, q2⟩ := hq.head
    have hk : p.1.length = q.1.length :=
      le16_inj (hp.keyLt p (by simp)) (hq.keyLt q (by simp))
        (p1.left.left.left.inj q1.left.left.left rfl)
    have hv1 := hp.vrLen p (by simp)
    have hv2 := hq.vrLen q (by simp)
    have he := p1.inj q1 (by rw [entry_length hv1, entry_length hv2, hk])
    unfold entry at he
    obtain ⟨he, hvr⟩ := List.append_inj he (by simp [hk])
    obtain ⟨_, hkey⟩ := List.append_inj he (by simp)
    have hw := hr q (by simp)
    rw [← hvr] at hw
    have hval := hd p (by simp) _ hw
    rw [← hk] at q2
    have ih := entries_det (by simpa using hl) p2 q2 (fun y hy => hr y (by simp [hy]))
      (fun y hy => hd y (by simp [hy]))
    simp only [List.map_cons]
    rw [hkey, hval, ih]

/-- A reference denotes at most one value. -/
theorem Repr.det {env arena : Bytes} (henv : env.length < 2 ^ 32) : ∀ (v : Val) {w : Val} {vr : Bytes},
    Repr env arena vr v → Repr env arena vr w → v = w := by
  intro v
  induction v using Val.ind with
  | null =>
    intro w vr h h'
    obtain ⟨_, e1⟩ := h.tag
    obtain ⟨_, e2⟩ := h'.tag
    rw [e1] at e2; injection e2 with e2
    have := tagOf_eq e2
    cases w <;> first | rfl | cases this
  | bool b =>
    intro w vr h h'
    obtain ⟨_, e1⟩ := h.tag
    obtain ⟨_, e2⟩ := h'.tag
    rw [e1] at e2; injection e2 with e2
    have ht := tagOf_eq e2
    cases w with
    | bool b' =>
      cases h
      generalize hx : makeVr tBool 0 (if b = true then 1 else 0) 0 0 0 = y at h'
      cases h'
      have := (makeVr_inj hx).2.2.1
      have := le16_inj (by split <;> decide) (by split <;> decide) this
      cases b <;> cases b' <;> simp at this ⊢
    | _ => cases ht
  | int i =>
    intro w vr h h'
    obtain ⟨_, e1⟩ := h.tag
    obtain ⟨_, e2⟩ := h'.tag
    rw [e1] at e2; injection e2 with e2
    have ht := tagOf_eq e2
    cases w with
    | int j =>
      cases h
      generalize hx : makeVr tI64 0 0 _ _ 0 = y at h'
      cases h'
      obtain ⟨_, _, _, h1, h2, _⟩ := makeVr_inj hx
      have := bits_inj (le32_inj (lo32_lt _) (lo32_lt _) h1) (le32_inj (hi32_lt _) (hi32_lt _) h2)
      rw [← Int64.toInt64_toUInt64 i, ← Int64.toInt64_toUInt64 j, this]
    | _ => cases ht
  | uint n =>
    intro w vr h h'
    obtain ⟨_, e1⟩ := h.tag
    obtain ⟨_, e2⟩ := h'.tag
    rw [e1] at e2; injection e2 with e2
    have ht := tagOf_eq e2
    cases w with
    | uint m =>
      cases h
      generalize hx : makeVr tU64 0 0 _ _ 0 = y at h'
      cases h'
      obtain ⟨_, _, _, h1, h2, _⟩ := makeVr_inj hx
      rw [bits_inj (le32_inj (lo32_lt _) (lo32_lt _) h1) (le32_inj (hi32_lt _) (hi32_lt _) h2)]
    | _ => cases ht
  | dbl n =>
    intro w vr h h'
    obtain ⟨_, e1⟩ := h.tag
    obtain ⟨_, e2⟩ := h'.tag
    rw [e1] at e2; injection e2 with e2
    have ht := tagOf_eq e2
    cases w with
    | dbl m =>
      cases h
      generalize hx : makeVr tF64 0 0 _ _ 0 = y at h'
      cases h'
      obtain ⟨_, _, _, h1, h2, _⟩ := makeVr_inj hx
      rw [bits_inj (le32_inj (lo32_lt _) (lo32_lt _) h1) (le32_inj (hi32_lt _) (hi32_lt _) h2)]
    | _ => cases ht
  | str s =>
    intro w vr h h'
    obtain ⟨_, e1⟩ := h.tag
    obtain ⟨_, e2⟩ := h'.tag
    rw [e1] at e2; injection e2 with e2
    have ht := tagOf_eq e2
    cases w with
    | str s' =>
      cases h with
      | strInline _ hl =>
        generalize hx : inlineVr s = y at h'
        cases h' with
        | strInline _ hl' => rw [inlineVr_inj hl hl' hx]
        | strArena _ ofs h1 h2 h3 => exact (inline_ne_arena hx).elim
      | strArena _ ofs h1 h2 h3 =>
        generalize hx : makeVr tString 0 0 _ _ 0 = y at h'
        cases h' with
        | strInline _ hl' => exact (inline_ne_arena hx.symm).elim
        | strArena _ ofs' h1' h2' h3' =>
          obtain ⟨_, _, _, e1, e2, _⟩ := makeVr_inj hx
          have e1 := le32_inj h1 h1' e1
          have e2 := le32_inj h2 h2' e2
          subst e1
          rw [h3.inj h3' e2]
    | _ => cases ht
  | blob s =>
    intro w vr h h'
    obtain ⟨_, e1⟩ := h.tag
    obtain ⟨_, e2⟩ := h'.tag
    rw [e1] at e2; injection e2 with e2
    have ht := tagOf_eq e2
    cases w with
    | blob s' =>
      cases h with
      | blob _ ofs sofs h1 h2 h3 h4 h5 h6 =>
        generalize hx : makeVr tTyped 0 dtU8 _ _ _ = y at h'
        cases h' with
        | blob _ ofs' sofs' h1' h2' h3' h4' h5' h6' =>
          obtain ⟨_, _, _, e1, e2, _⟩ := makeVr_inj hx
          have e1 := le32_inj h1 h1' e1
          have e2 := le32_inj h2 h2' e2
          subst e1
          rw [h5.inj h5' e2]
    | _ => cases ht
  | arr xs ih =>
    intro w vr h h'
    obtain ⟨_, e1⟩ := h.tag
    obtain ⟨_, e2⟩ := h'.tag
    rw [e1] at e2; injection e2 with e2
    have ht := tagOf_eq e2
    cases w with
    | arr ys =>
      cases h with
      | arr ps ofs h1 h2 h3 =>
        generalize hx : makeVr tArray 0 0 _ 0 0 = y at h'
        cases h' with
        | arr qs ofs' h1' h2' h3' =>
          obtain ⟨_, _, _, e1, _⟩ := makeVr_inj hx
          have e1 := le32_inj h1 h1' e1
          subst e1
          have b1 := h2.bound
          have b2 := h2'.bound
          have l1 : (ps.map Prod.fst).flatten.length = 16 * ps.length := by
            rw [flatten16_length (by
              intro x hx; obtain ⟨p, hp, rfl⟩ := List.mem_map.1 hx; exact (h3 p hp).length)]
            simp
          have l2 : (qs.map Prod.fst).flatten.length = 16 * qs.length := by
            rw [flatten16_length (by
              intro x hx; obtain ⟨p, hp, rfl⟩ := List.mem_map.1 hx; exact (h3' p hp).length)]
            simp
          rw [List.length_append, l1] at b1
          rw [List.length_append, l2] at b2
          have hn : ps.length = qs.length :=
            le32_inj (by omega) (by omega) (h2.left.inj h2'.left rfl)
          have hf := h2.right.inj h2'.right (by rw [l1, l2, hn])
          have hm : ps.map Prod.fst = qs.map Prod.fst := by
            apply List.ext_getElem (by simp [hn])
            intro i hi hi'
            have a1 := flatten_at (env := env) (vs := ps.map Prod.fst) (by
              intro x hx; obtain ⟨p, hp, rfl⟩ := List.mem_map.1 hx; exact (h3 p hp).length)
              h2.right i hi
            have a2 := flatten_at (env := env) (vs := qs.map Prod.fst) (by
              intro x hx; obtain ⟨p, hp, rfl⟩ := List.mem_map.1 hx; exact (h3' p hp).length)
              h2'.right i hi'
            apply a1.inj a2
            rw [List.getElem_map, List.getElem_map, (h3 _ (List.getElem_mem _)).length,
              (h3' _ (List.getElem_mem _)).length]
          rw [pairs_det h3 h3' (fun p hp w hw =>
            ih p.2 (List.mem_map_of_mem hp) (h3 p hp) hw) rfl hm.symm]
    | _ => cases ht
  | map xs ih =>
    intro w vr h h'
    obtain ⟨_, e1⟩ := h.tag
    obtain ⟨_, e2⟩ := h'.tag
    rw [e1] at e2; injection e2 with e2
    have ht := tagOf_eq e2
    cases w with
    | map ys =>
      cases h with
      | map ps ofs h1 h2 h3 h4 =>
        generalize hx : makeVr tObject 0 0 _ 0 0 = y at h'
        cases h' with
        | map qs ofs' h1' h2' h3' h4' =>
          obtain ⟨_, _, _, e1, _⟩ := makeVr_inj hx
          have e1 := le32_inj h1 h1' e1
          subst e1
          have b1 := h2.bound
          have b2 := h2'.bound
          have l1 := entries_count ps
          have l2 := entries_count qs
          rw [List.length_append] at b1 b2
          have hn : ps.length = qs.length :=
            le32_inj (by omega) (by omega) (h2.left.inj h2'.left rfl)
          rw [entries_det hn ⟨h2.right, h3, fun p hp => (h4 p hp).length⟩
            ⟨h2'.right, h3', fun p hp => (h4' p hp).length⟩ h4' (fun p hp w hw =>
              ih (p.1, p.2.2) (List.mem_map_of_mem hp) (h4 p hp) hw)]
    | _ => cases ht

/-- A finished buffer determines envelope, arena and root. -/
theorem Finished.det {b env arena env' arena' : Bytes} {root ao root' ao' : Nat}
    (F : Finished b env arena root ao) (F' : Finished b env' arena' root' ao') :
    env = env' ∧ arena = arena' ∧ root = root' := by
  have h := F.eq.symm.trans F'.eq
  simp only [assemble, List.append_assoc] at h
  obtain ⟨_, h⟩ := List.append_inj h rfl
  obtain ⟨_, h⟩ := List.append_inj h rfl
  obtain ⟨_, h⟩ := List.append_inj h rfl
  obtain ⟨h1, h⟩ := List.append_inj h rfl
  obtain ⟨h2, h⟩ := List.append_inj h rfl
  obtain ⟨h3, h⟩ := List.append_inj h rfl
  have h1 := le32_inj F.rootLt F'.rootLt h1
  have h2 := le32_inj F.envLt F'.envLt h2
  have h3 := le32_inj F.arenaOfsLt F'.arenaOfsLt h3
  obtain ⟨h4, h⟩ := List.append_inj h h2
  obtain ⟨_, h⟩ := List.append_inj h (by simp [h2, h3])
  exact ⟨h4, h, h1⟩

end Zer.Zera
