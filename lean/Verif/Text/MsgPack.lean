import Verif.Text.Spec
import Verif.Props.MsgPack

/-!
# The MessagePack reader prints what the buffer encodes
-/

namespace Zer.MsgPack
open Text

theorem shows_tests {b : Bytes} {nul boo num flt str blb mp ar : Bool} (h : reader.Shows b nul boo num flt str blb mp ar) :
    isNull b = nul ∧ isBool b = boo ∧ (isInt b || isUInt b) = num ∧ isFloat b = flt ∧ isString b = str ∧ isBlob b = blb ∧
      isMap b = mp ∧ isArray b = ar := by
  obtain ⟨h1, h2, ⟨i, u, hi, hu, h3⟩, h4, h5, h6, h7, h8⟩ := h
  simp only [reader, Res.ok.injEq] at *
  subst h1 h2 hi hu h3 h4 h5 h6 h7 h8
  exact ⟨rfl, rfl, rfl, rfl, rfl, rfl, rfl, rfl⟩

theorem child_at {c : Bytes} (h : Elem Lim c) (pre rest : Bytes) :
    child (pre ++ (c ++ rest)) pre.length = .ok (c, (pre ++ c).length) := by
  simp [child, subspan_append, Elem.skip h, first_append]

variable {F : Fmt}

theorem dump_int {z : Int} {b : Bytes} (H : EncInt z b) (f pad : Nat) :
    ∃ t, dump F (f + 1) b pad = .ok t ∧ (t = asc "int: " ++ F.dec z ∨ 0 ≤ z ∧ t = asc "uint: " ++ F.dec z) := by
  have S := showsInt_enc H []
  rw [List.append_nil] at S
  obtain ⟨hs, h1, h2⟩ := S
  obtain ⟨s1, s2, s3, _⟩ := shows_tests hs
  by_cases hi : isInt b = true
  · obtain ⟨x, hx, hz⟩ := h1 (by simp [reader, hi])
    have hx' : asInt64 b = .ok x := hx
    exact ⟨_, by simp [dump, s1, s2, hi, hx', hz], .inl rfl⟩
  · have hu : isUInt b = true := by simpa [hi] using s3
    obtain ⟨x, hx, hz⟩ := h2 (by simp [reader, hu])
    have hx' : asUInt64 b = .ok x := hx
    exact ⟨_, by simp [dump, s1, s2, hi, hu, hx', hz], .inr ⟨by omega, rfl⟩⟩

mutual
theorem dump_enc : ∀ (v : Val) {b : Bytes}, v.Below Lim → Enc v b → ∀ f, b.length < f → ∀ pad,
    ∃ t, dump F f b pad = .ok t ∧ Prints colon F pad v t
  | .null, b, _, h, f + 1, _, pad => by
      simp only [Enc] at h; subst h; exact ⟨_, rfl, rfl⟩
  | .bool x, b, _, h, f + 1, _, pad => by
      simp only [Enc] at h; subst h
      cases x <;> exact ⟨_, rfl, rfl⟩
  | .int i, b, _, h, f + 1, _, pad => by
      simp only [Enc] at h
      obtain ⟨t, h1, h2⟩ := dump_int (F := F) h f pad
      exact ⟨t, h1, h2⟩
  | .uint n, b, _, h, f + 1, _, pad => by
      simp only [Enc] at h
      obtain ⟨t, h1, h2⟩ := dump_int (F := F) h f pad
      exact ⟨t, h1, h2.imp id And.right⟩
  | .dbl d, b, _, h, f + 1, _, pad => by
      simp only [Enc] at h
      have e := asDouble_enc h (UInt64.toNat_lt d) []
      have S := shows_dbl h []
      rw [List.append_nil] at e S
      obtain ⟨s1, s2, s3, s4, _⟩ := shows_tests S
      rw [Bool.or_eq_false_iff] at s3
      exact ⟨_, by simp [dump, s1, s2, s3, s4, e]; rfl, rfl⟩
  | .str s, b, hb, h, f + 1, _, pad => by
      simp only [Enc] at h; obtain ⟨hd, H, rfl⟩ := h
      have e := asStringView_head H []
      have S := shows_str H s
      rw [List.append_nil] at e
      obtain ⟨s1, s2, s3, s4, s5, _⟩ := shows_tests S
      rw [Bool.or_eq_false_iff] at s3
      exact ⟨_, by simp [dump, s1, s2, s3, s4, s5, e]; rfl, by simp [Prints, colon]⟩
  | .blob s, b, hb, h, f + 1, _, pad => by
      simp only [Enc] at h; obtain ⟨hd, H, rfl⟩ := h
      have e := asBlob_head H []
      have S := shows_bin H s
      rw [List.append_nil] at e
      obtain ⟨s1, s2, s3, s4, s5, s6, _⟩ := shows_tests S
      rw [Bool.or_eq_false_iff] at s3
      exact ⟨_, by simp [dump, s1, s2, s3, s4, s5, s6, e]; rfl, by simp [Prints, colon]⟩
  | .arr xs, b, hb, h, f + 1, hf, pad => by
      simp only [Enc] at h
      obtain ⟨hd, cs, H, hc, rfl⟩ := h
      obtain ⟨s1, s2, s3, s4, s5, s6, s7, s8⟩ := shows_tests (shows_arr H cs.flatten)
      rw [Bool.or_eq_false_iff] at s3
      have hp := H.pos
      obtain ⟨ls, h1, h2⟩ := dumpArr_enc xs (by simpa [Val.Below] using hb) hc f
        (fun c hc => by have := length_le_flatten hc; simp only [List.length_append] at hf; omega) hd pad
      exact ⟨_, by simp [dump, s1, s2, s3, s4, s5, s6, s7, s8, arrInfo_head H, h2]; rfl,
        by simp only [Prints]; exact ⟨ls, h1, by simp [spaces]⟩⟩
  | .map ms, b, hb, h, f + 1, hf, pad => by
      simp only [Enc] at h
      obtain ⟨hd, cs, H, hc, rfl⟩ := h
      obtain ⟨s1, s2, s3, s4, s5, s6, s7, s8⟩ := shows_tests (shows_map H cs.flatten)
      rw [Bool.or_eq_false_iff] at s3
      have hp := H.pos
      obtain ⟨ls, h1, h2⟩ := dumpMap_enc ms (by simpa [Val.Below] using hb) hc f
        (fun c hc => by have := length_le_flatten hc; simp only [List.length_append] at hf; omega) hd pad
      exact ⟨_, by simp [dump, s1, s2, s3, s4, s5, s6, s7, mapInfo_head H, h2]; rfl,
        by simp only [Prints]; exact ⟨ls, h1, by simp [spaces]⟩⟩
theorem dumpArr_enc : ∀ (xs : List Val) {cs : List Bytes}, Val.Below.belowList Lim xs → EncList xs cs → ∀ f,
    (∀ c ∈ cs, c.length < f) → ∀ (pre : Bytes) (pad : Nat),
    ∃ ls, PrintsList colon F (pad + 2) xs ls ∧
      dumpArr (fun e => dump F f e (pad + 2)) (pre ++ cs.flatten) pad xs.length pre.length = .ok (lines (pad + 2) ls)
  | [], cs, _, h, f, hf, pre, pad => by
      simp only [EncList] at h; subst h; exact ⟨[], rfl, rfl⟩
  | x :: xs, cs, hb, h, f, hf, pre, pad => by
      simp only [EncList] at h
      simp only [Val.Below.belowList] at hb
      obtain ⟨c, cs', hc, hcs, rfl⟩ := h
      obtain ⟨t, h1, h2⟩ := dump_enc x hb.1 hc f (hf c (by simp)) (pad + 2)
      obtain ⟨ls, h3, h4⟩ := dumpArr_enc xs hb.2 hcs f (fun d hd => hf d (by simp [hd])) (pre ++ c) pad
      refine ⟨t :: ls, by simp only [PrintsList]; exact ⟨t, ls, h2, h3, rfl⟩, ?_⟩
      have e : (xs.length ≠ 0) = (ls ≠ []) := by
        rw [← h3.length, ne_eq, ne_eq, List.length_eq_zero_iff]
      rw [List.append_assoc] at h4
      simp only [List.flatten_cons, List.length_cons, dumpArr, child_at (Enc.elem x hb.1 hc), Res.ok_bind, h1, h4, lines_cons, e,
        Res.pure_eq]
theorem dumpMap_enc : ∀ (ms : List (Bytes × Val)) {cs : List Bytes}, Val.Below.belowEntries Lim ms → EncEntries ms cs → ∀ f,
    (∀ c ∈ cs, c.length < f) → ∀ (pre : Bytes) (pad : Nat),
    ∃ ls, PrintsEntries colon F (pad + 2) ms ls ∧
      dumpMap (fun e => dump F f e (pad + 2)) (pre ++ cs.flatten) pad ms.length pre.length = .ok (lines (pad + 2) ls)
  | [], cs, _, h, f, hf, pre, pad => by
      simp only [EncEntries] at h; subst h; exact ⟨[], rfl, rfl⟩
  | (k, x) :: ms, cs, hb, h, f, hf, pre, pad => by
      simp only [EncEntries] at h
      simp only [Val.Below.belowEntries] at hb
      obtain ⟨hk, c, cs', H, hc, hcs, rfl⟩ := h
      obtain ⟨t, h1, h2⟩ := dump_enc x hb.2.1 hc f (hf c (by simp)) (pad + 2)
      obtain ⟨ls, h3, h4⟩ := dumpMap_enc ms hb.2.2 hcs f (fun d hd => hf d (by simp [hd])) ((pre ++ (hk ++ k)) ++ c) pad
      refine ⟨(asc "\"" ++ esc k ++ asc "\": " ++ t) :: ls, by simp only [PrintsEntries]; exact ⟨t, ls, h2, h3, rfl⟩, ?_⟩
      have e : (ms.length ≠ 0) = (ls ≠ []) := by
        rw [← h3.length, ne_eq, ne_eq, List.length_eq_zero_iff]
      have c1 := child_at (Elem.str H hb.1) pre (c ++ cs'.flatten)
      have c2 := child_at (Enc.elem x hb.2.1 hc) (pre ++ (hk ++ k)) cs'.flatten
      have ek := asStringView_head H []
      rw [List.append_nil] at ek
      simp only [List.flatten_cons, List.append_assoc, List.length_cons, dumpMap, lines_cons, e,
        Res.pure_eq] at c1 c2 h4 ek ⊢
      simp only [c1, c2, Res.ok_bind, ek, h1, h4]
end

/-! ## Other inputs -/

theorem child_lt {v c : Bytes} {off off' : Nat} (hoff : 1 ≤ off) (h : child v off = .ok (c, off')) :
    c.length < v.length ∧ 1 ≤ off' := by
  simp only [child, Res.bind_eq_ok, Res.pure_eq, Res.ok.injEq, Prod.mk.injEq] at h
  obtain ⟨w, h1, n, h2, c', h3, rfl, rfl⟩ := h
  obtain ⟨pre, post, rfl, rfl⟩ := subspan_at h1
  have := first_at h3
  obtain ⟨p, q, rfl, _⟩ := this
  simp only [List.length_append]
  omega

theorem returns_child (v : Bytes) (off : Nat) : Returns (child v off) :=
  (returns_subspan v off).bind fun w _ => (returns_skip w).bind fun n _ => (returns_first w n).bind fun _ _ => returns_pure _

theorem returns_dumpArr {rec : Bytes → Res Bytes} {v : Bytes} (hr : ∀ c : Bytes, c.length < v.length → Returns (rec c)) (pad : Nat) :
    ∀ n off, 1 ≤ off → Returns (dumpArr rec v pad n off)
  | 0, _, _ => returns_pure _
  | n + 1, off, h => (returns_child v off).bind fun c hc =>
      have := child_lt h hc
      (hr c.1 this.1).bind fun _ _ => (returns_dumpArr hr pad n c.2 this.2).bind fun _ _ => returns_pure _

theorem returns_dumpMap {rec : Bytes → Res Bytes} {v : Bytes} (hr : ∀ c : Bytes, c.length < v.length → Returns (rec c)) (pad : Nat) :
    ∀ n off, 1 ≤ off → Returns (dumpMap rec v pad n off)
  | 0, _, _ => returns_pure _
  | n + 1, off, h => (returns_child v off).bind fun k hk => (returns_child v k.2).bind fun c hc =>
      have := child_lt (child_lt h hk).2 hc
      (returns_asStringView k.1).bind fun _ _ =>
      (hr c.1 this.1).bind fun _ _ => (returns_dumpMap hr pad n c.2 this.2).bind fun _ _ => returns_pure _

theorem arrInfo_pos {v : Bytes} {r : Nat × Nat} (h0 : arrInfo v = .ok r) : 1 ≤ r.2 := by
  obtain ⟨m, _, h0⟩ := Res.bind_eq_ok.1 h0
  split at h0
  · injection h0 with h0; subst h0; exact Nat.le_refl _
  split at h0
  · obtain ⟨_, _, h0⟩ := Res.bind_eq_ok.1 h0; injection h0 with h0; subst h0; simp
  split at h0
  · obtain ⟨_, _, h0⟩ := Res.bind_eq_ok.1 h0; injection h0 with h0; subst h0; simp
  · cases h0

theorem mapInfo_pos {v : Bytes} {r : Nat × Nat} (h0 : mapInfo v = .ok r) : 1 ≤ r.2 := by
  obtain ⟨m, _, h0⟩ := Res.bind_eq_ok.1 h0
  split at h0
  · injection h0 with h0; subst h0; exact Nat.le_refl _
  split at h0
  · obtain ⟨_, _, h0⟩ := Res.bind_eq_ok.1 h0; injection h0 with h0; subst h0; simp
  split at h0
  · obtain ⟨_, _, h0⟩ := Res.bind_eq_ok.1 h0; injection h0 with h0; subst h0; simp
  · cases h0

theorem returns_ite {α : Type} {c : Prop} [Decidable c] {x y : Res α} (hx : Returns x) (hy : Returns y) :
    Returns (if c then x else y) := by split <;> assumption

theorem returns_dump : ∀ (f : Nat) (v : Bytes) (pad : Nat), v.length < f → Returns (dump F f v pad)
  | f + 1, v, pad, h => by
    have hr : ∀ c : Bytes, c.length < v.length → Returns (dump F f c (pad + 2)) := fun c hc =>
      returns_dump f c _ (by omega)
    have T := reader_total
    unfold dump
    refine returns_ite (returns_pure _) <| returns_ite ((T.asBool v trivial).bind fun _ _ => returns_pure _) <|
      returns_ite ((T.asInt64 v trivial).bind fun _ _ => returns_pure _) <|
      returns_ite ((T.asUInt64 v trivial).bind fun _ _ => returns_pure _) <|
      returns_ite ((T.asDouble v trivial).bind fun _ _ => returns_pure _) <|
      returns_ite ((T.asStringView v trivial).bind fun _ _ => returns_pure _) <|
      returns_ite ((T.asBlob v trivial).bind fun _ _ => returns_pure _) <|
      returns_ite ((returns_mapInfo v).bind fun r h => (returns_dumpMap hr pad _ _ (mapInfo_pos h)).bind fun _ _ => returns_pure _) <|
      returns_ite ((returns_arrInfo v).bind fun r h => (returns_dumpArr hr pad _ _ (arrInfo_pos h)).bind fun _ _ => returns_pure _) <|
      returns_pure _

theorem dumpArr_clean {rec : Bytes → Res Bytes} (pad : Nat) : ∀ (cs : List Bytes) (pre : Bytes),
    (∀ c ∈ cs, Elem Lim c ∧ (rec c).Clean) → (dumpArr rec (pre ++ cs.flatten) pad cs.length pre.length).Clean
  | [], _, _ => .ok _
  | c :: cs, pre, h => by
    obtain ⟨h1, h2⟩ := h c (by simp)
    have := dumpArr_clean pad cs (pre ++ c) (fun d hd => h d (by simp [hd]))
    rw [List.append_assoc] at this
    simp only [List.flatten_cons, List.length_cons, dumpArr, child_at h1, Res.ok_bind]
    exact .bind h2 fun _ _ => .bind this fun _ _ => .pure _

theorem dumpMap_clean {rec : Bytes → Res Bytes} (pad : Nat) : ∀ (n : Nat) (cs : List Bytes) (pre : Bytes), cs.length = 2 * n →
    (∀ c ∈ cs, Elem Lim c ∧ (rec c).Clean) → (dumpMap rec (pre ++ cs.flatten) pad n pre.length).Clean
  | 0, _, _, _, _ => .ok _
  | n + 1, cs, pre, hn, h => by
    obtain ⟨k, c, cs', rfl, hn'⟩ := pairs hn
    obtain ⟨h1, h2⟩ := h k (by simp)
    obtain ⟨h3, h4⟩ := h c (by simp)
    have c1 := child_at h1 pre (c ++ cs'.flatten)
    have c2 := child_at h3 (pre ++ k) cs'.flatten
    have hs := h1.asStringView []
    rw [List.append_nil] at hs
    have := dumpMap_clean pad n cs' ((pre ++ k) ++ c) hn' (fun d hd => h d (by simp [hd]))
    simp only [List.flatten_cons, List.append_assoc, dumpMap] at c1 c2 this ⊢
    simp only [c1, c2, Res.ok_bind]
    exact .bind hs fun _ _ => .bind h4 fun _ _ => .bind this fun _ _ => .pure _

theorem clean_ite {α : Type} {c : Prop} [Decidable c] {x y : Res α} (hx : c → x.Clean) (hy : y.Clean) :
    (if c then x else y).Clean := by split; exact hx ‹_›; exact hy

theorem dump_clean : ∀ (f : Nat) (b : Bytes) (pad : Nat), b.length < f → Elem Lim b → (dump F f b pad).Clean
  | f + 1, b, pad, hf, h => by
    have K := h.kinds []
    have hs := h.asStringView []
    have hb := h.asBlob []
    rw [List.append_nil] at K hs hb
    unfold dump
    refine clean_ite (fun _ => .pure _) <| clean_ite (fun _ => .bind (asBool_clean b) fun _ _ => .pure _) <|
      clean_ite (fun _ => .bind (asInt64_clean b) fun _ _ => .pure _) <|
      clean_ite (fun _ => .bind (asUInt64_clean b) fun _ _ => .pure _) <|
      clean_ite (fun _ => .bind (asDouble_clean b) fun _ _ => .pure _) <|
      clean_ite (fun _ => .bind hs fun _ _ => .pure _) <|
      clean_ite (fun _ => .bind hb fun _ _ => .pure _) <|
      clean_ite (fun hm => ?_) <| clean_ite (fun ha => ?_) <| .pure _
    · obtain ⟨hd, cs, n, H, hn, hc, rfl⟩ := K.2.2.2 hm
      have := H.pos
      simp only [mapInfo_head H, Res.ok_bind]
      refine .bind (dumpMap_clean pad n cs hd hn fun c h => ⟨hc c h, dump_clean f c _ ?_ (hc c h)⟩) fun _ _ => .pure _
      have := length_le_flatten h; simp only [List.length_append] at hf; omega
    · obtain ⟨hd, cs, H, hc, rfl⟩ := K.2.2.1 ha
      have := H.pos
      simp only [arrInfo_head H, Res.ok_bind]
      refine .bind (dumpArr_clean pad cs hd fun c h => ⟨hc c h, dump_clean f c _ ?_ (hc c h)⟩) fun _ _ => .pure _
      have := length_le_flatten h; simp only [List.length_append] at hf; omega

end Zer.MsgPack
