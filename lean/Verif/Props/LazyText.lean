import Verif.Props.Lazy

/-!
# C108 for texts and blobs: reading one looks at no bytes but its own, and those on the way to it
-/

namespace Zer

/-- How many bytes an operation has given. -/
def Res.got : Res Bytes → Nat
  | .ok s => s.length
  | _ => 0

theorem looks_slice_got (p n : Nat) (b : Bytes) : Looks (sliceAt b p n).got (fun b => sliceAt b p n) b := by
  by_cases h : p + n ≤ b.length
  · have : (sliceAt b p n).got = n := by
      simp only [sliceAt, if_pos h, Res.got, List.length_take, List.length_drop]; omega
    rw [this]; exact looks_slice p n b
  · refine LooksAt.mono (Looks.none fun b' hl => ?_) (Nat.zero_le _)
    simp only [sliceAt, hl, if_neg h]; rfl

/-- Finding where some bytes are, and then reading them. -/
theorem looks_then_slice {j : Nat} {f : Bytes → Res (Nat × Nat)} {b : Bytes} (hf : Looks j f b) :
    Looks (j + (f b >>= fun x => sliceAt b x.1 x.2).got) (fun b => f b >>= fun x => sliceAt b x.1 x.2) b := by
  refine LooksAt.bind hf fun x e => ?_
  rw [e]
  exact looks_slice_got x.1 x.2 b

/-- An operation at the end of a way. -/
theorem looks_got_after {α : Type} {j k : Nat} {re : Bytes → α → α} {f : Bytes → Res α} {g : α → Res Bytes} {b : Bytes} (hf : LooksAt j re f b)
    (hg : ∀ x, re b x = x → Looks (k + (g x).got) (fun b' => g (re b' x)) b) :
    Looks (j + k + (f b >>= g).got) (fun b' => f b' >>= g) b := by
  rw [Nat.add_assoc]
  refine LooksAt.bind (g := fun _ => g) hf fun x e => ?_
  rw [e]
  exact hg x (hf.self e)

/-- **C108** ZERA, for any bytes: to read the text or blob at the end of a path of indexes, twenty bytes are looked at for the header, eleven for every
step, at most 29 for the text's own entry, and the bytes of the text itself; no others if there is no such text. -/
theorem Zera.c108_zera_text (is : List Nat) (b : Bytes) :
    Looks (49 + 11 * is.length + (initFrom b >>= reader.goto (is.map .idx) >>= View.asString).got)
      (fun b => initFrom b >>= reader.goto (is.map .idx) >>= View.asString) b ∧
    Looks (49 + 11 * is.length + (initFrom b >>= reader.goto (is.map .idx) >>= View.asBlob).got)
      (fun b => initFrom b >>= reader.goto (is.map .idx) >>= View.asBlob) b := by
  constructor
  · refine LooksAt.mono (looks_got_after (k := 29) (c108_zera_path is b) fun v hv => ?_) (by omega)
    have : Looks (29 + (v.on b).asString.got) (fun b' => (v.on b').asString) b := looks_then_slice (LooksAt.mono (looks_stringRange v b) (show 12 ≤ 29 by omega))
    simp only [hv] at this
    exact this
  · refine LooksAt.mono (looks_got_after (k := 29) (c108_zera_path is b) fun v hv => ?_) (by omega)
    have : Looks (29 + (v.on b).asBlob.got) (fun b' => (v.on b').asBlob) b := looks_then_slice (looks_blobRange v b)
    simp only [hv] at this
    exact this

namespace Flex

theorem looks_sizedRange (r : Ref) (b : Bytes) :
    Looks 16 (fun b => indirect b r.pos r.pw >>= fun p => sizeAt b p r.bw >>= fun n => Res.ok (p, n)) b :=
  LooksAt.mono (Looks.then (looks_indirect _ _ b) fun _ => Looks.then (looks_sizeAt _ _ b) fun _ => looks_const _ b) (by omega)

theorem sized_eq (r : Ref) (b : Bytes) : (r.on b).sized =
    (indirect b r.pos r.pw >>= fun p => sizeAt b p r.bw >>= fun n => Res.ok (p, n)) >>= fun x => sliceAt b x.1 x.2 := by
  show (indirect b r.pos r.pw >>= fun p => sizeAt b p r.bw >>= fun n => sliceAt b p n) = _
  cases indirect b r.pos r.pw with
  | ok p =>
    simp only [Res.ok_bind]
    cases sizeAt b p r.bw <;> rfl
  | _ => rfl

theorem looks_sized (r : Ref) (b : Bytes) : Looks (16 + (r.on b).sized.got) (fun b => (r.on b).sized) b := by
  have := looks_then_slice (looks_sizedRange r b)
  simp only [← sized_eq] at this
  exact this

theorem looks_required (c : Bool) (r : Ref) (b : Bytes) :
    Looks (16 + (Res.require c .deser >>= fun _ => (r.on b).sized).got) (fun b => Res.require c .deser >>= fun _ => (r.on b).sized) b := by
  cases c with
  | true => exact looks_sized r b
  | false => exact LooksAt.mono (looks_const (.err .deser) b) (Nat.zero_le _)

/-- **C108** Flex, for any bytes: two bytes for the root, 17 for every step, 16 for the reference and the size, and the bytes of the text itself. -/
theorem c108_flex_text (is : List Nat) (b : Bytes) :
    Looks (18 + 17 * is.length + (opn b >>= reader.goto (is.map .idx) >>= asString).got)
      (fun b => opn b >>= reader.goto (is.map .idx) >>= asString) b ∧
    Looks (18 + 17 * is.length + (opn b >>= reader.goto (is.map .idx) >>= asBlob).got)
      (fun b => opn b >>= reader.goto (is.map .idx) >>= asBlob) b := by
  constructor
  · refine LooksAt.mono (looks_got_after (k := 16) (c108_flex_path is b) fun r hr => ?_) (by omega)
    have := looks_required (isString r) r b
    simp only [hr] at this
    exact this
  · refine LooksAt.mono (looks_got_after (k := 16) (c108_flex_path is b) fun r hr => ?_) (by omega)
    have := looks_required (isBlob r) r b
    simp only [hr] at this
    exact this

end Flex

/-- The serialization of `[null, "ab"]`: the text is read, and not more than 62 of its bytes decide that. -/
example : ∃ b, Zera.proto.serialize (.arr [.null, .str [97, 98]]) = .ok b ∧
    (Zera.initFrom b >>= Zera.reader.goto [.idx 1] >>= Zera.View.asString) = .ok [97, 98] := ⟨_, rfl, by decide +kernel⟩

end Zer
