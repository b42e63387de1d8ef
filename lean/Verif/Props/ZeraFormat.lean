import Verif.Zera.Conform
import Verif.Props.Zera

/-!
# C91: ZERA is the format its document describes

`IsMessage strict b v` (`Verif/Zera/Spec.lean`) restates `ZERA.md` without reference to the code: the bytes `b` are a message
that stands for `v`; with `strict`, unused and reserved fields and the padding are zero and blobs are aligned.
-/

namespace Zer.Zera

/-- C91, reader: every message the document allows is opened and presents the value it stands for. -/
theorem c91_zera_reader {st : Prop} {b : Bytes} {v : Val} (h : IsMessage st b v) :
    ∃ r, initFrom b = .ok r ∧ reader.AgreesStrictly r v := by
  obtain ⟨root, es, ao, M⟩ := h
  exact ⟨_, M.opens.1, M.value.agrees v M.opens.2⟩

/-- C91, writer: whatever is written, by any sequence of calls, is a message of the strict form that stands for the value the
calls describe. -/
theorem c91_zera_writer {thr : Nat} {es : List Ev} {b : Bytes} (h : serializeEvs thr es = .ok b) :
    ∃ v, Tree.eval es = some v ∧ IsMessage True b v := by
  obtain ⟨v, env, arena, root, ao, vr, h1, F, h2, h3⟩ := finished_of_ok h
  exact ⟨v, h1, root, env.length, ao, F.message h2 h3⟩

/-- C91, writer, for values. -/
theorem c91_zera_serialize {thr : Nat} {v : Val} {b : Bytes} (h : serializeEvs thr (emit v) = .ok b) : IsMessage True b v := by
  obtain ⟨w, h1, h2⟩ := c91_zera_writer h
  rw [Tree.eval_emit] at h1
  injection h1 with h1
  subst h1
  exact h2

theorem Message.inj {st st' : Prop} {b : Bytes} {v w : Val} {root es ao root' es' ao' : Nat} (M : Message st b v root es ao)
    (M' : Message st' b w root' es' ao') : root = root' ∧ es = es' ∧ ao = ao' ∧ v = w := by
  have h1 := M.hdrRoot.inj M'.hdrRoot
  have h2 := M.hdrEnv.inj M'.hdrEnv
  have h3 := M.hdrArena.inj M'.hdrArena
  subst h1; subst h2; subst h3
  exact ⟨rfl, rfl, rfl, Ref.det v w _ M.value M'.value⟩

/-- C91: the format is unambiguous: no bytes stand for two values. -/
theorem c91_zera_unambiguous {st st' : Prop} {b : Bytes} {v w : Val} (h : IsMessage st b v) (h' : IsMessage st' b w) : v = w := by
  obtain ⟨_, _, _, M⟩ := h
  obtain ⟨_, _, _, M'⟩ := h'
  exact (M.inj M').2.2.2

/-- What opening establishes, as the document says it. -/
theorem initFrom_header {b : Bytes} {r : View} (hb : b.length < 2 ^ 32 - 20) (h : initFrom b = .ok r) :
    ∃ root es ao, r = ⟨b, es, ao, some (HeaderSize + root)⟩ ∧ Num b 0 4 0x564E455A ∧ Num b 4 2 1 ∧ Num b 6 2 1 ∧ Num b 8 4 root ∧
      Num b 12 4 es ∧ Num b 16 4 ao ∧ ao % 16 = 0 ∧ 20 + es ≤ ao ∧ ao ≤ b.length := by
  have hin := initFrom_inBuf hb h
  obtain ⟨hd, hp, h⟩ := Res.bind_eq_ok.1 h
  obtain ⟨_, g1, h⟩ := Res.bind_eq_ok.1 h
  obtain ⟨_, g2, h⟩ := Res.bind_eq_ok.1 h
  obtain ⟨_, g3, h⟩ := Res.bind_eq_ok.1 h
  obtain ⟨_, g4, h⟩ := Res.bind_eq_ok.1 h
  obtain ⟨_, _, h⟩ := Res.bind_eq_ok.1 h
  obtain ⟨_, g5, h⟩ := Res.bind_eq_ok.1 h
  obtain ⟨_, g6, h⟩ := Res.bind_eq_ok.1 h
  obtain ⟨_, _, h⟩ := Res.bind_eq_ok.1 h
  obtain ⟨_, g7, h⟩ := Res.bind_eq_ok.1 h
  obtain ⟨_, _, h⟩ := Res.bind_eq_ok.1 h
  injection h with h
  obtain ⟨_, p0, hp⟩ := Res.bind_eq_ok.1 hp
  obtain ⟨m, q1, hp⟩ := Res.bind_eq_ok.1 hp
  obtain ⟨ve, q2, hp⟩ := Res.bind_eq_ok.1 hp
  obtain ⟨fl, q3, hp⟩ := Res.bind_eq_ok.1 hp
  obtain ⟨ro, q4, hp⟩ := Res.bind_eq_ok.1 hp
  obtain ⟨es, q5, hp⟩ := Res.bind_eq_ok.1 hp
  obtain ⟨ao, q6, hp⟩ := Res.bind_eq_ok.1 hp
  injection hp with hp
  subst hp
  have p0 : 20 ≤ b.length := of_decide_eq_true (Res.require_eq_ok.1 p0)
  have k1 := of_decide_eq_true (Res.require_eq_ok.1 g1)
  have k2 := of_decide_eq_true (Res.require_eq_ok.1 g2)
  have k3 := of_decide_eq_true (Res.require_eq_ok.1 g3)
  have k4 := of_decide_eq_true (Res.require_eq_ok.1 g4)
  have k5 := of_decide_eq_true (Res.require_eq_ok.1 g5)
  have k6 := of_decide_eq_true (Res.require_eq_ok.1 g6)
  have k7 := of_decide_eq_true (Res.require_eq_ok.1 g7)
  dsimp only at k1 k2 k3 k4 k5 k6 k7
  rw [k1] at q1; rw [k2] at q2; rw [k3] at q3
  have four : ∀ p n, p + 4 ≤ b.length → readU32 b p = .ok n → Num b p 4 n := by
    intro p n hl hr
    obtain ⟨m, hm⟩ := Num.exists hl
    have := hm.readU32
    rw [hr] at this
    injection this with this
    subst this
    exact hm
  have two : ∀ p n, p + 2 ≤ b.length → readU16 b p = .ok n → Num b p 2 n := by
    intro p n hl hr
    obtain ⟨m, hm⟩ := Num.exists hl
    have := hm.readU16
    rw [hr] at this
    injection this with this
    subst this
    exact hm
  have hlt := (four 12 es (by omega) q5).1
  have hlt : es < 2 ^ 32 := hlt
  have e : u32 (HeaderSize + es) = 20 + es := by simp [u32, HeaderSize]; omega
  rw [e] at k7
  exact ⟨ro, es, ao, h.symm, four 0 _ (by omega) q1, two 4 _ (by omega) q2, two 6 _ (by omega) q3, four 8 _ (by omega) q4,
    four 12 _ (by omega) q5, four 16 _ (by omega) q6, k6, k7, k5⟩

/-- C91, converse: a buffer below 4 GiB - 20 bytes presents a value (with distinct keys) exactly when the document says that it
stands for this value. Nothing the document does not describe is taken for a value. -/
theorem c91_zera_exact {b : Bytes} (hb : b.length < 2 ^ 32 - 20) {v : Val} (hv : v.Distinct) :
    (∃ r, initFrom b = .ok r ∧ reader.AgreesStrictly r v) ↔ IsMessage False b v := by
  constructor
  · rintro ⟨r, h, ha⟩
    obtain ⟨root, es, ao, rfl, h1, h2, h3, h4, h5, h6, h7, h8, h9⟩ := initFrom_header hb h
    have hlen : ((b.drop 20).take es).length = es := by
      rw [List.length_take, List.length_drop]; omega
    have hes : es < 2 ^ 32 := h5.1
    have S : Seen ⟨b, es, ao, some (HeaderSize + root)⟩ ((b.drop 20).take es) (b.drop ao) root :=
      ⟨⟨at_take (show 20 ≤ b.length by omega), at_drop h9, hlen.symm, by simp [View.arenaLen], by omega, h7⟩, rfl⟩
    exact ⟨root, es, ao, h1, h2, h3, h4, h5, h6, h7, h8, h9, ref_of_agrees v hv S ha, fun k => k.elim⟩
  · exact c91_zera_reader

mutual
theorem Ref.relax {st : Prop} {env arena : Bytes} : ∀ {p : Nat} {v : Val}, Ref st env arena p v → Ref False env arena p v
  | _, _, .null h _ => .null h (fun k => k.elim)
  | _, _, .bool h _ => .bool h (fun k => k.elim)
  | _, _, .int h e _ => .int h e (fun k => k.elim)
  | _, _, .uint h e _ => .uint h e (fun k => k.elim)
  | _, _, .dbl h e _ => .dbl h e (fun k => k.elim)
  | _, _, .strInline h e a _ => .strInline h e a (fun k => k.elim)
  | _, _, .strArena h a _ => .strArena h a (fun k => k.elim)
  | _, _, .arr h n e _ => .arr h n e.relax (fun k => k.elim)
  | _, _, .obj h n e _ => .obj h n e.relax (fun k => k.elim)
  | _, _, .blob h n e a _ => .blob h n e a (fun k => k.elim)
theorem Elems.relax {st : Prop} {env arena : Bytes} : ∀ {p : Nat} {v : List Val}, Elems st env arena p v → Elems False env arena p v
  | _, _, .nil => .nil
  | _, _, .cons h e => .cons h.relax e.relax
theorem Members.relax {st : Prop} {env arena : Bytes} :
    ∀ {p : Nat} {v : List (Bytes × Val)}, Members st env arena p v → Members False env arena p v
  | _, _, .nil => .nil
  | _, _, .cons h1 h2 _ h3 h4 e => .cons h1 h2 (fun k => k.elim) h3 h4.relax e.relax
end

/-- The strict form is a special case. -/
theorem c91_zera_strict {b : Bytes} {v : Val} (h : IsMessage True b v) : IsMessage False b v := by
  obtain ⟨r, e, a, M⟩ := h
  exact ⟨r, e, a, M.magic, M.version, M.flags, M.hdrRoot, M.hdrEnv, M.hdrArena, M.aligned, M.apart, M.inside, M.value.relax, fun k => k.elim⟩

theorem at_of_eq {b s : Bytes} {o : Nat} (h : (b.drop o).take s.length = s) (hl : o + s.length ≤ b.length) : At b o s := by
  rw [← h]; exact At.of_slice hl

/-- A message no writer of this project produces: junk before the root, a two-byte string in the arena, unused fields and padding
not zero. -/
def oddMessage : Bytes :=
  [0x5A, 0x45, 0x4E, 0x56, 1, 0, 1, 0, 3, 0, 0, 0, 20, 0, 0, 0, 48, 0, 0, 0,
   9, 9, 9, 4, 0, 7, 7, 1, 0, 0, 0, 2, 0, 0, 0, 8, 8, 8, 8, 9,
   5, 5, 5, 5, 5, 5, 5, 5, 1, 104, 105]

theorem oddMessage_is : IsMessage False oddMessage (.str [104, 105]) := by
  refine ⟨3, 20, 48, ?_⟩
  have n : ∀ {b : Bytes} {p k m : Nat}, (m < 256 ^ k ∧ (b.drop p).take (num k m).length = num k m ∧ p + (num k m).length ≤ b.length) → Num b p k m :=
    fun h => ⟨h.1, at_of_eq h.2.1 h.2.2⟩
  refine ⟨n (by decide), n (by decide), n (by decide), n (by decide), n (by decide), n (by decide), by decide, by decide, by decide, ?_,
    fun k => k.elim⟩
  exact .strArena (x := 0x0707) (a := 1) (c := 0x08080808) ⟨n (by decide), n (by decide), n (by decide), n (by decide), n (by decide), n (by decide)⟩
    (at_of_eq (by decide) (by decide)) (fun k => k.elim)

example : ∃ r, initFrom oddMessage = .ok r ∧ reader.AgreesStrictly r (.str [104, 105]) := c91_zera_reader oddMessage_is

/-- The same value as written. -/
example : IsMessage True ([0x5A, 0x45, 0x4E, 0x56, 1, 0, 1, 0, 0, 0, 0, 0, 16, 0, 0, 0, 48, 0, 0, 0,
    4, 1, 2, 0, 104, 105, 0, 0, 0, 0, 0, 0, 0, 0, 0, 0] ++ List.replicate 12 0) (.str [104, 105]) :=
  c91_zera_serialize (thr := 12) (by decide +kernel)

/-- C91: "v1 messages are < 4 GiB" (ZERA.md) is false: lengths and offsets are bounded separately, so a blob of 2^32 - 1 bytes is
written. -/
theorem c91_zera_size_refuted : ¬ ∀ (v : Val) (b : Bytes), serializeEvs 12 (emit v) = .ok b → b.length < 2 ^ 32 := by
  intro h
  obtain ⟨s, hs⟩ : ∃ s : Bytes, s.length = 4294967295 := by
    generalize 4294967295 = n
    exact ⟨List.replicate n 0, List.length_replicate⟩
  have hal : alignUp (20 + (16 + envCost (.blob s))) 16 = 48 := by simp [envCost, alignUp]
  have har : arenaAfter 12 0 (.blob s) = s.length := by simp [arenaAfter, alignUp]
  obtain ⟨b, hb⟩ := (serializeEvs_emit_ok_iff (thr := 12) (by decide) (.blob s)).2
    ⟨by simp [Val.ShortKeys], by rw [hal]; decide, by rw [har, hs]; decide⟩
  have h1 := serializeEvs_emit_length (thr := 12) (by decide) hb
  rw [hal, har, hs] at h1
  have := h _ _ hb
  omega

/-- C91: the documented typed arrays of other element types than `u8` have no kind: every predicate is false, so they cannot be
read. -/
theorem c91_zera_typed_array {v : View} {env arena : Bytes} {q flags dt a b c : Nat} (S : Seen v env arena q)
    (h : ValueRef env q 7 flags dt a b c) (hd : dt ≠ 2) :
    reader.Shows v false false false false false false false false ∧ v.asBlob = .err .deser := by
  have hs := sees_shows S h
  have hb : v.isBlob = .ok false := by
    have : v.isBlob = .ok (decide (7 = 7) && decide (dt = 2)) := hs.2.2.2.2.2.1
    simpa [hd] using this
  refine ⟨by simpa [hd] using hs, ?_⟩
  simp only [View.asBlob, View.blobRange, hb, Res.ok_bind]
  rfl

/-- C91: a typed array of `u8` that has not rank 1 claims to be a blob, but `asBlob` raises. -/
theorem c91_zera_matrix {v : View} {env arena : Bytes} {q a b c rank : Nat} (S : Seen v env arena q)
    (h : ValueRef env q 7 0 2 a b c) (hr : Num env c 4 rank) (hd : rank ≠ 1) :
    v.isBlob = .ok true ∧ v.asBlob = .err .deser := by
  have hb : v.isBlob = .ok true := (sees_shows S h).2.2.2.2.2.1
  refine ⟨hb, ?_⟩
  have hbd := hr.bound
  rw [← S.holds.envSize] at hbd
  have r1 := (hr.trans S.holds.envAt).readU32
  simp only [View.asBlob, View.blobRange, hb, sees_flagsOk S h rfl, sees_c S h, Res.ok_bind, envPtrAt_ok (ofs := c) (need := 4) (v := v) hbd, r1]
  by_cases h8 : rank ≤ RankMax <;> simp [h8, hd, Res.require]

/-- Both occur: an array of two doubles, and a 1×2 matrix of bytes. -/
def typedMessage (dt rank : UInt8) : Bytes :=
  [0x5A, 0x45, 0x4E, 0x56, 1, 0, 1, 0, 0, 0, 0, 0, 36, 0, 0, 0, 64, 0, 0, 0,
   7, 0, dt, 0, 0, 0, 0, 0, 16, 0, 0, 0, 16, 0, 0, 0,
   rank, 0, 0, 0, 1, 0, 0, 0, 0, 0, 0, 0, 2, 0, 0, 0, 0, 0, 0, 0,
   0, 0, 0, 0, 0, 0, 0, 0] ++ List.replicate 16 7

example : ∃ r, initFrom (typedMessage 9 1) = .ok r ∧ r.isBlob = .ok false ∧ r.isArray = .ok false ∧ r.asBlob = .err .deser :=
  ⟨⟨typedMessage 9 1, 36, 64, some 20⟩, by decide +kernel, by decide +kernel, by decide +kernel, by decide +kernel⟩
example : ∃ r, initFrom (typedMessage 2 2) = .ok r ∧ r.isBlob = .ok true ∧ r.asBlob = .err .deser :=
  ⟨⟨typedMessage 2 2, 36, 64, some 20⟩, by decide +kernel, by decide +kernel, by decide +kernel⟩

/-! ### C90 for ZERA -/

/-- `[[], [], []]` with the three inner references pointing to the same count, which lies inside the first of them. -/
def sharedMessage : Bytes :=
  [0x5A, 0x45, 0x4E, 0x56, 1, 0, 1, 0, 52, 0, 0, 0, 68, 0, 0, 0, 96, 0, 0, 0, 3, 0, 0, 0,
   5, 0, 0, 0, 12, 0, 0, 0, 0, 0, 0, 0, 0, 0, 0, 0,
   5, 0, 0, 0, 12, 0, 0, 0, 0, 0, 0, 0, 0, 0, 0, 0,
   5, 0, 0, 0, 12, 0, 0, 0, 0, 0, 0, 0, 0, 0, 0, 0,
   5, 0, 0, 0, 0, 0, 0, 0, 0, 0, 0, 0, 0, 0, 0, 0,
   0, 0, 0, 0, 0, 0, 0, 0]

theorem sharedMessage_is : IsMessage True sharedMessage (.arr [.arr [], .arr [], .arr []]) := by
  refine ⟨52, 68, 96, ?_⟩
  have n : ∀ {b : Bytes} {p k m : Nat}, (m < 256 ^ k ∧ (b.drop p).take (num k m).length = num k m ∧ p + (num k m).length ≤ b.length) → Num b p k m :=
    fun h => ⟨h.1, at_of_eq h.2.1 h.2.2⟩
  have inner : ∀ p, p = 4 ∨ p = 20 ∨ p = 36 → Ref True ((sharedMessage.drop 20).take 68) (sharedMessage.drop 96) p (.arr []) := by
    intro p hp
    rcases hp with rfl | rfl | rfl <;>
      exact .arr (x := 0) (a := 12) (b := 0) (c := 0) ⟨n (by decide), n (by decide), n (by decide), n (by decide), n (by decide), n (by decide)⟩
        (n (by decide)) .nil (fun _ => by decide)
  refine ⟨n (by decide), n (by decide), n (by decide), n (by decide), n (by decide), n (by decide), by decide, by decide, by decide, ?_,
    fun _ => at_of_eq (by decide) (by decide)⟩
  exact .arr (x := 0) (a := 0) (b := 0) (c := 0) ⟨n (by decide), n (by decide), n (by decide), n (by decide), n (by decide), n (by decide)⟩
    (n (by decide)) (.cons (inner _ (by simp)) (.cons (inner _ (by simp)) (.cons (inner _ (by simp)) .nil))) (fun _ => by decide)

/-- C90 is false for ZERA: references may share what they point to, the writer stores it again each time. Three empty arrays in
an array take 112 bytes; 96 suffice. -/
theorem c90_zera_refuted : ¬ ∀ (v : Val) (b b' : Bytes), serializeEvs 12 (emit v) = .ok b → IsMessage True b' v → b.length ≤ b'.length := by
  intro h
  have h1 := (serializeEvs_emit_ok_iff (thr := 12) (by decide) (.arr [.arr [], .arr [], .arr []])).2
    ⟨by simp [Val.ShortKeys, Val.shortKeysList], by decide, by decide⟩
  obtain ⟨b, hb⟩ := h1
  have h2 := serializeEvs_emit_length (thr := 12) (by decide) hb
  have h3 := h _ _ _ hb sharedMessage_is
  have h4 : sharedMessage.length = 96 := rfl
  have h5 : alignUp (20 + (16 + envCost (.arr [.arr [], .arr [], .arr []]))) 16 = 112 := by decide
  rw [h5] at h2
  omega

end Zer.Zera
