import Verif.Props.Settle
import Verif.Props.Catch
import Verif.Json.Print
import Verif.Props.Flex
import Verif.Props.Size
import Verif.Props.Arrived
import Verif.Props.ZeraFormat

/-!
# Property C106: blobs can be overwritten in place

A blob has its place in a message, and the rest of the message depends on its length only: writing other bytes of the same number into
this place makes the message that the writer makes for the value with the other blob in place of the first.
-/

namespace Zer

open Proto

/-- The calls with `binary` of other bytes give the bytes with the others in the place of the first. -/
def Proto.Overwrites (P : Proto) (es : List Ev) (x : Bytes) (fs : List Ev) : Prop :=
  ∀ b, P.bytesOf (es ++ .blob x :: fs) = .ok b → ∃ A B, b = A ++ x ++ B ∧
    ∀ y : Bytes, y.length = x.length → P.bytesOf (es ++ .blob y :: fs) = .ok (A ++ y ++ B)

/-- The entries with the first value under the key changed. -/
def changeFirst (k : Bytes) (f : Val → Val) : List (Bytes × Val) → List (Bytes × Val)
  | [] => []
  | (k', v) :: ms => if k' = k then (k', f v) :: ms else (k', v) :: changeFirst k f ms

/-- The value with a blob in the place where the path ends. -/
def Val.put (y : Bytes) : List Hop → Val → Val
  | [], _ => .blob y
  | .idx i :: p, .arr xs => .arr (xs.modify i (Val.put y p))
  | .key k :: p, .map ms => .map (changeFirst k (Val.put y p) ms)
  | _ :: _, v => v

theorem emitList_append (xs ys : List Val) : emitList (xs ++ ys) = emitList xs ++ emitList ys := by
  induction xs with
  | nil => rfl
  | cons x xs ih => simp [emitList, ih]

/-- The calls for the value with another blob are those for the value, but for the one of the blob. -/
theorem emit_put {x : Bytes} : ∀ (p : List Hop) {v : Val}, v.at p = some (.blob x) →
    ∃ es fs, emit v = es ++ .blob x :: fs ∧ ∀ y, emit (v.put y p) = es ++ .blob y :: fs := by
  intro p
  induction p with
  | nil => intro v h; cases h; exact ⟨[], [], rfl, fun _ => rfl⟩
  | cons s p ih =>
    intro v h
    cases s with
    | idx i =>
      cases v <;> simp only [Val.at] at h <;> try (cases h; done)
      rename_i xs
      by_cases hi : i < xs.length
      · rw [dif_pos hi] at h
        obtain ⟨es, fs, h1, h2⟩ := ih h
        have e : ∀ f : Val → Val, xs.modify i f = xs.take i ++ f xs[i] :: xs.drop (i + 1) := by
          intro f
          rw [List.modify_eq_take_cons_drop hi]
        have e0 : xs = xs.take i ++ xs[i] :: xs.drop (i + 1) := by simp
        refine ⟨.beginArr xs.length :: (emitList (xs.take i) ++ es), fs ++ (emitList (xs.drop (i + 1)) ++ [.endArr]), ?_, fun y => ?_⟩
        · have : emitList xs = emitList (xs.take i) ++ (emit xs[i] ++ emitList (xs.drop (i + 1))) := by
            conv => lhs; rw [e0]
            rw [emitList_append]; rfl
          simp [emit, this, h1]
        · simp [Val.put, emit, List.length_modify]
          simp [e, emitList_append, emitList, h2]
      · rw [dif_neg hi] at h; cases h
    | key k =>
      cases v <;> simp only [Val.at] at h <;> try (cases h; done)
      rename_i ms
      have key : ∀ ms : List (Bytes × Val), (match firstVal ms k with
          | some w => w.at p
          | none => none) = some (.blob x) →
          ∃ es fs, emitEntries ms = es ++ .blob x :: fs ∧ ∀ y, emitEntries (changeFirst k (Val.put y p) ms) = es ++ .blob y :: fs ∧
            (changeFirst k (Val.put y p) ms).length = ms.length := by
        intro ms
        induction ms with
        | nil => intro h; cases h
        | cons m ms ih' =>
          obtain ⟨k', u⟩ := m
          intro h
          simp only [firstVal] at h
          by_cases hk : k' = k
          · rw [if_pos hk] at h
            obtain ⟨es, fs, h1, h2⟩ := ih h
            refine ⟨.key k' :: es, fs ++ emitEntries ms, by simp [emitEntries, h1], fun y => ?_⟩
            simp [changeFirst, hk, emitEntries, h2]
          · rw [if_neg hk] at h
            obtain ⟨es, fs, h1, h2⟩ := ih' h
            refine ⟨.key k' :: (emit u ++ es), fs, by simp [emitEntries, h1], fun y => ?_⟩
            simp [changeFirst, hk, emitEntries, h2]
      obtain ⟨es, fs, h1, h2⟩ := key ms h
      refine ⟨.beginMap ms.length :: es, fs ++ [.endMap], by simp [emit, h1], fun y => ?_⟩
      simp [Val.put, emit, h2]

/-- What is at the path after the blob has been put there. -/
theorem Val.at_put {x : Bytes} (y : Bytes) : ∀ (p : List Hop) {v : Val}, v.at p = some (.blob x) → (v.put y p).at p = some (.blob y) := by
  intro p
  induction p with
  | nil => intro v h; rfl
  | cons s p ih =>
    intro v h
    cases s with
    | idx i =>
      cases v <;> simp only [Val.at] at h <;> try (cases h; done)
      rename_i xs
      by_cases hi : i < xs.length
      · rw [dif_pos hi] at h
        simp only [Val.put, Val.at]
        rw [dif_pos (by simpa using hi)]
        simpa using ih h
      · rw [dif_neg hi] at h; cases h
    | key k =>
      cases v <;> simp only [Val.at] at h <;> try (cases h; done)
      rename_i ms
      have key : ∀ ms : List (Bytes × Val), firstVal (changeFirst k (Val.put y p) ms) k = (firstVal ms k).map (Val.put y p) := by
        intro ms
        induction ms with
        | nil => rfl
        | cons m ms ih' =>
          obtain ⟨k', u⟩ := m
          by_cases hk : k' = k
          · simp [changeFirst, firstVal, hk]
          · simp [changeFirst, firstVal, hk, ih']
      simp only [Val.put, Val.at, key]
      cases hf : firstVal ms k with
      | none => rw [hf] at h; cases h
      | some u => rw [hf] at h; exact ih h

/-- From calls to values. -/
theorem Proto.Overwrites.put {P : Proto} {v : Val} {p : List Hop} {x b : Bytes}
    (hP : ∀ es fs, emit v = es ++ .blob x :: fs → P.Overwrites es x fs) (h : v.at p = some (.blob x)) (hb : P.serialize v = .ok b) :
    ∃ A B, b = A ++ x ++ B ∧ ∀ y : Bytes, y.length = x.length → P.serialize (v.put y p) = .ok (A ++ y ++ B) := by
  obtain ⟨es, fs, h1, h2⟩ := emit_put p h
  obtain ⟨A, B, k1, k2⟩ := hP es fs h1 b (by rw [← h1]; exact hb)
  exact ⟨A, B, k1, fun y hy => by rw [← k2 y hy]; simp only [serialize, h2]⟩

/-- C106 for MessagePack: any calls. -/
theorem MsgPack.c106_msgpack (es fs : List Ev) (x : Bytes) : MsgPack.proto.Overwrites es x fs := by
  have e : ∀ es, MsgPack.proto.bytesOf es = .ok ((es.map MsgPack.packEv).flatten) := by
    intro es
    show (MsgPack.writer.run [] es >>= Res.ok) = _
    rw [MsgPack.packEv_run]; simp
  intro b hb
  refine ⟨(es.map MsgPack.packEv).flatten ++ MsgPack.packBinHead x.length, (fs.map MsgPack.packEv).flatten, ?_, fun y hy => ?_⟩
  · rw [e] at hb
    rw [← Res.ok.inj hb]
    simp [MsgPack.packEv]
  · rw [e]
    simp [MsgPack.packEv, hy]

/-- Two writers that are related stay so. -/
theorem Writer.twins {σ : Type} {W : Writer σ} {R : σ → σ → Prop}
    (h : ∀ {s s' t e}, R s s' → W.step s e = .ok t → ∃ t', W.step s' e = .ok t' ∧ R t t') : ∀ (es : List Ev) {s s' t : σ}, R s s' →
    W.run s es = .ok t → ∃ t', W.run s' es = .ok t' ∧ R t t'
  | [], s, s', t, hR, hr => by cases hr; exact ⟨s', rfl, hR⟩
  | e :: es, s, s', t, hR, hr => by
    simp only [Writer.run_cons] at hr ⊢
    obtain ⟨u, h1, h2⟩ := Res.bind_eq_ok.1 hr
    obtain ⟨u', k1, k2⟩ := h hR h1
    obtain ⟨t', j1, j2⟩ := Writer.twins h es k2 h2
    exact ⟨t', by rw [k1]; exact j1, j2⟩

/-- C106 for CBOR: any calls. -/
theorem Cbor.c106_cbor (utf8 : Bytes → Bool) (maxDepth : Nat) (hard : Bool) (f : Nat) (es fs : List Ev) (x : Bytes) :
    (Cbor.proto utf8 maxDepth hard f).Overwrites es x fs := by
  intro b hb
  obtain ⟨t, h1, h2⟩ := Res.bind_eq_ok.1 (show ((Cbor.writer utf8 maxDepth).run {} (es ++ .blob x :: fs) >>= Cbor.finish) = .ok b from hb)
  rw [Writer.run_append] at h1
  obtain ⟨s, h0, h1⟩ := Res.bind_eq_ok.1 h1
  obtain ⟨u, hu, h1⟩ := Res.bind_eq_ok.1 (show (Cbor.step utf8 maxDepth s (.blob x) >>= fun u => (Cbor.writer utf8 maxDepth).run u fs) = .ok t from h1)
  have hu : (Res.ok { out := s.out ++ (Cbor.headBytes 2 x.length ++ x), stack := Cbor.bump s.stack, wrote := true } : Res Cbor.WS) = .ok u := hu
  cases hu
  have tw : ∀ y : Bytes, ∃ B, ∃ t', (Cbor.writer utf8 maxDepth).run
      { out := s.out ++ (Cbor.headBytes 2 x.length ++ y), stack := Cbor.bump s.stack, wrote := true } fs = .ok t' ∧
      t.out = (s.out ++ Cbor.headBytes 2 x.length) ++ x ++ B ∧ t'.out = (s.out ++ Cbor.headBytes 2 x.length) ++ y ++ B ∧
      t.wrote = true ∧ t'.wrote = true := by
    intro y
    obtain ⟨t', k1, ⟨B, k2, k3⟩, -, k4, k5⟩ := Writer.twins (W := Cbor.writer utf8 maxDepth)
      (R := fun s1 s2 => (∃ B, s1.out = (s.out ++ Cbor.headBytes 2 x.length) ++ x ++ B ∧ s2.out = (s.out ++ Cbor.headBytes 2 x.length) ++ y ++ B) ∧
        s1.stack = s2.stack ∧ s1.wrote = true ∧ s2.wrote = true) (by
        rintro ⟨o1, st1, w1⟩ ⟨o2, st2, w2⟩ t e ⟨⟨B, hB1, hB2⟩, hst, hw1, hw2⟩ he
        dsimp only at hB1 hB2 hst hw1 hw2
        subst hB1 hB2 hst hw1 hw2
        have sc : ∀ c : Bytes, Cbor.scalar ⟨(s.out ++ Cbor.headBytes 2 x.length) ++ x ++ B, st1, true⟩ c = .ok t →
            ∃ t', Cbor.scalar ⟨(s.out ++ Cbor.headBytes 2 x.length) ++ y ++ B, st1, true⟩ c = .ok t' ∧
              ((∃ B, t.out = (s.out ++ Cbor.headBytes 2 x.length) ++ x ++ B ∧ t'.out = (s.out ++ Cbor.headBytes 2 x.length) ++ y ++ B) ∧
              t.stack = t'.stack ∧ t.wrote = true ∧ t'.wrote = true) := by
          intro c hc
          cases hc
          exact ⟨_, rfl, ⟨B ++ c, by simp, by simp⟩, rfl, rfl, rfl⟩
        have cl : Cbor.closeC ⟨(s.out ++ Cbor.headBytes 2 x.length) ++ x ++ B, st1, true⟩ = .ok t →
            ∃ t', Cbor.closeC ⟨(s.out ++ Cbor.headBytes 2 x.length) ++ y ++ B, st1, true⟩ = .ok t' ∧
              ((∃ B, t.out = (s.out ++ Cbor.headBytes 2 x.length) ++ x ++ B ∧ t'.out = (s.out ++ Cbor.headBytes 2 x.length) ++ y ++ B) ∧
              t.stack = t'.stack ∧ t.wrote = true ∧ t'.wrote = true) := by
          intro hc
          cases st1 with
          | nil => cases hc
          | cons o os =>
            simp only [Cbor.closeC] at hc ⊢
            by_cases ho : (if o.isObj = true then o.count / 2 else o.count) = o.len
            · rw [if_pos ho] at hc ⊢
              cases hc
              exact ⟨_, rfl, ⟨B, rfl, rfl⟩, rfl, rfl, rfl⟩
            · rw [if_neg ho] at hc; cases hc
        have op : ∀ (o : Bool) (m n : Nat), Cbor.openC maxDepth ⟨(s.out ++ Cbor.headBytes 2 x.length) ++ x ++ B, st1, true⟩ o m n = .ok t →
            ∃ t', Cbor.openC maxDepth ⟨(s.out ++ Cbor.headBytes 2 x.length) ++ y ++ B, st1, true⟩ o m n = .ok t' ∧
              ((∃ B, t.out = (s.out ++ Cbor.headBytes 2 x.length) ++ x ++ B ∧ t'.out = (s.out ++ Cbor.headBytes 2 x.length) ++ y ++ B) ∧
              t.stack = t'.stack ∧ t.wrote = true ∧ t'.wrote = true) := by
          intro o m n hc
          simp only [Cbor.openC] at hc ⊢
          split at hc
          · cases hc
          · rename_i hn
            rw [if_neg hn]
            cases hc
            exact ⟨_, rfl, ⟨B ++ Cbor.headBytes m n, by simp, by simp⟩, rfl, rfl, rfl⟩
        cases e with
        | null => exact sc _ he
        | bool _ => exact sc _ he
        | int _ => exact sc _ he
        | uint _ => exact sc _ he
        | dbl _ => exact sc _ he
        | blob _ => exact sc _ he
        | str z =>
          obtain ⟨c, c1, c2⟩ := Res.bind_eq_ok.1 (show (Cbor.textBytes utf8 z >>= fun c => Cbor.scalar _ c) = .ok t from he)
          obtain ⟨t', d1, d2⟩ := sc c c2
          exact ⟨t', by show (Cbor.textBytes utf8 z >>= fun c => Cbor.scalar _ c) = .ok t'; rw [c1]; exact d1, d2⟩
        | key z =>
          obtain ⟨c, c1, c2⟩ := Res.bind_eq_ok.1 (show (Cbor.textBytes utf8 z >>= fun c => Res.ok (Cbor.WS.mk _ _ _)) = .ok t from he)
          cases c2
          refine ⟨⟨(s.out ++ Cbor.headBytes 2 x.length) ++ y ++ B ++ c, Cbor.bump st1, true⟩, ?_, ⟨B ++ c, by simp, by simp⟩, rfl, rfl, rfl⟩
          show (Cbor.textBytes utf8 z >>= fun c => Res.ok (Cbor.WS.mk _ _ _)) = _
          rw [c1]; rfl
        | beginArr _ => exact op _ _ _ he
        | beginMap _ => exact op _ _ _ he
        | endArr => exact cl he
        | endMap => exact cl he)
      fs (s := { out := s.out ++ (Cbor.headBytes 2 x.length ++ x), stack := Cbor.bump s.stack, wrote := true })
      (s' := { out := s.out ++ (Cbor.headBytes 2 x.length ++ y), stack := Cbor.bump s.stack, wrote := true })
      ⟨⟨[], by simp, by simp⟩, rfl, rfl, rfl⟩ h1
    exact ⟨B, t', k1, k2, k3, k4, k5⟩
  obtain ⟨B, -, -, hB, -, hw, -⟩ := tw x
  refine ⟨s.out ++ Cbor.headBytes 2 x.length, B, ?_, fun y hy => ?_⟩
  · simp only [Cbor.finish, hw, if_true] at h2
    rw [← Res.ok.inj h2, hB]
  · obtain ⟨B', t', k1, k2, k3, -, k5⟩ := tw y
    have : B' = B := List.append_cancel_left (hB.symm.trans k2).symm
    subst this
    show ((Cbor.writer utf8 maxDepth).run {} (es ++ .blob y :: fs) >>= Cbor.finish) = _
    rw [Writer.run_append, h0]
    show (((Cbor.step utf8 maxDepth s (.blob y) >>= fun u => (Cbor.writer utf8 maxDepth).run u fs)) >>= Cbor.finish) = _
    have : Cbor.step utf8 maxDepth s (.blob y) = .ok { out := s.out ++ (Cbor.headBytes 2 x.length ++ y), stack := Cbor.bump s.stack, wrote := true } := by
      simp [Cbor.step, Cbor.scalar, hy]
    rw [this, Res.ok_bind, k1, Res.ok_bind]
    simp only [Cbor.finish, k5, if_true, k3]

namespace Zera

/-- The same state but for the arena. -/
def RS.on (s : RS) (a : Bytes) : RS := { s with arena := a }

theorem writeRootVr_on {s t : RS} {vr : Bytes} (h : writeRootVr s vr = .ok t) (a : Bytes) :
    writeRootVr (s.on a) vr = .ok (t.on a) ∧ t.arena = s.arena := by
  obtain ⟨st, env, arena, root, thr⟩ := s
  cases root with
  | some _ => cases h
  | none =>
    dsimp only [RS.on]
    simp only [writeRootVr, appendEnv] at h ⊢
    by_cases he : env.length > u32max
    · rw [if_pos he] at h; cases h
    · rw [if_neg he] at h ⊢
      cases h
      exact ⟨rfl, rfl⟩

theorem deliverVr_on {s t : RS} {vr : Bytes} (h : deliverVr s vr = .ok t) (a : Bytes) :
    deliverVr (s.on a) vr = .ok (t.on a) ∧ t.arena = s.arena := by
  obtain ⟨st, env, arena, root, thr⟩ := s
  cases st with
  | nil => exact writeRootVr_on (s := ⟨[], env, arena, root, thr⟩) h a
  | cons c st =>
    cases c with
    | arr p n => cases h; exact ⟨rfl, rfl⟩
    | map p n pend =>
      cases pend with
      | none => cases h
      | some pos =>
        simp only [deliverVr, RS.on] at h ⊢
        by_cases hp : pos + 16 > p.length
        · rw [if_pos hp] at h; cases h
        · rw [if_neg hp] at h ⊢
          cases h
          exact ⟨rfl, rfl⟩

theorem appendEnv_on {s t : RS} {bs : Bytes} {o : Nat} (h : appendEnv s bs = .ok (t, o)) (a : Bytes) :
    appendEnv (s.on a) bs = .ok (t.on a, o) ∧ t.arena = s.arena := by
  dsimp only [RS.on]
  simp only [appendEnv] at h ⊢
  by_cases he : s.env.length > u32max
  · rw [if_pos he] at h; cases h
  · rw [if_neg he] at h ⊢
    cases h
    exact ⟨rfl, rfl⟩

theorem arenaPut_on {s t : RS} {bs : Bytes} {al o : Nat} (h : arenaPut s bs al = .ok (t, o)) {a : Bytes} (ha : a.length = s.arena.length) :
    ∃ c, arenaPut (s.on a) bs al = .ok (t.on (a ++ c), o) ∧ t.arena = s.arena ++ c := by
  simp only [arenaPut, RS.on, ha, List.length_append, List.length_replicate] at h ⊢
  split at h
  · cases h
  · rename_i h1
    rw [if_neg h1]
    split at h
    · cases h
    · rename_i h2
      rw [if_neg h2]
      cases h
      exact ⟨List.replicate (alignUp s.arena.length (max 1 al) - s.arena.length) 0 ++ bs, by simp, by simp⟩

/-- One call with another arena of the same length. -/
theorem step_on {s t : RS} {e : Ev} (h : step s e = .ok t) {a : Bytes} (ha : a.length = s.arena.length) :
    ∃ c, step (s.on a) e = .ok (t.on (a ++ c)) ∧ t.arena = s.arena ++ c := by
  have dl : ∀ vr, deliverVr s vr = .ok t → ∃ c, deliverVr (s.on a) vr = .ok (t.on (a ++ c)) ∧ t.arena = s.arena ++ c := by
    intro vr h
    obtain ⟨h1, h2⟩ := deliverVr_on h a
    exact ⟨[], by simpa using h1, by simpa using h2⟩
  have close : ∀ {p : Bytes} {n : Nat} {st : List Ctx} {g : Nat → Bytes}, (writeU32At p 0 n >>= fun p' => appendEnv { s with st := st } p' >>= fun q =>
      deliverVr q.1 (g q.2)) = .ok t → ∃ c, (writeU32At p 0 n >>= fun p' => appendEnv (({ s with st := st } : RS).on a) p' >>= fun q =>
      deliverVr q.1 (g q.2)) = .ok (t.on (a ++ c)) ∧ t.arena = s.arena ++ c := by
    intro p n st g h
    obtain ⟨p', h1, h⟩ := Res.bind_eq_ok.1 h
    obtain ⟨⟨q, o⟩, h2, h⟩ := Res.bind_eq_ok.1 h
    obtain ⟨k1, k2⟩ := appendEnv_on h2 a
    obtain ⟨k3, k4⟩ := deliverVr_on h a
    refine ⟨[], ?_, by rw [k4, k2]; simp⟩
    rw [h1, Res.ok_bind, k1, Res.ok_bind, List.append_nil]
    exact k3
  cases e with
  | null => exact dl _ h
  | bool _ => exact dl _ h
  | int _ => exact dl _ h
  | uint _ => exact dl _ h
  | dbl _ => exact dl _ h
  | str z =>
    simp only [step] at h ⊢
    have et : (s.on a).thr = s.thr := rfl
    rw [et]
    split at h
    · rename_i h1
      rw [if_pos h1]
      exact dl _ h
    · rename_i h1
      rw [if_neg h1]
      split at h
      · cases h
      · rename_i h2
        rw [if_neg h2]
        obtain ⟨⟨q, o⟩, h3, h⟩ := Res.bind_eq_ok.1 h
        obtain ⟨c, k1, k2⟩ := arenaPut_on h3 ha
        obtain ⟨k3, k4⟩ := deliverVr_on h (a ++ c)
        exact ⟨c, by rw [k1, Res.ok_bind]; exact k3, by rw [k4, k2]⟩
  | blob z =>
    simp only [step] at h ⊢
    split at h
    · cases h
    · rename_i h2
      rw [if_neg h2]
      obtain ⟨⟨q, o⟩, h3, h⟩ := Res.bind_eq_ok.1 h
      obtain ⟨⟨q', o'⟩, h4, h⟩ := Res.bind_eq_ok.1 h
      obtain ⟨c, k1, k2⟩ := arenaPut_on h3 ha
      obtain ⟨j1, j2⟩ := appendEnv_on h4 (a ++ c)
      obtain ⟨k3, k4⟩ := deliverVr_on h (a ++ c)
      refine ⟨c, ?_, by rw [k4]; dsimp only; rw [j2]; exact k2⟩
      rw [k1, Res.ok_bind]
      dsimp only
      rw [j1, Res.ok_bind]
      exact k3
  | key z =>
    obtain ⟨st, env, arena, root, thr⟩ := s
    cases st with
    | nil => cases h
    | cons c st =>
      cases c with
      | arr p n => cases h
      | map p n pend =>
        cases pend with
        | some _ => cases h
        | none =>
          simp only [step, RS.on] at h ⊢
          split at h
          · cases h
          · rename_i h1
            rw [if_neg h1]
            cases h
            exact ⟨[], by simp, by simp⟩
  | beginArr _ => cases h; exact ⟨[], by simp [step, RS.on], by simp⟩
  | beginMap _ => cases h; exact ⟨[], by simp [step, RS.on], by simp⟩
  | endArr =>
    obtain ⟨st, env, arena, root, thr⟩ := s
    cases st with
    | nil => cases h
    | cons c st =>
      cases c with
      | map p n pend => cases h
      | arr p n => exact close (g := fun o => makeVr tArray 0 0 o 0 0) h
  | endMap =>
    obtain ⟨st, env, arena, root, thr⟩ := s
    cases st with
    | nil => cases h
    | cons c st =>
      cases c with
      | arr p n => cases h
      | map p n pend =>
        cases pend with
        | some _ => cases h
        | none => exact close (g := fun o => makeVr tObject 0 0 o 0 0) h

theorem run_on : ∀ (es : List Ev) {s t : RS} (_ : writer.run s es = .ok t) {a : Bytes} (_ : a.length = s.arena.length),
    ∃ c, writer.run (s.on a) es = .ok (t.on (a ++ c)) ∧ t.arena = s.arena ++ c
  | [], s, t, h, a, ha => by cases h; exact ⟨[], by simp, by simp⟩
  | e :: es, s, t, h, a, ha => by
    simp only [Writer.run_cons] at h ⊢
    obtain ⟨u, h1, h2⟩ := Res.bind_eq_ok.1 h
    obtain ⟨c, k1, k2⟩ := step_on h1 ha
    obtain ⟨d, j1, j2⟩ := run_on es h2 (a := a ++ c) (by rw [k2]; simp [ha])
    refine ⟨c ++ d, ?_, by rw [j2, k2]; simp⟩
    rw [show writer.step (s.on a) e = .ok (u.on (a ++ c)) from k1, Res.ok_bind, j1]
    simp

theorem finish_on {t : RS} {b : Bytes} (h : finish t = .ok b) : ∃ E, b = E ++ t.arena ∧ E.length % 16 = 0 ∧
    Num b 16 4 E.length ∧ ∀ a : Bytes, a.length = t.arena.length → finish (t.on a) = .ok (E ++ a) := by
  have key : ∀ {u : RS} {c : Bytes}, (if u.env.length > u32max then .err .ser else if u.arena.length > u32max then .err .ser
      else if alignUp (HeaderSize + u32 u.env.length) ArenaBaseAlign > u32max then .err .ser
      else .ok (assemble u.env u.arena (u.root.getD 0) (alignUp (HeaderSize + u32 u.env.length) ArenaBaseAlign)) : Res Bytes) = .ok c →
      ∃ E, c = E ++ u.arena ∧ E.length % 16 = 0 ∧ Num c 16 4 E.length ∧ ∀ a : Bytes, a.length = u.arena.length →
        (if u.env.length > u32max then .err .ser else if a.length > u32max then .err .ser
          else if alignUp (HeaderSize + u32 u.env.length) ArenaBaseAlign > u32max then .err .ser
          else .ok (assemble u.env a (u.root.getD 0) (alignUp (HeaderSize + u32 u.env.length) ArenaBaseAlign)) : Res Bytes) = .ok (E ++ a) := by
    intro u c hc
    split at hc
    · cases hc
    rename_i h1
    split at hc
    · cases hc
    rename_i h2
    split at hc
    · cases hc
    rename_i h3
    have hc := (Res.ok.inj hc).symm
    have hE : (assemble u.env [] (u.root.getD 0) (alignUp (HeaderSize + u32 u.env.length) ArenaBaseAlign)).length =
        alignUp (HeaderSize + u32 u.env.length) ArenaBaseAlign := by
      have e : u32 u.env.length = u.env.length := by
        simp only [u32, u32max] at h1 ⊢; omega
      have g := alignUp_ge (HeaderSize + u.env.length) ArenaBaseAlign
      rw [e]
      simp only [assemble, List.length_append, List.length_replicate, le32_length, le16_length, List.length_nil]
      simp only [HeaderSize] at g ⊢
      omega
    refine ⟨assemble u.env [] (u.root.getD 0) (alignUp (HeaderSize + u32 u.env.length) ArenaBaseAlign), ?_, ?_, ?_, fun a ha => ?_⟩
    · rw [hc]; simp [assemble]
    · rw [hE]
      exact alignUp_dvd _ (a := ArenaBaseAlign) (by decide)
    · rw [hE]
      refine .of4 (by simp only [u32max] at h3; omega) ?_
      rw [hc]
      exact ⟨le32 Magic ++ le16 Version ++ le16 1 ++ le32 (u.root.getD 0) ++ le32 u.env.length, u.env ++
        List.replicate (alignUp (HeaderSize + u32 u.env.length) ArenaBaseAlign - (HeaderSize + u.env.length)) 0 ++ u.arena, by simp [assemble], rfl⟩
    · rw [if_neg h1, if_neg (by rw [ha]; exact h2), if_neg h3]
      simp [assemble]
  obtain ⟨st, env, arena, root, thr⟩ := t
  cases st with
  | cons c st => cases h
  | nil =>
    cases root with
    | some o => exact key h
    | none =>
      obtain ⟨u, h1, h2⟩ := Res.bind_eq_ok.1 (show (writeRootVr ⟨[], env, arena, none, thr⟩ (makeVr tNull 0 0 0 0 0) >>= fun u => _) = .ok b from h)
      obtain ⟨E, k1, k2, k4, k3⟩ := key h2
      obtain ⟨-, ea⟩ := writeRootVr_on h1 []
      have ea : u.arena = arena := ea
      refine ⟨E, by rw [k1, ea], k2, k4, fun a ha => ?_⟩
      have := k3 a (by rw [ea]; exact ha)
      show (writeRootVr ((⟨[], env, arena, none, thr⟩ : RS).on a) (makeVr tNull 0 0 0 0 0) >>= fun u => _) = _
      rw [(writeRootVr_on h1 a).1, Res.ok_bind]
      exact this

/-- C106 for ZERA: any calls, any inline threshold. -/
theorem c106_zera_calls (thr : Nat) (es fs : List Ev) (x : Bytes) {b : Bytes} (hb : serializeEvs thr (es ++ .blob x :: fs) = .ok b) :
    ∃ A B, b = A ++ x ++ B ∧ A.length % 16 = 0 ∧ (∃ o, Num b 16 4 o ∧ o ≤ A.length) ∧
      ∀ y : Bytes, y.length = x.length → serializeEvs thr (es ++ .blob y :: fs) = .ok (A ++ y ++ B) := by
  obtain ⟨s0, g0, hb⟩ := Res.bind_eq_ok.1 hb
  obtain ⟨t, h1, h2⟩ := Res.bind_eq_ok.1 hb
  rw [Writer.run_append] at h1
  obtain ⟨s, g1, h1⟩ := Res.bind_eq_ok.1 h1
  obtain ⟨u, hu, h1⟩ := Res.bind_eq_ok.1 (show (step s (.blob x) >>= fun u => writer.run u fs) = .ok t from h1)
  simp only [step] at hu
  split at hu
  · cases hu
  rename_i hx
  obtain ⟨⟨q, o⟩, p1, hu⟩ := Res.bind_eq_ok.1 hu
  obtain ⟨⟨q', o'⟩, p2, h3⟩ := Res.bind_eq_ok.1 hu
  clear hu
  dsimp only at p2 h3
  obtain ⟨pad, e1, e2⟩ : ∃ pad, (s.arena ++ pad).length % 16 = 0 ∧ q = s.on (s.arena ++ pad ++ x) ∧
      ∀ y : Bytes, y.length = x.length → arenaPut s y ArenaBaseAlign = .ok (s.on (s.arena ++ pad ++ y), o) := by
    simp only [arenaPut] at p1 ⊢
    split at p1
    · cases p1
    rename_i c1
    cases p1
    refine ⟨_, ?_, rfl, fun y hy => ?_⟩
    · rw [List.length_append, List.length_replicate]
      have := alignUp_ge s.arena.length (max 1 ArenaBaseAlign)
      rw [Nat.add_sub_cancel' this]
      exact alignUp_dvd _ (a := 16) (by omega)
    · rw [if_neg c1, if_neg (by rw [hy]; exact hx)]
      rfl
  obtain ⟨rfl, e2⟩ := e2
  obtain ⟨E, k1, k2, k4, k3⟩ := finish_on h2
  have ua : u.arena = s.arena ++ pad ++ x := by
    rw [(deliverVr_on h3 []).2, (appendEnv_on p2 []).2]; rfl
  have ys : ∀ y : Bytes, y.length = x.length → step s (.blob y) = .ok (u.on (s.arena ++ pad ++ y)) := by
    intro y hy
    simp only [step]
    rw [if_neg (by rw [hy]; exact hx), e2 y hy, Res.ok_bind]
    dsimp only
    have := (appendEnv_on p2 (s.arena ++ pad ++ y)).1
    rw [hy, show s.on (s.arena ++ pad ++ y) = (s.on (s.arena ++ pad ++ x)).on (s.arena ++ pad ++ y) from rfl, this, Res.ok_bind]
    exact (deliverVr_on h3 _).1
  obtain ⟨c, -, hc⟩ := run_on fs h1 (a := u.arena) rfl
  refine ⟨E ++ (s.arena ++ pad), c, by rw [k1, hc, ua]; simp, by rw [List.length_append]; omega,
    ⟨_, k4, by rw [List.length_append]; omega⟩, fun y hy => ?_⟩
  obtain ⟨c', j1, j2⟩ := run_on fs h1 (a := s.arena ++ pad ++ y) (by rw [ua]; simp [hy])
  have : c' = c := List.append_cancel_left (j2.symm.trans hc)
  subst this
  simp only [serializeEvs, g0, Res.ok_bind]
  rw [Writer.run_append, g1]
  show ((step s (.blob y) >>= fun u => writer.run u fs) >>= finish) = _
  rw [ys y hy, Res.ok_bind, j1, Res.ok_bind, k3 _ (by rw [hc, ua]; simp [hy])]
  simp

/-- C106 for ZERA. -/
theorem c106_zera (es fs : List Ev) (x : Bytes) : proto.Overwrites es x fs := by
  intro b hb
  have e : ∀ es, serializeEvs InlineMax es = proto.bytesOf es := fun _ => rfl
  obtain ⟨A, B, h1, -, -, h2⟩ := c106_zera_calls InlineMax es fs x ((e _).trans hb)
  exact ⟨A, B, h1, fun y hy => (e _).symm.trans (h2 y hy)⟩

theorem at_byte? {b s : Bytes} {o : Nat} (h : At b o s) (i : Nat) (hi : i < s.length) : b[o + i]? = some s[i] := by
  obtain ⟨u, w, rfl, rfl⟩ := h
  rw [List.getElem?_append_right (by omega), Nat.add_sub_cancel_left, List.getElem?_append_left hi, List.getElem?_eq_getElem hi]

/-- The range of a blob. -/
theorem blobRange_seen {w : View} {env arena x : Bytes} {o a c : Nat} (S : Seen w env arena o) (h : ValueRef env o 7 0 2 a x.length c)
    (h1 : Num env c 4 1) (h2 : Num env (c + 4) 8 x.length) (ha : At arena a x) : w.blobRange = .ok (w.arenaOfs + a, x.length) := by
  have hle := ha.bound
  rw [← S.holds.arenaLen] at hle
  have hbd := h2.bound
  rw [← S.holds.envSize] at hbd
  have r1 := (h1.trans S.holds.envAt).readU32
  have r2 := (h2.trans S.holds.envAt).readU64
  rw [← Nat.add_assoc] at r2
  have hisb : w.isBlob = .ok true := by
    simp only [View.isBlob, sees_tag S h, sees_aux S h, Res.ok_bind]; rfl
  have e1 : w.envPtrAt c 4 = .ok (HeaderSize + c) := envPtrAt_ok (by omega)
  have e2 : w.envPtrAt c 12 = .ok (HeaderSize + c) := envPtrAt_ok (by omega)
  simp only [View.blobRange, hisb, sees_flagsOk S h rfl, sees_a S h, sees_b S h, sees_c S h, Res.ok_bind, e1, r1, r2]
  simp [RankMax, e2, arenaBytes_ok hle]

/-- The place of a blob that is not empty is the range that the reader returns. -/
theorem c106_zera_place {v : Val} {p : List Hop} {x b : Bytes} (h : v.at p = some (.blob x)) (hx : x ≠ []) (hb : proto.serialize v = .ok b) :
    ∃ A B r q, b = A ++ x ++ B ∧ (∀ y : Bytes, y.length = x.length → proto.serialize (v.put y p) = .ok (A ++ y ++ B)) ∧
      initFrom b = .ok r ∧ reader.goto p r = .ok q ∧ q.blobRange = .ok (A.length, x.length) := by
  obtain ⟨es, fs, e1, e2⟩ := emit_put p h
  have hb' : serializeEvs InlineMax (es ++ .blob x :: fs) = .ok b := by rw [← e1]; exact hb
  obtain ⟨A, B, h1, -, ⟨ao, hao, hle⟩, h2⟩ := c106_zera_calls InlineMax es fs x hb'
  -- another blob, different in every byte
  have hy : (x.map (· + 1)).length = x.length := by simp
  have hc := h2 _ hy
  rw [← e2] at hc
  obtain ⟨root, esz, ao1, M⟩ := c91_zera_serialize (v := v) (thr := InlineMax) hb
  obtain ⟨root', esz', ao2, M'⟩ := c91_zera_serialize hc
  have := M.hdrArena.inj hao
  subst this
  have ht : (A ++ x.map (· + 1) ++ B).take ao1 = b.take ao1 := by
    rw [h1, List.append_assoc, List.append_assoc, List.take_append_of_le_length hle, List.take_append_of_le_length hle]
  have hap := M.apart
  have := (num_take M.hdrArena ht (by omega)).inj M'.hdrArena
  subst this
  have := (num_take M.hdrRoot ht (by omega)).inj M'.hdrRoot
  subst this
  have := (num_take M.hdrEnv ht (by omega)).inj M'.hdrEnv
  subst this
  have henv : ((A ++ x.map (· + 1) ++ B).drop 20).take esz = (b.drop 20).take esz := by
    have e : ∀ c : Bytes, (c.drop 20).take esz = ((c.take ao1).drop 20).take esz := by
      intro c
      rw [List.drop_take, List.take_take, Nat.min_eq_left (by omega)]
    rw [e (A ++ _ ++ B), e b, ht]
  obtain ⟨hop, S⟩ := M.opens
  have V' := M'.value
  rw [henv] at V'
  obtain ⟨o, g1, g2⟩ := Ref.goto p S M.value h
  obtain ⟨o', g1', g2'⟩ := Ref.goto p S V' (Val.at_put _ p h)
  rw [g2] at g2'
  have ho : o = o' := by
    have := congrArg View.vr (Res.ok.inj g2')
    simp only [Option.some.injEq] at this
    omega
  subst ho
  refine ⟨A, B, _, _, h1, fun y hy => ?_, hop, g2, ?_⟩
  · have := h2 y hy
    rw [← e2] at this
    exact this
  · cases g1 with
    | @blob _ a c _ f1 f2 f3 f4 _ =>
      cases g1' with
      | @blob _ a' c' _ f1' f2' f3' f4' _ =>
        have := f1.a.inj f1'.a
        subst this
        have hx0 : 0 < x.length := List.length_pos_iff.2 hx
        have hat : At b (ao1 + a) x := S.holds.arenaAt.trans f4
        have hat' : At (A ++ x.map (· + 1) ++ B) (ao1 + a) (x.map (· + 1)) := (at_drop M'.inside).trans f4'
        have ne : ∀ c : UInt8, c ≠ c + 1 := by
          intro c hc
          have := congrArg UInt8.toNat hc
          simp only [UInt8.toNat_add, UInt8.reduceToNat] at this
          omega
        have lo : A.length ≤ ao1 + a := by
          apply Classical.byContradiction
          intro hn
          have u1 := at_byte? hat 0 hx0
          have u2 := at_byte? hat' 0 (by simpa using hx0)
          rw [h1, List.append_assoc, List.getElem?_append_left (by omega)] at u1
          rw [List.append_assoc, List.getElem?_append_left (by omega), u1] at u2
          simp only [List.getElem_map, Option.some.injEq] at u2
          exact ne _ u2
        have hi : ao1 + a ≤ A.length := by
          apply Classical.byContradiction
          intro hn
          have u1 := at_byte? hat (x.length - 1) (by omega)
          have u2 := at_byte? hat' (x.length - 1) (by simp; omega)
          rw [h1, List.getElem?_append_right (by simp; omega)] at u1
          rw [List.getElem?_append_right (by simp; omega)] at u2
          simp only [List.length_append, List.length_map, List.getElem_map] at u1 u2
          rw [u1] at u2
          simp only [Option.some.injEq] at u2
          exact ne _ u2
        have S' := S.moved (o := o)
        have hao2 : ({ buf := b, envSize := esz, arenaOfs := ao1, vr := some (HeaderSize + o) } : View).arenaOfs + a = A.length := by
          show ao1 + a = _
          omega
        show (({ buf := b, envSize := esz, arenaOfs := ao1, vr := some (HeaderSize + o) } : View)).blobRange = _
        rw [← hao2]
        generalize ({ buf := b, envSize := esz, arenaOfs := ao1, vr := some (HeaderSize + o) } : View) = w at S'
        exact blobRange_seen S' f1 f2 f3 f4

end Zera

namespace Flex
variable {L : Lib}

/-- Both have been made longer by the same bytes. -/
def Grown (b b' c c' : Bytes) : Prop := ∃ e, c = b ++ e ∧ c' = b' ++ e

theorem Grown.trans {b b' c c' d d' : Bytes} (h : Grown b b' c c') (k : Grown c c' d d') : Grown b b' d d' := by
  obtain ⟨e, rfl, rfl⟩ := h
  obtain ⟨f, rfl, rfl⟩ := k
  exact ⟨e ++ f, by simp, by simp⟩

theorem Grown.length {b b' c c' : Bytes} (h : Grown b b' c c') (hl : b.length = b'.length) : c.length = c'.length := by
  obtain ⟨e, rfl, rfl⟩ := h
  simp [hl]

theorem grown_append (b b' e : Bytes) : Grown b b' (b ++ e) (b' ++ e) := ⟨e, rfl, rfl⟩

theorem grown_align {b b' : Bytes} (hl : b.length = b'.length) (w : Nat) : Grown b b' (align b w) (align b' w) :=
  ⟨_, rfl, by simp [align, hl]⟩

theorem grown_writeAll (w : Nat) : ∀ (vs : List BV) {b b' : Bytes}, b.length = b'.length →
    Grown b b' (writeAll b w vs) (writeAll b' w vs)
  | [], b, b', _ => ⟨[], by simp [writeAll], by simp [writeAll]⟩
  | v :: vs, b, b', hl => by
    simp only [writeAll]
    rw [← hl]
    exact (grown_append b b' _).trans (grown_writeAll w vs (by simp [hl]))

theorem grown_vector {b b' : Bytes} (hl : b.length = b'.length) (vals : List BV) (len step : Nat) (typed : Bool) (keys : Option BV) :
    Grown b b' (createVector b vals len step typed keys).1 (createVector b' vals len step typed keys).1 ∧
      (createVector b vals len step typed keys).2 = (createVector b' vals len step typed keys).2 := by
  cases keys with
  | none =>
    simp only [createVector, ← hl]
    generalize 2 ^ max (widthU len) (widest b.length step 1 vals) = w
    have h1 := (grown_align hl w).trans (grown_append _ _ (le w len))
    have h2 := h1.trans (grown_writeAll w vals (h1.length hl))
    refine ⟨?_, by rw [h1.length hl]⟩
    cases typed
    · exact h2.trans (grown_append _ _ _)
    · exact h2
  | some k =>
    simp only [createVector, ← hl]
    generalize 2 ^ max (max (widthU len) (k.elemWidth b.length 0)) (widest b.length step 3 vals) = w
    have h0 := grown_align hl w
    rw [← h0.length hl]
    have h1 := ((h0.trans (grown_append _ _ (le w ((align b w).length - k.u)))).trans (grown_append _ _ (le w (2 ^ k.w)))).trans
      (grown_append _ _ (le w len))
    have h2 := h1.trans (grown_writeAll w vals (h1.length hl))
    refine ⟨?_, by rw [h1.length hl]⟩
    cases typed
    · exact h2.trans (grown_append _ _ _)
    · exact h2

theorem grown_blob {b b' : Bytes} (hl : b.length = b'.length) (ty : Nat) (s tail : Bytes) :
    Grown b b' (createBlob b ty s tail).1 (createBlob b' ty s tail).1 ∧ (createBlob b ty s tail).2 = (createBlob b' ty s tail).2 := by
  have h := (grown_align hl (2 ^ widthU s.length)).trans (grown_append _ _ (le (2 ^ widthU s.length) s.length))
  exact ⟨h.trans (grown_append _ _ _), by simp only [createBlob, h.length hl]⟩

theorem grown_root {b b' : Bytes} (hl : b.length = b'.length) (v : BV) : Grown b b' (finishRoot b v) (finishRoot b' v) := by
  simp only [finishRoot, ← hl]
  have h := grown_align hl (2 ^ v.elemWidth b.length 0)
  rw [← h.length hl]
  exact (h.trans (grown_append _ _ _)).trans (grown_append _ _ _)

/-- The same key stands in both buffers. -/
def Both (b b' : Bytes) (p : Nat) : Prop := ∃ k, (0 : UInt8) ∉ k ∧ At b p (k ++ [0]) ∧ At b' p (k ++ [0])

theorem Both.cstr {b b' : Bytes} {p : Nat} (h : Both b b' p) : cstrAt b p = cstrAt b' p := by
  obtain ⟨k, h0, h1, h2⟩ := h
  rw [cstrAt_at h0 h1, cstrAt_at h0 h2]

theorem Both.grown {b b' c c' : Bytes} {p : Nat} (h : Both b b' p) (g : Grown b b' c c') : Both c c' p := by
  obtain ⟨k, h0, h1, h2⟩ := h
  obtain ⟨e, rfl, rfl⟩ := g
  exact ⟨k, h0, h1.append_right e, h2.append_right e⟩

/-- Two writers that differ in bytes that are not keys. -/
structure Twin (s s' : RS) : Prop where
  stack : s'.stack = s.stack
  pool : s'.pool = s.pool
  wrote : s'.wrote = s.wrote
  st : s'.st = s.st
  length : s.buf.length = s'.buf.length
  pooled : ∀ p ∈ s.pool, Both s.buf s'.buf p
  keys : ∀ v ∈ s.stack, v.ty = 4 → Both s.buf s'.buf v.u

theorem findKey_both {b b' : Bytes} {l : Nat} (hl : Both b b' l) : ∀ {ps : List Nat}, (∀ p ∈ ps, Both b b' p) →
    findKey b' l ps = findKey b l ps
  | [], _ => rfl
  | p :: ps, h => by
    rw [findKey, findKey, (h p (by simp)).cstr, hl.cstr, findKey_both hl (fun q hq => h q (by simp [hq]))]

theorem keyStrings_both {b b' : Bytes} : ∀ {ps : List (BV × BV)}, (∀ p ∈ ps, Both b b' p.1.u) → keyStrings b' ps = keyStrings b ps
  | [], _ => rfl
  | p :: ps, h => by
    rw [keyStrings, keyStrings, (h p (by simp)).cstr, keyStrings_both (fun q hq => h q (by simp [hq]))]

theorem Twin.push {s s' : RS} (T : Twin s s') (v : BV) (hv : v.ty ≠ 4) : Twin (push s v) (push s' v) where
  stack := by simp [Flex.push, T.stack]
  pool := T.pool
  wrote := rfl
  st := T.st
  length := T.length
  pooled := T.pooled
  keys w hw h4 := by
    simp only [Flex.push, List.mem_append, List.mem_singleton] at hw
    rcases hw with hw | rfl
    · exact T.keys w hw h4
    · exact absurd h4 hv

/-- The call has the same effect on both. -/
theorem step_twin {N : Prop} {dbg : Bool} {t t' : Tree} {s s' r : RS} {e : Ev} (hr : Rel N L t s) (h : t.step e = some t')
    (hs : step L dbg s e = .ok r) (T : Twin s s') :
    ∃ r', step L dbg s' e = .ok r' ∧ Twin r r' ∧ Grown s.buf s'.buf r.buf r'.buf := by
  have hid : Grown s.buf s'.buf s.buf s'.buf := ⟨[], by simp, by simp⟩
  have sc : ∀ v : BV, v.ty ≠ 4 → .ok (push s v) = Res.ok r → ∃ r', Res.ok (push s' v) = .ok r' ∧ Twin r r' ∧ Grown s.buf s'.buf r.buf r'.buf := by
    intro v hv hs
    cases Res.ok.inj hs
    exact ⟨_, rfl, T.push v hv, hid⟩
  have bl : ∀ (ty : Nat) (a tail : Bytes), ty ≠ 4 → .ok (pushBlob s (createBlob s.buf ty a tail)) = Res.ok r →
      ∃ r', Res.ok (pushBlob s' (createBlob s'.buf ty a tail)) = .ok r' ∧ Twin r r' ∧ Grown s.buf s'.buf r.buf r'.buf := by
    intro ty a tail hty hs
    cases Res.ok.inj hs
    obtain ⟨g, e⟩ := grown_blob T.length ty a tail
    refine ⟨_, rfl, ?_, g⟩
    have P := T.push (createBlob s.buf ty a tail).2 hty
    refine ⟨by simp only [pushBlob, ← e]; exact P.stack, P.pool, rfl, P.st, g.length T.length, fun p hp => (T.pooled p hp).grown g,
      fun v hv h4 => (P.keys v hv h4).grown g⟩
  cases e with
  | null => exact sc _ (by simp) hs
  | bool b => exact sc _ (by simp) hs
  | int i => exact sc _ (by simp) hs
  | uint n => exact sc _ (by simp) hs
  | dbl d => exact sc _ (by simp) hs
  | str b => exact bl 5 b [0] (by decide) hs
  | blob b => exact bl 25 b [] (by decide) hs
  | beginArr n =>
    cases Res.ok.inj hs
    exact ⟨_, rfl, ⟨T.stack, T.pool, rfl, by simp [openC, T.st, T.stack], T.length, T.pooled, T.keys⟩, hid⟩
  | beginMap n =>
    cases Res.ok.inj hs
    exact ⟨_, rfl, ⟨T.stack, T.pool, rfl, by simp [openC, T.st, T.stack], T.length, T.pooled, T.keys⟩, hid⟩
  | key k =>
    obtain ⟨tail, ht⟩ := cstr_split k
    have hself : ∀ c : Bytes, At (c ++ (k ++ [0])) c.length (cstr k ++ [0]) := by
      intro c
      rw [ht]
      exact (At.self_end _ _).left
    have hg := grown_append s.buf s'.buf (k ++ [0])
    have hb : Both (s.buf ++ (k ++ [0])) (s'.buf ++ (k ++ [0])) s.buf.length :=
      ⟨cstr k, cstr_no_nul k, hself _, by rw [T.length]; exact hself _⟩
    have hf := findKey_both hb (fun p hp => (T.pooled p hp).grown hg)
    simp only [step, keyBytes, createKey] at hs ⊢
    rw [T.pool, ← T.length, hf]
    cases hfk : findKey (s.buf ++ (k ++ [0])) s.buf.length s.pool with
    | ok o =>
      rw [hfk] at hs
      cases o with
      | some p =>
        simp only [Res.ok_bind, Res.pure_eq] at hs ⊢
        cases Res.ok.inj hs
        refine ⟨_, rfl, ⟨by simp [T.stack], rfl, T.wrote, T.st, T.length, T.pooled, ?_⟩, hid⟩
        intro v hv h4
        simp only [List.mem_append, List.mem_singleton] at hv
        rcases hv with hv | rfl
        · exact T.keys v hv h4
        · obtain ⟨o', ho, hp⟩ := findKey_ok (cstr_no_nul k) (hself s.buf) (hr.pool.mono (k ++ [0]))
          rw [hfk] at ho
          cases Res.ok.inj ho
          exact T.pooled p (hp p rfl).1
      | none =>
        simp only [Res.ok_bind, Res.pure_eq] at hs ⊢
        cases Res.ok.inj hs
        refine ⟨_, rfl, ⟨by simp [T.stack], rfl, T.wrote, T.st, hg.length T.length, ?_, ?_⟩, hg⟩
        · intro p hp
          rcases List.mem_cons.1 hp with rfl | hp
          · exact hb
          · exact (T.pooled p hp).grown hg
        · intro v hv h4
          simp only [List.mem_append, List.mem_singleton] at hv
          rcases hv with hv | rfl
          · exact (T.keys v hv h4).grown hg
          · exact hb
    | err e => rw [hfk] at hs; cases hs
    | ub => rw [hfk] at hs; cases hs
    | diverge => rw [hfk] at hs; cases hs
  | endArr =>
    simp only [step, endArr] at hs ⊢
    rw [T.st, T.stack]
    split at hs
    · rename_i start st hst
      cases Res.ok.inj hs
      obtain ⟨g, e⟩ := grown_vector T.length (s.stack.drop start) (s.stack.drop start).length 1 false none
      have hty := (createVector_layout s.buf (s.stack.drop start) (s.stack.drop start).length 1 false none).ty
      refine ⟨_, rfl, ⟨by rw [e], T.pool, T.wrote, rfl, g.length T.length, fun p hp => (T.pooled p hp).grown g, ?_⟩, g⟩
      intro v hv h4
      simp only [List.mem_append, List.mem_singleton] at hv
      rcases hv with hv | rfl
      · exact (T.keys v (List.mem_of_mem_take hv) h4).grown g
      · rw [h4] at hty
        simp at hty
    · cases hs
  | endMap =>
    obtain ⟨st, root⟩ := t
    match st, h, hr with
    | .map ms none :: st, h, hr =>
      have e1 := hr.st
      have e2 := hr.stack
      simp only [ctxs, Frame.isObj] at e1
      simp only [stackDocs, frameDocs] at e2
      obtain ⟨g1, g2⟩ := e2.split
      obtain ⟨ps, p1, p2⟩ := inter_good g2
      have hks : ∀ p ∈ ps, Both s.buf s'.buf p.1.u := by
        intro p hp
        have hm : p.1 ∈ s.stack := by
          refine List.mem_of_mem_drop (i := (stackDocs L root st).length) ?_
          rw [p1]
          clear p1 p2
          induction ps with
          | nil => cases hp
          | cons q ps ih =>
            rcases List.mem_cons.1 hp with rfl | hp
            · simp [unpairs]
            · simp [unpairs, ih hp]
        refine T.keys _ hm ?_
        clear p1 hm
        generalize toDocEntries L ms = es at p2
        induction p2 with
        | nil => cases hp
        | cons h1 _ ih =>
          rcases List.mem_cons.1 hp with rfl | hp
          · exact h1.1
          · exact ih hp
      simp only [step, endMap, T.st, e1, T.stack, buildMap] at hs ⊢
      rw [p1, pairs_unpairs] at hs ⊢
      have hsp : sortPairs L s'.buf ps = sortPairs L s.buf ps := by
        simp only [sortPairs, keyStrings_both hks]
      rw [hsp]
      split at hs
      · cases hs
      · rename_i hc
        rw [if_neg hc]
        cases hq : sortPairs L s.buf ps with
        | ok qs =>
          rw [hq] at hs
          simp only [Res.ok_bind, Res.pure_eq] at hs ⊢
          obtain ⟨g, e⟩ := grown_vector T.length (evens (unpairs qs ++ leftover (unpairs ps))) qs.length 2 true none
          rw [← e]
          obtain ⟨g', e'⟩ := grown_vector (g.length T.length) (odds (unpairs qs ++ leftover (unpairs ps))) qs.length 2 false
            (some (createVector s.buf (evens (unpairs qs ++ leftover (unpairs ps))) qs.length 2 true none).2)
          have hty := (createVector_layout (createVector s.buf (evens (unpairs qs ++ leftover (unpairs ps))) qs.length 2 true none).1
            (odds (unpairs qs ++ leftover (unpairs ps))) qs.length 2 false
            (some (createVector s.buf (evens (unpairs qs ++ leftover (unpairs ps))) qs.length 2 true none).2)).ty
          have gg := g.trans g'
          cases Res.ok.inj hs
          refine ⟨_, rfl, ⟨by rw [e'], T.pool, T.wrote, rfl, gg.length T.length, fun p hp => (T.pooled p hp).grown gg, ?_⟩, gg⟩
          intro v hv h4
          simp only [List.mem_append, List.mem_singleton] at hv
          rcases hv with hv | rfl
          · exact (T.keys v (List.mem_of_mem_take hv) h4).grown gg
          · rw [h4] at hty
            simp at hty
        | err e => rw [hq] at hs; cases hs
        | ub => rw [hq] at hs; cases hs
        | diverge => rw [hq] at hs; cases hs

theorem run_twin {N : Prop} (H : L.Law) {dbg : Bool} : ∀ (es : List Ev) {t t' : Tree} {s s' r : RS}, Rel N L t s → t.run es = some t' →
    (writer L dbg).run s es = .ok r → Twin s s' →
    ∃ r', (writer L dbg).run s' es = .ok r' ∧ Twin r r' ∧ Grown s.buf s'.buf r.buf r'.buf
  | [], t, t', s, s', r, hr, h, hs, T => by
    cases Res.ok.inj hs
    exact ⟨s', rfl, T, [], by simp, by simp⟩
  | e :: es, t, t', s, s', r, hr, h, hs, T => by
    simp only [Tree.run, Option.bind_eq_bind, Option.bind_eq_some_iff] at h
    obtain ⟨t1, h1, h2⟩ := h
    obtain ⟨s1, hs1, hr1⟩ := step_rel H (dbg := dbg) hr h1
    rw [Writer.run_cons, show (writer L dbg).step s e = .ok s1 from hs1, Res.ok_bind] at hs
    obtain ⟨s2, k1, k2, k3⟩ := step_twin hr h1 hs1 T
    obtain ⟨r', m1, m2, m3⟩ := run_twin H es hr1 h2 hs k2
    exact ⟨r', by rw [Writer.run_cons, show (writer L dbg).step s' e = .ok s2 from k1, Res.ok_bind]; exact m1, m2, k3.trans m3⟩

theorem finish_twin {dbg : Bool} {s s' : RS} {b : Bytes} (T : Twin s s') (h : finish dbg s = .ok b) :
    ∃ b', finish dbg s' = .ok b' ∧ Grown s.buf s'.buf b b' := by
  simp only [finish, T.wrote, T.stack] at h ⊢
  generalize (if s.wrote = true then s.stack else s.stack ++ [⟨0, 0, 0⟩]) = st at h ⊢
  split at h
  · cases h
  · rename_i hc
    rw [if_neg hc]
    cases st with
    | nil => cases h
    | cons v st =>
      cases Res.ok.inj h
      exact ⟨_, rfl, grown_root T.length v⟩

/-- C106 for Flex: well-formed calls. (Without them, `EndMap` may compare whatever stands in the place of keys.) -/
theorem c106_flex (H : L.Law) (dbg : Bool) {es fs : List Ev} {x : Bytes} {v : Val} (hv : Tree.eval (es ++ .blob x :: fs) = some v) :
    (proto L dbg).Overwrites es x fs := by
  intro b hb
  simp only [Tree.eval, Option.bind_eq_some_iff] at hv
  obtain ⟨t, h1, h2⟩ := hv
  rw [Tree.run_append] at h1
  simp only [Option.bind_eq_some_iff] at h1
  obtain ⟨t1, h1, h3⟩ := h1
  simp only [Tree.run, Option.bind_eq_bind, Option.bind_eq_some_iff] at h3
  obtain ⟨t2, h3, h4⟩ := h3
  obtain ⟨s1, r1, q1⟩ := run_rel (N := True) H (dbg := dbg) es rel_init h1
  obtain ⟨s2, r2, q2⟩ := step_rel H (dbg := dbg) q1 h3
  obtain ⟨s3, r3, q3⟩ := run_rel H (dbg := dbg) fs q2 h4
  -- the writer before the blob
  obtain ⟨s1', r1', T1, -⟩ := run_twin (N := True) H es rel_init h1 r1 ⟨rfl, rfl, rfl, rfl, rfl, (fun p hp => by cases hp), (fun p hp => by cases hp)⟩
  rw [r1] at r1'
  cases Res.ok.inj r1'
  cases Res.ok.inj r2
  have hfin : finish dbg s3 = .ok b := by
    have : (writer L dbg).run {} (es ++ .blob x :: fs) >>= finish dbg = .ok b := hb
    rw [Writer.run_append, r1, Res.ok_bind, Writer.run_cons] at this
    rw [show (writer L dbg).step s1 (.blob x) = .ok _ from rfl, Res.ok_bind, r3] at this
    exact this
  have other : ∀ y : Bytes, y.length = x.length → ∃ B, b = (align s1.buf (2 ^ widthU x.length) ++ le (2 ^ widthU x.length) x.length) ++ x ++ B ∧
      (proto L dbg).bytesOf (es ++ .blob y :: fs) =
        .ok ((align s1.buf (2 ^ widthU x.length) ++ le (2 ^ widthU x.length) x.length) ++ y ++ B) := by
    intro y hy
    have P := T1.push (createBlob s1.buf 25 x []).2 (show (25 : Nat) ≠ 4 by decide)
    have T2 : Twin (pushBlob s1 (createBlob s1.buf 25 x [])) (pushBlob s1 (createBlob s1.buf 25 y [])) := by
      have e2 : (createBlob s1.buf 25 y []).2 = (createBlob s1.buf 25 x []).2 := by simp [createBlob, hy]
      have ex : ∀ p, Both s1.buf s1.buf p → Both (createBlob s1.buf 25 x []).1 (createBlob s1.buf 25 y []).1 p := by
        rintro p ⟨k, k0, k1, -⟩
        obtain ⟨e, he⟩ := createBlob_ext s1.buf 25 x []
        obtain ⟨e', he'⟩ := createBlob_ext s1.buf 25 y []
        exact ⟨k, k0, by rw [he]; exact k1.append_right e, by rw [he']; exact k1.append_right e'⟩
      refine ⟨by simp only [pushBlob, e2], rfl, rfl, rfl, ?_, fun p hp => ex p (T1.pooled p hp), fun w hw h4 => ex _ (P.keys w hw h4)⟩
      simp [pushBlob, createBlob, hy]
    obtain ⟨s3', m1, m2, m3⟩ := run_twin H fs q2 h4 r3 T2
    obtain ⟨b', n1, n2⟩ := finish_twin m2 hfin
    obtain ⟨B, k1, k2⟩ := m3.trans n2
    refine ⟨B, by rw [k1]; simp [pushBlob, createBlob], ?_⟩
    show (writer L dbg).run {} (es ++ .blob y :: fs) >>= finish dbg = _
    rw [Writer.run_append, r1, Res.ok_bind, Writer.run_cons]
    rw [show (writer L dbg).step s1 (.blob y) = .ok (pushBlob s1 (createBlob s1.buf 25 y [])) from rfl, Res.ok_bind, m1, Res.ok_bind, n1, k2]
    simp [pushBlob, createBlob, hy]
  obtain ⟨B, k1, -⟩ := other x rfl
  refine ⟨_, B, k1, fun y hy => ?_⟩
  obtain ⟨B', k2, k3⟩ := other y hy
  rw [k1] at k2
  rw [k3, List.append_cancel_left k2]

/-- The same for values. -/
theorem c106_flex_value (H : L.Law) (dbg : Bool) {es fs : List Ev} {x : Bytes} {v : Val} (hv : emit v = es ++ .blob x :: fs) :
    (proto L dbg).Overwrites es x fs := c106_flex H dbg (v := v) (by rw [← hv]; exact Tree.eval_emit v)

end Flex

namespace Json

theorem writeStr_encode (x : Bytes) : writeStr (Base64.encode x) = 0x22 :: (Base64.encode x ++ [0x22]) := by
  obtain ⟨-, body, k, h2, -, h3⟩ := Base64.c14_base64_shape x
  have hall : ∀ c ∈ Base64.encode x, escByte c = [c] := by
    intro c hc
    rw [h2, List.mem_append] at hc
    rcases hc with hc | hc
    · obtain ⟨d, hd, rfl⟩ := h3 c hc
      exact esc_letter d hd
    · rw [(List.mem_replicate.mp hc).2]; decide
  have e : (Base64.encode x).flatMap escByte = Base64.encode x := by
    generalize Base64.encode x = l at hall
    induction l with
    | nil => rfl
    | cons a l ih => rw [List.flatMap_cons, hall a (by simp), ih (fun c hc => hall c (by simp [hc]))]; rfl
  rw [writeStr, e]

/-- What is written for a blob. -/
theorem print_blob (fmt : UInt64 → Bytes) (x : Bytes) : printVal fmt (domC (.blob x)) =
    some ((0x5b :: (writeStr blobTag ++ [0x2c, 0x22])) ++ Base64.encode x ++ ([0x22, 0x2c] ++ writeStr blobEncoding ++ [0x5d])) := by
  have e1 : isUtf8 blobTag = true := by decide
  have e2 : isUtf8 blobEncoding = true := by decide
  have e3 : isUtf8 (Base64.encode x) = true := isUtf8_ascii (encode_ascii x)
  simp [domC, printVal, printList, e1, e2, e3, writeStr_encode]

theorem print_put (fmt : UInt64 → Bytes) {x : Bytes} : ∀ (p : List Hop) {v : Val} {b : Bytes}, v.at p = some (.blob x) →
    printVal fmt (domC v) = some b →
    ∃ A B, b = A ++ Base64.encode x ++ B ∧ ∀ y, printVal fmt (domC (v.put y p)) = some (A ++ Base64.encode y ++ B) := by
  intro p
  induction p with
  | nil =>
    intro v b h hb
    cases h
    rw [print_blob] at hb
    exact ⟨_, _, (Option.some.inj hb).symm, fun y => print_blob fmt y⟩
  | cons s p ih =>
    intro v b h hb
    cases s with
    | idx i =>
      cases v <;> simp only [Val.at] at h <;> try (cases h; done)
      rename_i xs
      have key : ∀ (xs : List Val) (i : Nat) {b : Bytes}, (if h : i < xs.length then xs[i].at p else none) = some (.blob x) →
          printList fmt (domCList xs) = some b →
          ∃ A B, b = A ++ Base64.encode x ++ B ∧
            ∀ y, printList fmt (domCList (xs.modify i (Val.put y p))) = some (A ++ Base64.encode y ++ B) := by
        intro xs
        induction xs with
        | nil => intro i b h _; simp at h
        | cons u xs ih' =>
          intro i b h hb
          simp only [domCList, printList] at hb
          cases hu : printVal fmt (domC u) with
          | none => rw [hu] at hb; cases hb
          | some c =>
            cases hx : printList fmt (domCList xs) with
            | none => rw [hu, hx] at hb; cases hb
            | some d =>
              rw [hu, hx] at hb
              have hb := (Option.some.inj hb).symm
              cases i with
              | zero =>
                simp only [List.length_cons, Nat.zero_lt_succ, dite_true, List.getElem_cons_zero] at h
                obtain ⟨A, B, h1, h2⟩ := ih h hu
                refine ⟨A, B ++ (if (domCList xs).isEmpty then d else 0x2c :: d), by rw [hb, h1]; simp, fun y => ?_⟩
                simp [domCList, printList, h2, hx]
              | succ i =>
                simp only [List.length_cons, Nat.add_lt_add_iff_right, List.getElem_cons_succ] at h
                obtain ⟨A, B, h1, h2⟩ := ih' i h hx
                cases xs with
                | nil => simp at h
                | cons w xs =>
                  have hne : ∀ f : Val → Val, (domCList ((w :: xs).modify i f)).isEmpty = false := by
                    intro f
                    cases i <;> simp [domCList]
                  refine ⟨c ++ 0x2c :: A, B, by rw [hb, h1]; simp [domCList], fun y => ?_⟩
                  simp only [List.modify_succ_cons, domCList, printList, hu, h2, hne]
                  simp
      cases hp : printList fmt (domCList xs) with
      | none => simp [domC, printVal, hp] at hb
      | some d =>
        simp only [domC, printVal, hp, Option.map_some, Option.some.injEq] at hb
        obtain ⟨A, B, h1, h2⟩ := key xs i h hp
        refine ⟨0x5b :: A, B ++ [0x5d], by rw [← hb, h1]; simp, fun y => ?_⟩
        simp [Val.put, domC, printVal, h2]
    | key k =>
      cases v <;> simp only [Val.at] at h <;> try (cases h; done)
      rename_i ms
      have key : ∀ (ms : List (Bytes × Val)) {b : Bytes}, (match firstVal ms k with
          | some w => w.at p
          | none => none) = some (.blob x) →
          printEntries fmt (domCEntries ms) = some b →
          ∃ A B, b = A ++ Base64.encode x ++ B ∧
            ∀ y, printEntries fmt (domCEntries (changeFirst k (Val.put y p) ms)) = some (A ++ Base64.encode y ++ B) := by
        intro ms
        induction ms with
        | nil => intro b h _; cases h
        | cons m ms ih' =>
          obtain ⟨k', u⟩ := m
          intro b h hb
          simp only [domCEntries, printEntries] at hb
          by_cases hk : isUtf8 (cstr k') = true
          · rw [if_pos hk] at hb
            cases hu : printVal fmt (domC u) with
            | none => rw [hu] at hb; cases hb
            | some c =>
              cases hx : printEntries fmt (domCEntries ms) with
              | none => rw [hu, hx] at hb; cases hb
              | some d =>
                rw [hu, hx] at hb
                have hb := (Option.some.inj hb).symm
                simp only [firstVal] at h
                by_cases hkk : k' = k
                · rw [if_pos hkk] at h
                  obtain ⟨A, B, h1, h2⟩ := ih h hu
                  refine ⟨writeStr (cstr k') ++ 0x3a :: A, B ++ (if (domCEntries ms).isEmpty then d else 0x2c :: d), by rw [hb, h1]; simp, fun y => ?_⟩
                  simp only [changeFirst, if_pos hkk, domCEntries, printEntries, if_pos hk, h2, hx]
                  simp
                · rw [if_neg hkk] at h
                  obtain ⟨A, B, h1, h2⟩ := ih' h hx
                  cases ms with
                  | nil => simp [firstVal] at h
                  | cons w ms =>
                    have hne : ∀ f : Val → Val, (domCEntries (changeFirst k f (w :: ms))).isEmpty = false := by
                      intro f
                      obtain ⟨w1, w2⟩ := w
                      simp only [changeFirst]
                      split <;> simp [domCEntries]
                    refine ⟨writeStr (cstr k') ++ 0x3a :: (c ++ 0x2c :: A), B, by rw [hb, h1]; simp [domCEntries], fun y => ?_⟩
                    rw [changeFirst, if_neg hkk]
                    simp only [domCEntries, printEntries, if_pos hk, hu, h2, hne]
                    simp
          · rw [if_neg hk] at hb; cases hb
      cases hp : printEntries fmt (domCEntries ms) with
      | none => simp [domC, printVal, hp] at hb
      | some d =>
        simp only [domC, printVal, hp, Option.map_some, Option.some.injEq] at hb
        obtain ⟨A, B, h1, h2⟩ := key ms h hp
        refine ⟨0x7b :: A, B ++ [0x7d], by rw [← hb, h1]; simp, fun y => ?_⟩
        simp [Val.put, domC, printVal, h2]

theorem keysB_put (dbg : Bool) (y : Bytes) : ∀ (p : List Hop) {x : Bytes} {v : Val}, v.at p = some (.blob x) →
    keysB dbg (v.put y p) = keysB dbg v := by
  intro p
  induction p with
  | nil => intro x v h; cases h; rfl
  | cons s p ih =>
    intro x v h
    cases s with
    | idx i =>
      cases v <;> simp only [Val.at] at h <;> try (cases h; done)
      rename_i xs
      simp only [Val.put, keysB]
      induction xs generalizing i with
      | nil => simp at h
      | cons u xs ih' =>
        cases i with
        | zero =>
          simp only [List.length_cons, Nat.zero_lt_succ, dite_true, List.getElem_cons_zero] at h
          simp [keysBList, ih h]
        | succ i =>
          simp only [List.length_cons, Nat.add_lt_add_iff_right, List.getElem_cons_succ] at h
          simp [keysBList, ih' i h]
    | key k =>
      cases v <;> simp only [Val.at] at h <;> try (cases h; done)
      rename_i ms
      simp only [Val.put, keysB]
      induction ms with
      | nil => rfl
      | cons m ms ih' =>
        obtain ⟨k', u⟩ := m
        simp only [firstVal] at h
        by_cases hk : k' = k
        · rw [if_pos hk] at h
          simp [changeFirst, hk, keysBEntries, ih h]
        · rw [if_neg hk] at h
          simp [changeFirst, hk, keysBEntries, ih' h]

/-- C106 for JSON: the place holds the Base64 text of the blob, and the rest of the text does not depend on the blob at all, not even on
its length; Base64 texts of blobs of the same length have the same length. -/
theorem c106_json (fmt : UInt64 → Bytes) (dbg : Bool) {v : Val} {p : List Hop} {x b : Bytes} (h : v.at p = some (.blob x))
    (hb : (proto (std fmt) dbg).serialize v = .ok b) :
    ∃ A B, b = A ++ Base64.encode x ++ B ∧ (∀ y, (proto (std fmt) dbg).serialize (v.put y p) = .ok (A ++ Base64.encode y ++ B)) ∧
      ∀ y : Bytes, y.length = x.length → (Base64.encode y).length = (Base64.encode x).length := by
  rw [serialize_eq] at hb
  by_cases hk : keysB dbg v = true
  · rw [if_pos hk] at hb
    cases hc : (std fmt).print (domC v) with
    | none => rw [hc] at hb; cases hb
    | some c =>
      rw [hc] at hb
      cases Res.ok.inj hb
      obtain ⟨A, B, h1, h2⟩ := print_put fmt p h hc
      refine ⟨A, B, h1, fun y => ?_, fun y hy => ?_⟩
      · rw [serialize_eq, keysB_put dbg y p h, if_pos hk, show (std fmt).print (domC (v.put y p)) = _ from h2 y]
      · rw [(Base64.c14_base64_shape y).1, (Base64.c14_base64_shape x).1, hy]
  · rw [if_neg hk] at hb; cases hb

end Json

/-! ## Example -/

/-- A blob inside an array inside a map, with a blob behind it. -/
def patchVal : Val := .map [([97], .arr [.uint 1, .blob [1, 2, 3]]), ([98], .blob [4])]

theorem c106_example : patchVal.at [.key [97], .idx 1] = some (.blob [1, 2, 3]) ∧
    MsgPack.proto.serialize patchVal = .ok ([0x82, 0xa1, 0x61, 0x92, 0x01, 0xc4, 3] ++ [1, 2, 3] ++ [0xa1, 0x62, 0xc4, 1, 4]) ∧
    MsgPack.proto.serialize (patchVal.put [7, 8, 9] [.key [97], .idx 1]) =
      .ok ([0x82, 0xa1, 0x61, 0x92, 0x01, 0xc4, 3] ++ [7, 8, 9] ++ [0xa1, 0x62, 0xc4, 1, 4]) := by
  refine ⟨rfl, ?_, ?_⟩ <;> decide +kernel

/-- The length matters in the binary formats: a longer blob changes bytes in front of it. -/
example : MsgPack.proto.serialize (patchVal.put [7, 8] [.key [97], .idx 1]) =
    .ok ([0x82, 0xa1, 0x61, 0x92, 0x01, 0xc4, 2] ++ [7, 8] ++ [0xa1, 0x62, 0xc4, 1, 4]) := by decide +kernel

example : ∃ A B, ∀ y : Bytes, y.length = 3 → (Flex.proto Flex.std true).serialize (patchVal.put y [.key [97], .idx 1]) = .ok (A ++ y ++ B) := by
  obtain ⟨b, hb, -⟩ := Flex.bytesOf_holding Flex.std_law true (Tree.eval_emit patchVal)
  obtain ⟨A, B, -, h⟩ := Proto.Overwrites.put (P := Flex.proto Flex.std true) (v := patchVal) (p := [.key [97], .idx 1]) (x := [1, 2, 3])
    (fun es fs h => Flex.c106_flex_value Flex.std_law true h) rfl hb
  exact ⟨A, B, h⟩

end Zer
