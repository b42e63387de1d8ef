import Verif.Props.Patch

/-!
# Property C107: a part of a message is a message

In MessagePack, CBOR and JSON the bytes written for a value that stands inside another one are the message of that value alone, and
another message can be put in their place: the result is the message of the value with the other part. In ZERA and Flex a message is not
found inside the messages it is part of.
-/

namespace Zer

open Proto

/-- The value with another one in the place where the path ends. -/
def Val.set (v : Val) (p : List Hop) (y : Val) : Val := match p, v with
  | [], _ => y
  | .idx i :: p, .arr xs => .arr (xs.modify i (fun w => w.set p y))
  | .key k :: p, .map ms => .map (changeFirst k (fun w => w.set p y) ms)
  | _ :: _, v => v

/-- A value with a hole, so many containers deep. -/
inductive Hole : Nat → (Val → Val) → Prop
  | here : Hole 0 id
  | arr (pre post : List Val) {n : Nat} {f : Val → Val} : Hole n f → Hole (n + 1) (fun y => .arr (pre ++ f y :: post))
  | map (pre post : List (Bytes × Val)) (k : Bytes) {n : Nat} {f : Val → Val} : Hole n f →
      Hole (n + 1) (fun y => .map (pre ++ (k, f y) :: post))

theorem Val.hole {x : Val} : ∀ (p : List Hop) {v : Val}, v.at p = some x → ∃ f, Hole p.length f ∧ v = f x ∧ ∀ y, v.set p y = f y := by
  intro p
  induction p with
  | nil => intro v h; cases h; exact ⟨id, .here, rfl, fun _ => rfl⟩
  | cons s p ih =>
    intro v h
    cases s with
    | idx i =>
      cases v <;> simp only [Val.at] at h <;> try (cases h; done)
      rename_i xs
      by_cases hi : i < xs.length
      · rw [dif_pos hi] at h
        obtain ⟨f, h1, h2, h3⟩ := ih h
        refine ⟨_, .arr (xs.take i) (xs.drop (i + 1)) h1, ?_, fun y => ?_⟩
        · rw [← h2]; simp
        · simp only [Val.set]
          rw [List.modify_eq_take_cons_drop hi, h3]
      · rw [dif_neg hi] at h; cases h
    | key k =>
      cases v <;> simp only [Val.at] at h <;> try (cases h; done)
      rename_i ms
      have key : ∀ ms : List (Bytes × Val), (match firstVal ms k with
          | some w => w.at p
          | none => none) = some x →
          ∃ pre post f, Hole p.length f ∧ ms = pre ++ (k, f x) :: post ∧ ∀ y, changeFirst k (fun w => w.set p y) ms = pre ++ (k, f y) :: post := by
        intro ms
        induction ms with
        | nil => intro h; cases h
        | cons m ms ih' =>
          obtain ⟨k', u⟩ := m
          intro h
          simp only [firstVal] at h
          by_cases hk : k' = k
          · rw [if_pos hk] at h
            obtain ⟨f, h1, h2, h3⟩ := ih h
            refine ⟨[], ms, f, h1, by rw [hk, ← h2]; rfl, fun y => ?_⟩
            simp [changeFirst, hk, h3]
          · rw [if_neg hk] at h
            obtain ⟨pre, post, f, h1, h2, h3⟩ := ih' h
            refine ⟨(k', u) :: pre, post, f, h1, by rw [h2]; rfl, fun y => ?_⟩
            simp [changeFirst, hk, h3]
      obtain ⟨pre, post, f, h1, h2, h3⟩ := key ms h
      exact ⟨_, .map pre post k h1, by rw [h2], fun y => by simp only [Val.set, h3]⟩

/-- Putting back what is there changes nothing. -/
theorem Val.set_at {v x : Val} {p : List Hop} (h : v.at p = some x) : v.set p x = v := by
  obtain ⟨f, -, h2, h3⟩ := Val.hole p h
  rw [h3, ← h2]

theorem firstVal_changeFirst (k : Bytes) (f : Val → Val) : ∀ ms : List (Bytes × Val), firstVal (changeFirst k f ms) k = (firstVal ms k).map f
  | [] => rfl
  | (k', u) :: ms => by
    by_cases hk : k' = k
    · simp [changeFirst, firstVal, hk]
    · simp [changeFirst, firstVal, hk, firstVal_changeFirst k f ms]

/-- What has been put there is there. -/
theorem Val.at_set {x : Val} (y : Val) : ∀ (p : List Hop) {v : Val}, v.at p = some x → (v.set p y).at p = some y := by
  intro p
  induction p with
  | nil => intro v h; rfl
  | cons s p ih =>
    intro v h
    cases s with
    | idx i =>
      cases v <;> simp only [Val.at] at h <;> try (cases h; done)
      rename_i xs
      by_cases hi : i < xs.length
      · rw [dif_pos hi] at h
        simp only [Val.set, Val.at]
        rw [dif_pos (by simpa using hi)]
        simpa using ih h
      · rw [dif_neg hi] at h; cases h
    | key k =>
      cases v <;> simp only [Val.at] at h <;> try (cases h; done)
      rename_i ms
      simp only [Val.set, Val.at, firstVal_changeFirst]
      cases hf : firstVal ms k with
      | none => rw [hf] at h; cases h
      | some u => rw [hf] at h; exact ih h

theorem emitEntries_append : ∀ (xs ys : List (Bytes × Val)), emitEntries (xs ++ ys) = emitEntries xs ++ emitEntries ys
  | [], _ => rfl
  | (k, x) :: xs, ys => by simp [emitEntries, emitEntries_append xs ys]

/-- The calls for a part stand among the calls for the whole. -/
theorem Hole.emit {n : Nat} {f : Val → Val} (h : Hole n f) : ∃ es fs, ∀ y, emit (f y) = es ++ (Zer.emit y ++ fs) := by
  induction h with
  | here => exact ⟨[], [], fun y => by simp⟩
  | arr pre post _ ih =>
    obtain ⟨es, fs, h⟩ := ih
    exact ⟨.beginArr (pre.length + (post.length + 1)) :: (emitList pre ++ es), fs ++ (emitList post ++ [.endArr]), fun y => by
      simp [Zer.emit, emitList_append, emitList, h]⟩
  | map pre post k _ ih =>
    obtain ⟨es, fs, h⟩ := ih
    exact ⟨.beginMap (pre.length + (post.length + 1)) :: (emitEntries pre ++ .key k :: es), fs ++ (emitEntries post ++ [.endMap]), fun y => by
      simp [Zer.emit, emitEntries_append, emitEntries, h]⟩

/-- The message of whatever is put at the end of the path stands between the same bytes; `lim` says what can be put there beyond what can
be written alone. -/
def Proto.Splices (P : Proto) (v : Val) (p : List Hop) (lim : Val → Prop) : Prop :=
  ∃ A B, ∀ y c, P.serialize (v.set p y) = .ok c ↔ lim y ∧ ∃ t, P.serialize y = .ok t ∧ c = A ++ t ++ B

/-- The part that is there is the message of the part alone. -/
theorem Proto.Splices.part {P : Proto} {v x : Val} {p : List Hop} {lim : Val → Prop} (S : P.Splices v p lim) (h : v.at p = some x)
    {b : Bytes} (hb : P.serialize v = .ok b) :
    ∃ A s B, P.serialize x = .ok s ∧ b = A ++ s ++ B ∧ ∀ y t, lim y → P.serialize y = .ok t → P.serialize (v.set p y) = .ok (A ++ t ++ B) := by
  obtain ⟨A, B, H⟩ := S
  obtain ⟨-, s, h1, h2⟩ := (H x b).1 (by rw [Val.set_at h]; exact hb)
  exact ⟨A, s, B, h1, h2, fun y t hl ht => (H y _).2 ⟨hl, t, ht, rfl⟩⟩

/-- C107 for MessagePack. -/
theorem MsgPack.c107_msgpack {v x : Val} {p : List Hop} (h : v.at p = some x) : MsgPack.proto.Splices v p (fun _ => True) := by
  obtain ⟨f, h1, h2, h3⟩ := Val.hole p h
  obtain ⟨es, fs, h4⟩ := h1.emit
  refine ⟨MsgPack.pack es, MsgPack.pack fs, fun y c => ?_⟩
  rw [h3, MsgPack.serialize_eq, MsgPack.serialize_eq, h4, MsgPack.pack_append, MsgPack.pack_append]
  constructor
  · intro h; exact ⟨trivial, _, rfl, by rw [← Res.ok.inj h]; simp⟩
  · rintro ⟨-, t, ht, rfl⟩; rw [← Res.ok.inj ht]; simp

namespace MsgPack

/-- What the lookups of a path arrive at in any encoding: a part of the bytes that is an encoding of the part. -/
theorem c107_msgpack_parts {x : Val} : ∀ (p : List Hop) {v : Val} {b : Bytes}, v.Below (2 ^ 32 - 5) → Enc v b → v.at p = some x →
    ∃ A s B, b = A ++ s ++ B ∧ Enc x s ∧ reader.goto p b = .ok s
  | [], v, b, _, he, hx => by cases hx; exact ⟨[], b, [], by simp, he, rfl⟩
  | .idx i :: p, v, b, hv, he, hx => by
    cases v <;> simp only [Val.at] at hx <;> try cases hx
    rename_i xs
    by_cases hi : i < xs.length
    · rw [dif_pos hi] at hx
      simp only [Enc] at he
      obtain ⟨h, cs, H, hc, rfl⟩ := he
      have hb := (Val.belowList_iff (L := Lim) xs).1 (by simpa only [Val.Below] using hv)
      obtain ⟨l, c, r, rfl, h1, h2⟩ := hc.split hi
      obtain ⟨A, s, B, rfl, k2, k3⟩ := c107_msgpack_parts p (hb _ (List.getElem_mem hi)) h2 hx
      obtain ⟨j1, j2⟩ := EncList.elem (xs.take i) ((Val.belowList_iff _).2 (fun y hy => hb y (List.mem_of_mem_take hy))) h1
      have e : (xs.take i).length = i := by rw [List.length_take]; omega
      have hg := getIdx_upto H (show l.length < xs.length by omega) j2 (Enc.elem _ (hb _ (List.getElem_mem hi)) h2) r.flatten
      refine ⟨h ++ (l.flatten ++ A), s, B ++ r.flatten, by simp, k2, ?_⟩
      show getIdx _ _ >>= _ = _
      rw [show i = l.length by omega, show h ++ (l ++ (A ++ s ++ B) :: r).flatten = h ++ (l.flatten ++ ((A ++ s ++ B) ++ r.flatten)) by simp, hg]
      exact k3
    · rw [dif_neg hi] at hx; cases hx
  | .key k :: p, v, b, hv, he, hx => by
    cases v <;> simp only [Val.at] at hx <;> try cases hx
    rename_i ms
    cases hw : firstVal ms k with
    | none => rw [hw] at hx; cases hx
    | some w =>
      rw [hw] at hx
      obtain ⟨l, r, rfl, hn⟩ := firstVal_split hw
      simp only [Enc] at he
      obtain ⟨h, cs, H, hc, rfl⟩ := he
      have hb := (Val.belowEntries_iff (L := Lim) _).1 (by simpa only [Val.Below] using hv)
      obtain ⟨cl, hk, c, cr, rfl, h1, h2, h3⟩ := hc.split
      have hkw := hb (k, w) (by simp)
      obtain ⟨A, s, B, rfl, k2, k3⟩ := c107_msgpack_parts p hkw.2 h3 hx
      have hg := getKeyFrom_upto hkw.1 h2 (Enc.elem w hkw.2 h3) cr.flatten l cl h (l ++ (k, w) :: r).length
        ((Val.belowEntries_iff _).2 (fun m hm => hb m (by simp [hm]))) h1 hn (by simp)
      refine ⟨h ++ (cl.flatten ++ (hk ++ k ++ A)), s, B ++ cr.flatten, by simp, k2, ?_⟩
      have hm : isMap (h ++ (cl.flatten ++ ((hk ++ k) ++ ((A ++ s ++ B) ++ cr.flatten)))) = true := by
        have := (shows_map H (cl.flatten ++ ((hk ++ k) ++ ((A ++ s ++ B) ++ cr.flatten)))).2.2.2.2.2.2.1; injection this
      show getKey _ _ >>= _ = _
      rw [show h ++ (cl ++ (hk ++ k) :: (A ++ s ++ B) :: cr).flatten = h ++ (cl.flatten ++ ((hk ++ k) ++ ((A ++ s ++ B) ++ cr.flatten))) by simp]
      simp only [getKey, hm, Res.require_true, Res.ok_bind, mapInfo_head H, hg]
      exact k3

theorem emitList_map : ∀ {xs : List Val}, Val.sizedList xs →
    EncList xs (xs.map (fun x => pack (emit x))) ∧ pack (emitList xs) = (xs.map (fun x => pack (emit x))).flatten
  | [], _ => by simp [EncList, pack, emitList]
  | x :: xs, h => by
    simp only [Val.sizedList] at h
    obtain ⟨h1, h2⟩ := emitList_map h.2
    exact ⟨by simp only [List.map_cons, EncList]; exact ⟨_, _, enc_pack x h.1, h1, rfl⟩, by simp [emitList, pack_append, h2]⟩

/-- The pieces of the entries. -/
def entryChunks : List (Bytes × Val) → List Bytes
  | [] => []
  | (k, v) :: ms => (packStrHead k.length ++ k) :: pack (emit v) :: entryChunks ms

theorem entryChunks_append : ∀ (xs ys : List (Bytes × Val)), entryChunks (xs ++ ys) = entryChunks xs ++ entryChunks ys
  | [], _ => rfl
  | (k, x) :: xs, ys => by simp [entryChunks, entryChunks_append xs ys]

theorem emitEntries_map : ∀ {ms : List (Bytes × Val)}, Val.sizedEntries ms →
    EncEntries ms (entryChunks ms) ∧ pack (emitEntries ms) = (entryChunks ms).flatten
  | [], _ => by simp [EncEntries, pack, emitEntries, entryChunks]
  | (k, x) :: ms, h => by
    simp only [Val.sizedEntries] at h
    obtain ⟨h1, h2⟩ := emitEntries_map h.2.2
    refine ⟨by simp only [entryChunks, EncEntries]; exact ⟨_, _, _, packStrHead_ok h.1, enc_pack x h.2.1, h1, rfl⟩, ?_⟩
    have : pack (.key k :: (emit x ++ emitEntries ms)) = (packStrHead k.length ++ k) ++ (pack (emit x) ++ pack (emitEntries ms)) := by
      simp [pack, packEv]
    simp only [emitEntries, this, h2, entryChunks, List.flatten_cons]

theorem sizedList_mem : ∀ {xs : List Val}, Val.sizedList xs → ∀ x ∈ xs, x.Sized
  | [], _, _, h => by cases h
  | y :: ys, h, x, hx => by
    simp only [Val.sizedList] at h
    rcases List.mem_cons.1 hx with rfl | hx
    · exact h.1
    · exact sizedList_mem h.2 x hx

theorem sizedList_take : ∀ {xs : List Val} (i : Nat), Val.sizedList xs → Val.sizedList (xs.take i)
  | [], i, _ => by simp [Val.sizedList]
  | x :: xs, 0, _ => by simp [Val.sizedList]
  | x :: xs, i + 1, h => by
    simp only [Val.sizedList, List.take_succ_cons] at h ⊢
    exact ⟨h.1, sizedList_take i h.2⟩

theorem sizedEntries_append : ∀ {xs ys : List (Bytes × Val)}, Val.sizedEntries (xs ++ ys) → Val.sizedEntries xs ∧ Val.sizedEntries ys
  | [], ys, h => ⟨by simp [Val.sizedEntries], h⟩
  | (k, x) :: xs, ys, h => by
    simp only [List.cons_append, Val.sizedEntries] at h ⊢
    obtain ⟨h1, h2⟩ := sizedEntries_append h.2.2
    exact ⟨⟨h.1, h.2.1, h1⟩, h2⟩

/-- C107 for the MessagePack reader: the lookups of a path in the message of a document arrive at exactly the message of the part, so that
whatever is asked there is answered as from the message of the part alone. -/
theorem c107_msgpack_view {x : Val} : ∀ (p : List Hop) {v : Val}, v.Sized → v.Below (2 ^ 32 - 5) → v.at p = some x →
    ∃ b s, proto.serialize v = .ok b ∧ proto.serialize x = .ok s ∧ reader.goto p b = .ok s := by
  intro p v hs hv hx
  refine ⟨_, _, serialize_eq v, serialize_eq x, ?_⟩
  induction p generalizing v with
  | nil => cases hx; rfl
  | cons s p ih =>
    cases s with
    | idx i =>
      cases v <;> simp only [Val.at] at hx <;> try cases hx
      rename_i xs
      by_cases hi : i < xs.length
      · rw [dif_pos hi] at hx
        simp only [Val.Sized] at hs
        have hb := (Val.belowList_iff (L := Lim) xs).1 (by simpa only [Val.Below] using hv)
        have hsz := sizedList_mem hs.2 xs[i] (List.getElem_mem hi)
        have ih := ih hsz (hb _ (List.getElem_mem hi)) hx
        obtain ⟨-, h2⟩ := emitList_map hs.2
        obtain ⟨h1, -⟩ := emitList_map (sizedList_take i hs.2)
        obtain ⟨j1, j2⟩ := EncList.elem (xs.take i) ((Val.belowList_iff _).2 (fun y hy => hb y (List.mem_of_mem_take hy))) h1
        have e : ((xs.take i).map (fun x => pack (emit x))).length = i := by rw [List.length_map, List.length_take]; omega
        have hg := getIdx_upto (packArrHead_ok hs.1) (by rw [e]; exact hi) j2 (Enc.elem _ (hb _ (List.getElem_mem hi)) (enc_pack _ hsz))
          ((xs.drop (i + 1)).map (fun x => pack (emit x))).flatten
        have e2 : pack (emit (.arr xs)) = packArrHead xs.length ++ (((xs.take i).map (fun x => pack (emit x))).flatten ++
            (pack (emit xs[i]) ++ ((xs.drop (i + 1)).map (fun x => pack (emit x))).flatten)) := by
          have : pack (emit (.arr xs)) = packArrHead xs.length ++ pack (emitList xs) := by simp [pack, emit, packEv]
          have e0 : xs.map (fun x => pack (emit x)) = (xs.take i).map (fun x => pack (emit x)) ++
              pack (emit xs[i]) :: (xs.drop (i + 1)).map (fun x => pack (emit x)) := by
            have := congrArg (List.map (fun x => pack (emit x))) (show xs = xs.take i ++ xs[i] :: xs.drop (i + 1) by simp)
            rwa [List.map_append, List.map_cons] at this
          rw [this, h2, e0]
          simp only [List.flatten_append, List.flatten_cons]
        rw [e] at hg
        show getIdx _ _ >>= _ = _
        rw [e2, hg]
        exact ih
      · rw [dif_neg hi] at hx; cases hx
    | key k =>
      cases v <;> simp only [Val.at] at hx <;> try cases hx
      rename_i ms
      cases hw : firstVal ms k with
      | none => rw [hw] at hx; cases hx
      | some w =>
        rw [hw] at hx
        obtain ⟨l, r, rfl, hn⟩ := firstVal_split hw
        simp only [Val.Sized] at hs
        obtain ⟨hs1, hs2⟩ := hs
        obtain ⟨-, h2⟩ := emitEntries_map hs2
        obtain ⟨hl, hr⟩ := sizedEntries_append hs2
        simp only [Val.sizedEntries] at hr
        have hb := (Val.belowEntries_iff (L := Lim) _).1 (by simpa only [Val.Below] using hv)
        have hkw := hb (k, w) (by simp)
        have ih := ih hr.2.1 hkw.2 hx
        obtain ⟨h1, -⟩ := emitEntries_map hl
        have hg := getKeyFrom_upto hkw.1 (packStrHead_ok hr.1) (Enc.elem w hkw.2 (enc_pack _ hr.2.1)) (entryChunks r).flatten l _
          (packMapHead (l ++ (k, w) :: r).length) (l ++ (k, w) :: r).length
          ((Val.belowEntries_iff _).2 (fun m hm => hb m (by simp [hm]))) h1 hn (by simp)
        have e2 : pack (emit (.map (l ++ (k, w) :: r))) = packMapHead (l ++ (k, w) :: r).length ++ ((entryChunks l).flatten ++
            ((packStrHead k.length ++ k) ++ (pack (emit w) ++ (entryChunks r).flatten))) := by
          have : pack (emit (.map (l ++ (k, w) :: r))) = packMapHead (l ++ (k, w) :: r).length ++ pack (emitEntries (l ++ (k, w) :: r)) := by
            simp [pack, emit, packEv]
          rw [this, h2, entryChunks_append]
          simp [entryChunks]
        have hm : isMap (pack (emit (.map (l ++ (k, w) :: r)))) = true := by
          rw [e2]
          have := (shows_map (packMapHead_ok hs1) ((entryChunks l).flatten ++
            ((packStrHead k.length ++ k) ++ (pack (emit w) ++ (entryChunks r).flatten)))).2.2.2.2.2.2.1
          injection this
        show getKey _ _ >>= _ = _
        rw [getKey, hm, e2]
        simp only [Res.require_true, Res.ok_bind, mapInfo_head (packMapHead_ok hs1), hg]
        exact ih

end MsgPack

namespace Cbor

theorem encL_append : ∀ (xs ys : List Val), encL (xs ++ ys) = encL xs ++ encL ys
  | [], _ => rfl
  | x :: xs, ys => by simp [encL, encL_append xs ys]

theorem encE_append : ∀ (xs ys : List (Bytes × Val)), encE (xs ++ ys) = encE xs ++ encE ys
  | [], _ => rfl
  | (k, x) :: xs, ys => by simp [encE, encE_append xs ys]

theorem hole_encB {n : Nat} {f : Val → Val} (h : Hole n f) : ∃ A B, ∀ y, encB (f y) = A ++ encB y ++ B := by
  induction h with
  | here => exact ⟨[], [], fun y => by simp⟩
  | arr pre post _ ih =>
    obtain ⟨A, B, h⟩ := ih
    exact ⟨headBytes 4 (pre.length + (post.length + 1)) ++ ((encL pre).flatten ++ A), B ++ (encL post).flatten, fun y => by
      simp [encB, encL_append, encL, h]⟩
  | map pre post k _ ih =>
    obtain ⟨A, B, h⟩ := ih
    exact ⟨headBytes 5 (pre.length + (post.length + 1)) ++ ((encE pre).flatten ++ (headBytes 3 k.length ++ k ++ A)), B ++ (encE post).flatten,
      fun y => by simp [encB, encE_append, encE, h]⟩

theorem nestList_append : ∀ (xs ys : List Val), Val.nestList (xs ++ ys) = max (Val.nestList xs) (Val.nestList ys)
  | [], _ => by simp [Val.nestList]
  | x :: xs, ys => by simp [Val.nestList, nestList_append xs ys]

theorem nestEntries_append : ∀ (xs ys : List (Bytes × Val)), Val.nestEntries (xs ++ ys) = max (Val.nestEntries xs) (Val.nestEntries ys)
  | [], _ => by simp [Val.nestEntries]
  | (k, x) :: xs, ys => by simp [Val.nestEntries, nestEntries_append xs ys]

/-- How deep the whole is with something in the hole. -/
theorem hole_nest {n : Nat} {f : Val → Val} (h : Hole n f) : ∃ d, ∀ y, (f y).nest = max d (n + y.nest) := by
  induction h with
  | here => exact ⟨0, fun y => by simp⟩
  | @arr pre post n _ _ ih =>
    obtain ⟨d, h⟩ := ih
    refine ⟨max (Val.nestList pre) (max d (Val.nestList post)) + 1, fun y => ?_⟩
    simp only [Val.nest, nestList_append, Val.nestList, h]; omega
  | @map pre post k n _ _ ih =>
    obtain ⟨d, h⟩ := ih
    refine ⟨max (Val.nestEntries pre) (max d (Val.nestEntries post)) + 1, fun y => ?_⟩
    simp only [Val.nest, nestEntries_append, Val.nestEntries, h]; omega

theorem hole_each {P : Val → Prop} {K : Bytes → Prop} (ha : ∀ xs, P (.arr xs)) (hm : ∀ ms, P (.map ms)) {n : Nat} {f : Val → Val}
    (h : Hole n f) {x : Val} (hx : (f x).Each P K) : ∀ y, (f y).Each P K ↔ y.Each P K := by
  induction h with
  | here => exact fun y => Iff.rfl
  | arr pre post _ ih =>
    simp only [Val.Each, Val.eachList_iff, List.mem_append, List.mem_cons] at hx ⊢
    obtain ⟨-, hx⟩ := hx
    have := ih (hx _ (.inr (.inl rfl)))
    intro y
    constructor
    · rintro ⟨-, h⟩; exact (this y).1 (h _ (.inr (.inl rfl)))
    · intro h
      refine ⟨ha _, ?_⟩
      rintro z (hz | rfl | hz)
      · exact hx z (.inl hz)
      · exact (this y).2 h
      · exact hx z (.inr (.inr hz))
  | map pre post k _ ih =>
    have e : ∀ (as bs : List (Bytes × Val)), Val.eachEntries P K (as ++ bs) ↔ Val.eachEntries P K as ∧ Val.eachEntries P K bs := by
      intro as bs
      induction as with
      | nil => simp [Val.eachEntries]
      | cons a as iha => obtain ⟨_, _⟩ := a; simp [Val.eachEntries, iha, and_assoc]
    simp only [Val.Each, e, Val.eachEntries] at hx ⊢
    obtain ⟨-, h1, h2, h3, h4⟩ := hx
    intro y
    exact ⟨fun h => (ih h3 y).1 h.2.2.2.1, fun h => ⟨hm _, h1, h2, (ih h3 y).2 h, h4⟩⟩

theorem serialize_iff {utf8 : Bytes → Bool} {maxDepth : Nat} {hard : Bool} {f : Nat} {v : Val} {b : Bytes} :
    (proto utf8 maxDepth hard f).serialize v = .ok b ↔ (v.TextOk utf8 ∧ v.nest ≤ maxDepth) ∧ encB v = b := by
  by_cases h : v.TextOk utf8 ∧ v.nest ≤ maxDepth
  · rw [serialize_eq h.1 h.2]; simp [h]
  · rw [serialize_bad h]; simp [h]

/-- C107 for CBOR: a part can be put where it nests no deeper than the encoder allows. -/
theorem c107_cbor {utf8 : Bytes → Bool} {maxDepth : Nat} {hard : Bool} {g : Nat} {v x : Val} {p : List Hop} {b : Bytes}
    (h : v.at p = some x) (hb : (proto utf8 maxDepth hard g).serialize v = .ok b) :
    (proto utf8 maxDepth hard g).Splices v p (fun y => p.length + y.nest ≤ maxDepth) := by
  obtain ⟨f, h1, rfl, h3⟩ := Val.hole p h
  obtain ⟨A, B, hA⟩ := hole_encB h1
  obtain ⟨d, hd⟩ := hole_nest h1
  obtain ⟨⟨ht, hn⟩, -⟩ := serialize_iff.1 hb
  have ht := hole_each (fun _ => trivial) (fun _ => trivial) h1 ht
  refine ⟨A, B, fun y c => ?_⟩
  rw [h3]
  simp only [serialize_iff]
  rw [hd] at hn
  constructor
  · rintro ⟨⟨h1, h2⟩, rfl⟩
    rw [hd] at h2
    exact ⟨by omega, _, ⟨⟨(ht y).1 h1, by omega⟩, rfl⟩, hA y⟩
  · rintro ⟨h2, t, ⟨⟨h1, -⟩, rfl⟩, rfl⟩
    exact ⟨⟨(ht y).2 h1, by rw [hd]; omega⟩, hA y⟩

end Cbor

namespace Json

theorem domCList_append : ∀ (xs ys : List Val), domCList (xs ++ ys) = domCList xs ++ domCList ys
  | [], _ => rfl
  | x :: xs, ys => by simp [domCList, domCList_append xs ys]

theorem domCEntries_append : ∀ (xs ys : List (Bytes × Val)), domCEntries (xs ++ ys) = domCEntries xs ++ domCEntries ys
  | [], _ => rfl
  | (k, x) :: xs, ys => by simp [domCEntries, domCEntries_append xs ys]

theorem domCList_length : ∀ xs : List Val, (domCList xs).length = xs.length
  | [] => rfl
  | x :: xs => by simp [domCList, domCList_length xs]

theorem printList_hole (fmt : UInt64 → Bytes) : ∀ (pre post : List Val) {x : Val} {b : Bytes}, printList fmt (pre ++ x :: post) = some b →
    ∃ A B, ∀ y, printList fmt (pre ++ y :: post) = (printVal fmt y).map (fun t => A ++ t ++ B)
  | [], post, x, b, h => by
    simp only [List.nil_append, printList] at h ⊢
    cases hp : printList fmt post with
    | none => rw [hp] at h; cases hx : printVal fmt x <;> rw [hx] at h <;> cases h
    | some c =>
      refine ⟨[], if post.isEmpty then c else 0x2c :: c, fun y => ?_⟩
      cases printVal fmt y <;> simp
  | u :: pre, post, x, b, h => by
    simp only [List.cons_append, printList] at h ⊢
    cases hu : printVal fmt u with
    | none => rw [hu] at h; cases h
    | some d =>
      cases hp : printList fmt (pre ++ x :: post) with
      | none => rw [hu, hp] at h; cases h
      | some c =>
        obtain ⟨A, B, hA⟩ := printList_hole fmt pre post hp
        refine ⟨d ++ 0x2c :: A, B, fun y => ?_⟩
        rw [hA]
        cases printVal fmt y <;> simp

theorem printEntries_hole (fmt : UInt64 → Bytes) (k : Bytes) : ∀ (pre post : List (Bytes × Val)) {x : Val} {b : Bytes},
    printEntries fmt (pre ++ (k, x) :: post) = some b →
    ∃ A B, ∀ y, printEntries fmt (pre ++ (k, y) :: post) = (printVal fmt y).map (fun t => A ++ t ++ B)
  | [], post, x, b, h => by
    simp only [List.nil_append, printEntries] at h ⊢
    by_cases hk : isUtf8 k = true
    · simp only [if_pos hk] at h ⊢
      cases hp : printEntries fmt post with
      | none => rw [hp] at h; cases hx : printVal fmt x <;> rw [hx] at h <;> cases h
      | some c =>
        refine ⟨writeStr k ++ [0x3a], if post.isEmpty then c else 0x2c :: c, fun y => ?_⟩
        cases printVal fmt y <;> simp
    · rw [if_neg hk] at h; cases h
  | (k', u) :: pre, post, x, b, h => by
    simp only [List.cons_append, printEntries] at h ⊢
    by_cases hk : isUtf8 k' = true
    · simp only [if_pos hk] at h ⊢
      cases hu : printVal fmt u with
      | none => rw [hu] at h; cases h
      | some d =>
        cases hp : printEntries fmt (pre ++ (k, x) :: post) with
        | none => rw [hu, hp] at h; cases h
        | some c =>
          obtain ⟨A, B, hA⟩ := printEntries_hole fmt k pre post hp
          refine ⟨writeStr k' ++ 0x3a :: (d ++ 0x2c :: A), B, fun y => ?_⟩
          rw [hA]
          cases printVal fmt y <;> simp
    · rw [if_neg hk] at h; cases h

theorem hole_print (fmt : UInt64 → Bytes) {n : Nat} {f : Val → Val} (h : Hole n f) : ∀ {x : Val} {b : Bytes},
    printVal fmt (domC (f x)) = some b → ∃ A B, ∀ y, printVal fmt (domC (f y)) = (printVal fmt (domC y)).map (fun t => A ++ t ++ B) := by
  induction h with
  | here => intro x b _; exact ⟨[], [], fun y => by simp [Option.map_id']⟩
  | @arr pre post n f _ ih =>
    intro x b hb
    simp only [domC, domCList_append, domCList, printVal] at hb ⊢
    cases hp : printList fmt (domCList pre ++ domC (f x) :: domCList post) with
    | none => rw [hp] at hb; cases hb
    | some c =>
      obtain ⟨A, B, hA⟩ := printList_hole fmt _ _ hp
      have hfx := hA (domC (f x))
      rw [hp] at hfx
      cases hu : printVal fmt (domC (f x)) with
      | none => rw [hu] at hfx; cases hfx
      | some d =>
        obtain ⟨A', B', hA'⟩ := ih hu
        refine ⟨0x5b :: (A ++ A'), B' ++ (B ++ [0x5d]), fun y => ?_⟩
        rw [hA, hA']
        cases printVal fmt (domC y) <;> simp
  | @map pre post k n f _ ih =>
    intro x b hb
    simp only [domC, domCEntries_append, domCEntries, printVal] at hb ⊢
    cases hp : printEntries fmt (domCEntries pre ++ (cstr k, domC (f x)) :: domCEntries post) with
    | none => rw [hp] at hb; cases hb
    | some c =>
      obtain ⟨A, B, hA⟩ := printEntries_hole fmt _ _ _ hp
      have hfx := hA (domC (f x))
      rw [hp] at hfx
      cases hu : printVal fmt (domC (f x)) with
      | none => rw [hu] at hfx; cases hfx
      | some d =>
        obtain ⟨A', B', hA'⟩ := ih hu
        refine ⟨0x7b :: (A ++ A'), B' ++ (B ++ [0x7d]), fun y => ?_⟩
        rw [hA, hA']
        cases printVal fmt (domC y) <;> simp

theorem keysBList_append (dbg : Bool) : ∀ (xs ys : List Val), keysBList dbg (xs ++ ys) = (keysBList dbg xs && keysBList dbg ys)
  | [], _ => by simp [keysBList]
  | x :: xs, ys => by simp [keysBList, keysBList_append dbg xs ys, Bool.and_assoc]

theorem keysBEntries_append (dbg : Bool) : ∀ (xs ys : List (Bytes × Val)), keysBEntries dbg (xs ++ ys) = (keysBEntries dbg xs && keysBEntries dbg ys)
  | [], _ => by simp [keysBEntries]
  | (k, x) :: xs, ys => by simp [keysBEntries, keysBEntries_append dbg xs ys, Bool.and_assoc]

theorem hole_keysB (dbg : Bool) {n : Nat} {f : Val → Val} (h : Hole n f) : ∀ {x : Val}, keysB dbg (f x) = true →
    ∀ y, keysB dbg (f y) = keysB dbg y := by
  induction h with
  | here => exact fun _ _ => rfl
  | arr pre post _ ih =>
    intro x hx y
    simp only [keysB, keysBList_append, keysBList, Bool.and_eq_true] at hx ⊢
    rw [hx.1, hx.2.2, ih hx.2.1]; simp
  | map pre post k _ ih =>
    intro x hx y
    simp only [keysB, keysBEntries_append, keysBEntries, Bool.and_eq_true] at hx ⊢
    rw [hx.1, hx.2.1.1, hx.2.2, ih hx.2.1.2]; simp

/-- C107 for JSON. -/
theorem c107_json (fmt : UInt64 → Bytes) (dbg : Bool) {v x : Val} {p : List Hop} {b : Bytes} (h : v.at p = some x)
    (hb : (proto (std fmt) dbg).serialize v = .ok b) : (proto (std fmt) dbg).Splices v p (fun _ => True) := by
  obtain ⟨f, h1, rfl, h3⟩ := Val.hole p h
  rw [serialize_eq] at hb
  by_cases hk : keysB dbg (f x) = true
  · rw [if_pos hk] at hb
    cases hc : (std fmt).print (domC (f x)) with
    | none => rw [hc] at hb; cases hb
    | some c =>
      obtain ⟨A, B, hA⟩ := hole_print fmt h1 hc
      refine ⟨A, B, fun y c => ?_⟩
      rw [h3, serialize_eq, serialize_eq, hole_keysB dbg h1 hk y, show (std fmt).print (domC (f y)) = _ from hA y]
      show _ ↔ True ∧ ∃ t, (if keysB dbg y = true then (match printVal fmt (domC y) with | some b => Res.ok b | none => .err .runtime)
        else .err .logic) = .ok t ∧ _
      by_cases hy : keysB dbg y = true
      · simp only [if_pos hy]
        cases printVal fmt (domC y) with
        | none => simp
        | some t => simp [eq_comm]
      · simp [if_neg hy]
  · rw [if_neg hk] at hb; cases hb

end Json

/-! ## The formats with offsets -/

theorem not_infix {s b : Bytes} (h : (List.range (b.length + 1)).all (fun i => ((b.drop i).take s.length != s)) = true) (A B : Bytes) :
    b ≠ A ++ s ++ B := by
  rintro rfl
  have := List.all_eq_true.1 h A.length (by simp; omega)
  simp at this

/-- C107 is false for ZERA: the message of a part is not found in the message. -/
theorem Zera.c107_zera_refuted : ∃ v x : Val, v.at [.idx 0] = some x ∧ ∃ b s, Zera.proto.serialize v = .ok b ∧ Zera.proto.serialize x = .ok s ∧
    ∀ A B, b ≠ A ++ s ++ B := by
  refine ⟨.arr [.null], .null, rfl, ?_⟩
  have h : ∃ b s, Zera.proto.serialize (.arr [.null]) = .ok b ∧ Zera.proto.serialize .null = .ok s ∧
    (List.range (b.length + 1)).all (fun i => ((b.drop i).take s.length != s)) = true := ⟨_, _, rfl, rfl, by decide +kernel⟩
  obtain ⟨b, s, h1, h2, h3⟩ := h
  exact ⟨b, s, h1, h2, not_infix h3⟩

/-- C107 is false for Flex. -/
theorem Flex.c107_flex_refuted : ∃ v x : Val, v.at [.idx 0] = some x ∧ ∃ b s, (Flex.proto Flex.std true).serialize v = .ok b ∧
    (Flex.proto Flex.std true).serialize x = .ok s ∧ ∀ A B, b ≠ A ++ s ++ B := by
  refine ⟨.arr [.null], .null, rfl, ?_⟩
  have h : ∃ b s, (Flex.proto Flex.std true).serialize (.arr [.null]) = .ok b ∧ (Flex.proto Flex.std true).serialize .null = .ok s ∧
    (List.range (b.length + 1)).all (fun i => ((b.drop i).take s.length != s)) = true := ⟨_, _, rfl, rfl, by decide +kernel⟩
  obtain ⟨b, s, h1, h2, h3⟩ := h
  exact ⟨b, s, h1, h2, not_infix h3⟩

/-! ## Example -/

theorem c107_example : MsgPack.proto.serialize patchVal = .ok ([0x82, 0xa1, 0x61] ++ [0x92, 0x01, 0xc4, 3, 1, 2, 3] ++ [0xa1, 0x62, 0xc4, 1, 4]) ∧
    MsgPack.proto.serialize (.arr [.uint 1, .blob [1, 2, 3]]) = .ok [0x92, 0x01, 0xc4, 3, 1, 2, 3] ∧
    MsgPack.proto.serialize (patchVal.set [.key [97]] (.str [0x68, 0x69])) =
      .ok ([0x82, 0xa1, 0x61] ++ [0xa2, 0x68, 0x69] ++ [0xa1, 0x62, 0xc4, 1, 4]) := by
  refine ⟨?_, ?_, ?_⟩ <;> decide +kernel

example : MsgPack.reader.goto [.key [97], .idx 1] [0x82, 0xa1, 0x61, 0x92, 0x01, 0xc4, 3, 1, 2, 3, 0xa1, 0x62, 0xc4, 1, 4] = .ok [0xc4, 3, 1, 2, 3] ∧
    patchVal.Sized ∧ patchVal.Below (2 ^ 32 - 5) := by
  refine ⟨by decide +kernel, ?_, ?_⟩ <;>
    simp [patchVal, Val.Sized, Val.sizedList, Val.sizedEntries, Val.Below, Val.Below.belowEntries, Val.Below.belowList]

example (fmt : UInt64 → Bytes) : ∃ A s B, (Json.proto (Json.std fmt) true).serialize (.arr [.uint 1, .blob [1, 2, 3]]) = .ok s ∧
    (Json.proto (Json.std fmt) true).serialize patchVal = .ok (A ++ s ++ B) := by
  have hb : (Json.proto (Json.std fmt) true).serialize patchVal = .ok ((Json.printVal fmt (Json.domC patchVal)).getD []) := by
    rw [Json.serialize_eq, if_pos (by decide)]
    rfl
  obtain ⟨A, s, B, h1, h2, -⟩ := (Json.c107_json fmt true (p := [.key [97]]) rfl hb).part rfl hb
  exact ⟨A, s, B, h1, by rw [hb, h2]⟩

end Zer
