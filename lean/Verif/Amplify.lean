import Verif.Translate
import Verif.Prefix.Zera
import Verif.Props.Zera
import Verif.Props.MsgPack
import Verif.Props.Cbor
import Verif.Json.Agree
import Verif.Flex.Agree

/-!
# How many calls a translation makes

`write_value` (translate.hpp:33-72) looks every key up again that `mapKeys` lists. A repeated key is looked up as often as
it is listed, each time with the first value: values under a repeated key are written several times, and nested maps with
repeated keys several times at every level.
-/

namespace Zer

/-- A writer that counts the calls. -/
def counter : Writer Nat := ⟨fun n _ => .ok (n + 1)⟩

theorem counter_run : ∀ (es : List Ev) (n : Nat), counter.run n es = .ok (n + es.length)
  | [], n => rfl
  | e :: es, n => by
    rw [Writer.run_cons]
    show counter.run (n + 1) es = _
    rw [counter_run es (n + 1)]
    simp; omega

mutual
theorem emit_canon_length : ∀ v : Val, (emit v.canon).length = (emit v).length
  | .null | .bool _ | .uint _ | .dbl _ | .str _ | .blob _ => by simp only [Val.canon, emit]
  | .int i => by simp only [Val.canon]; split <;> rfl
  | .arr xs => by simp [Val.canon, emit, emitList_canon_length xs]
  | .map ms => by simp [Val.canon, emit, emitEntries_canon_length ms]
theorem emitList_canon_length : ∀ xs : List Val, (emitList (Val.canonList xs)).length = (emitList xs).length
  | [] => rfl
  | x :: xs => by simp [Val.canonList, emitList, emit_canon_length x, emitList_canon_length xs]
theorem emitEntries_canon_length : ∀ ms : List (Bytes × Val), (emitEntries (Val.canonEntries ms)).length = (emitEntries ms).length
  | [] => rfl
  | (k, v) :: ms => by simp [Val.canonEntries, emitEntries, emit_canon_length v, emitEntries_canon_length ms]
end

theorem Val.Same.calls {v w : Val} (h : v.Same w) : (emit v).length = (emit w).length := by
  rw [← emit_canon_length v, ← emit_canon_length w, h]

/-- The number of calls a translation makes from a position that presents `v`. -/
theorem count_agrees {ρ : Type} {R : Reader ρ} {p : Prop} {r : ρ} {v : Val} (h : R.AgreesW p r v) {f : Nat} (hf : v.depth ≤ f) :
    writeValue R counter f r 0 = .ok (emit v.firstWins).length := by
  obtain ⟨v', h1, -, h2⟩ := writeValue_run v r h
  rw [h2 Nat counter f hf 0, counter_run, h1.calls, Nat.zero_add]

/-- `d` maps inside of each other, each with the key `a` twice, the first time for the next one. -/
def bomb : Nat → Val
  | 0 => .null
  | d + 1 => .map [([0x61], bomb d), ([0x61], .null)]

theorem bomb_calls : ∀ d, (emit (bomb d)).length = 5 * d + 1
  | 0 => rfl
  | d + 1 => by simp [bomb, emit, emitEntries, bomb_calls d]; omega

theorem bomb_depth : ∀ d, (bomb d).depth = d + 1
  | 0 => rfl
  | d + 1 => by simp [bomb, Val.depth, Val.depthEntries, bomb_depth d]

theorem bomb_firstWins (d : Nat) : (bomb (d + 1)).firstWins = .map [([0x61], (bomb d).firstWins), ([0x61], (bomb d).firstWins)] := by
  simp [bomb, Val.firstWins_map, firstVal]

theorem bomb_blast : ∀ d, 2 ^ d ≤ (emit (bomb d).firstWins).length
  | 0 => by decide
  | d + 1 => by
    rw [bomb_firstWins]
    have := bomb_blast d
    simp [emit, emitEntries]
    omega

theorem count_bomb {ρ : Type} {R : Reader ρ} {p : Prop} {r : ρ} {d : Nat} (h : R.AgreesW p r (bomb d)) {f : Nat} (hf : d + 1 ≤ f) :
    ∃ n, writeValue R counter f r 0 = .ok n ∧ 2 ^ d ≤ n :=
  ⟨_, count_agrees h (by rw [bomb_depth]; exact hf), bomb_blast d⟩

/-- Arrays of two equal elements, `d` levels. -/
def laugh : Nat → Val
  | 0 => .null
  | d + 1 => .arr [laugh d, laugh d]

theorem laugh_calls : ∀ d, 2 ^ d ≤ (emit (laugh d)).length
  | 0 => by decide
  | d + 1 => by
    have := laugh_calls d
    simp [laugh, emit, emitList]
    omega

theorem laugh_depth : ∀ d, (laugh d).depth = d + 1
  | 0 => rfl
  | d + 1 => by simp [laugh, Val.depth, Val.depthList, laugh_depth d]

theorem laugh_distinct : ∀ d, (laugh d).Distinct
  | 0 => trivial
  | d + 1 => by simp [laugh, Val.Distinct, Val.distinctList, laugh_distinct d]

end Zer

namespace Zer.MsgPack

theorem EncInt.pos {z : Int} {b : Bytes} (H : EncInt z b) : 1 ≤ b.length := by cases H <;> simp
theorem EncDbl.pos {d : Nat} {b : Bytes} (H : EncDbl d b) : 1 ≤ b.length := by cases H <;> simp

mutual
/-- Every call is paid for by half a byte of any encoding. -/
theorem Enc.calls : ∀ (v : Val) {b : Bytes}, Enc v b → (emit v).length ≤ 2 * b.length
  | .null, b, h => by subst h; simp [emit]
  | .bool _, b, h => by subst h; simp [emit]
  | .int _, b, h => by have := EncInt.pos h; simp [emit]; omega
  | .uint _, b, h => by have := EncInt.pos h; simp [emit]; omega
  | .dbl _, b, h => by have := EncDbl.pos h; simp [emit]; omega
  | .str _, b, h => by obtain ⟨hd, H, rfl⟩ := h; have := H.pos; simp [emit]; omega
  | .blob _, b, h => by obtain ⟨hd, H, rfl⟩ := h; have := H.pos; simp [emit]; omega
  | .arr xs, b, h => by
    obtain ⟨hd, cs, H, hc, rfl⟩ := h
    have := H.pos
    have := EncList.calls xs hc
    simp only [emit, List.length_cons, List.length_append, List.length_nil]; omega
  | .map ms, b, h => by
    obtain ⟨hd, cs, H, hc, rfl⟩ := h
    have := H.pos
    have := EncEntries.calls ms hc
    simp only [emit, List.length_cons, List.length_append, List.length_nil]; omega
theorem EncList.calls : ∀ (xs : List Val) {cs : List Bytes}, EncList xs cs → (emitList xs).length ≤ 2 * cs.flatten.length
  | [], cs, h => by simp [emitList]
  | x :: xs, cs, h => by
    obtain ⟨c, cs', h1, h2, rfl⟩ := h
    have := Enc.calls x h1
    have := EncList.calls xs h2
    simp only [emitList, List.length_append, List.flatten_cons]; omega
theorem EncEntries.calls : ∀ (ms : List (Bytes × Val)) {cs : List Bytes}, EncEntries ms cs → (emitEntries ms).length ≤ 2 * cs.flatten.length
  | [], cs, h => by simp [emitEntries]
  | (k, v) :: ms, cs, h => by
    obtain ⟨hd, c, cs', h1, h2, h3, rfl⟩ := h
    have := h1.pos
    have := Enc.calls v h2
    have := EncEntries.calls ms h3
    simp only [emitEntries, List.length_cons, List.length_append, List.flatten_cons]; omega
end

theorem bomb_sized : ∀ d, (bomb d).Sized
  | 0 => trivial
  | d + 1 => by simp [bomb, Val.Sized, Val.sizedEntries, bomb_sized d]

theorem bomb_below : ∀ d, (bomb d).Below (2 ^ 32 - 5)
  | 0 => trivial
  | d + 1 => by simp [bomb, Val.Below, Val.Below.belowEntries, bomb_below d]

theorem bomb_length : ∀ d, (pack (emit (bomb d))).length = 6 * d + 1
  | 0 => rfl
  | d + 1 => by
    have e : emit (bomb (d + 1)) = (.beginMap 2 :: .key [0x61] :: emit (bomb d)) ++ [.key [0x61], .null, .endMap] := by
      simp [bomb, emit, emitEntries]
    rw [e, pack_append]
    have : pack (.beginMap 2 :: .key [0x61] :: emit (bomb d)) = [0x82, 0xa1, 0x61] ++ pack (emit (bomb d)) := rfl
    rw [this, List.length_append, List.length_append, bomb_length d]
    have : (pack [.key [0x61], .null, .endMap]).length = 3 := rfl
    simp [this]; omega

end Zer.MsgPack

namespace Zer.Cbor

theorem Text.pos {ind : Bool} {m : Nat} {s b : Bytes} (H : Text ind m s b) : 1 ≤ b.length := by
  cases H with
  | definite h => have := h.pos; simp; omega
  | chunked _ _ => simp
theorem EncDbl.pos {d : Nat} {b : Bytes} (H : EncDbl d b) : 1 ≤ b.length := by cases H <;> simp
theorem EncInt.pos {z : Int} {b : Bytes} (H : EncInt z b) : 1 ≤ b.length := by
  rcases H with ⟨_, h⟩ | ⟨_, h⟩ <;> exact h.pos
theorem Group.pos {ind : Bool} {m n : Nat} {c b : Bytes} (H : Group ind m n c b) : 1 + c.length ≤ b.length := by
  cases H with
  | definite h => have := h.pos; simp; omega
  | indef _ => simp; omega

mutual
/-- Every call is paid for by half a byte of any encoding. -/
theorem Enc.calls {ind : Bool} : ∀ (v : Val) {b : Bytes}, Enc ind v b → (emit v).length ≤ 2 * b.length
  | .null, b, h => by subst h; simp [emit]
  | .bool _, b, h => by subst h; simp [emit]
  | .int _, b, h => by have := EncInt.pos h; simp [emit]; omega
  | .uint _, b, h => by have := EncInt.pos h; simp [emit]; omega
  | .dbl _, b, h => by have := EncDbl.pos h; simp [emit]; omega
  | .str _, b, h => by have := Text.pos h; simp [emit]; omega
  | .blob _, b, h => by have := Text.pos h; simp [emit]; omega
  | .arr xs, b, h => by
    obtain ⟨cs, hc, H⟩ := h
    have := H.pos
    have := EncList.calls xs hc
    simp only [emit, List.length_cons, List.length_append, List.length_nil]; omega
  | .map ms, b, h => by
    obtain ⟨cs, hc, H⟩ := h
    have := H.pos
    have := EncEntries.calls ms hc
    simp only [emit, List.length_cons, List.length_append, List.length_nil]; omega
theorem EncList.calls {ind : Bool} : ∀ (xs : List Val) {cs : List Bytes}, EncList ind xs cs → (emitList xs).length ≤ 2 * cs.flatten.length
  | [], cs, h => by simp [emitList]
  | x :: xs, cs, h => by
    obtain ⟨c, cs', h1, h2, rfl⟩ := h
    have := Enc.calls x h1
    have := EncList.calls xs h2
    simp only [emitList, List.length_append, List.flatten_cons]; omega
theorem EncEntries.calls {ind : Bool} : ∀ (ms : List (Bytes × Val)) {cs : List Bytes}, EncEntries ind ms cs →
    (emitEntries ms).length ≤ 2 * cs.flatten.length
  | [], cs, h => by simp [emitEntries]
  | (k, v) :: ms, cs, h => by
    obtain ⟨ck, c, cs', h1, h2, h3, rfl⟩ := h
    have := h1.pos
    have := Enc.calls v h2
    have := EncEntries.calls ms h3
    simp only [emitEntries, List.length_cons, List.length_append, List.flatten_cons]; omega
end

theorem bomb_length : ∀ d, (encB (bomb d)).length = 6 * d + 1
  | 0 => rfl
  | d + 1 => by
    have : encB (bomb (d + 1)) = [0xa2, 0x61, 0x61] ++ (encB (bomb d) ++ [0x61, 0x61, 0xf6]) := by
      show headBytes 5 2 ++ (encE [([0x61], bomb d), ([0x61], .null)]).flatten = _
      have h1 : headBytes 5 2 = [0xa2] := by decide
      have h2 : headBytes 3 ([0x61] : Bytes).length = [0x61] := by decide
      rw [h1]
      simp only [encE, h2, encB]
      simp
    rw [this]; simp [bomb_length d]; omega

theorem bomb_textOk {utf8 : Bytes → Bool} (hu : utf8 [0x61] = true) : ∀ d, (bomb d).TextOk utf8
  | 0 => trivial
  | d + 1 => by
    have := bomb_textOk hu d
    simp only [Val.TextOk] at this ⊢
    simp [bomb, Val.Each, Val.eachEntries, hu, this]

theorem bomb_nest : ∀ d, (bomb d).nest = d
  | 0 => rfl
  | d + 1 => by simp [bomb, Val.nest, Val.nestEntries, bomb_nest d]

theorem bomb_small : ∀ d, (bomb d).Small
  | 0 => trivial
  | d + 1 => by
    have := bomb_small d
    simp only [Val.Small] at this ⊢
    simp [bomb, Val.Each, Val.eachEntries, this]

end Zer.Cbor

namespace Zer.Zera

theorem bomb_shortKeys : ∀ d, (bomb d).ShortKeys
  | 0 => trivial
  | d + 1 => by simp [bomb, Val.ShortKeys, Val.shortKeysEntries, bomb_shortKeys d]

theorem bomb_envCost : ∀ d, envCost (bomb d) = 46 * d
  | 0 => rfl
  | d + 1 => by simp [bomb, envCost, envCostEntries, entriesLen, bomb_envCost d]; omega

theorem bomb_arena (thr a : Nat) : ∀ d, arenaAfter thr a (bomb d) = a
  | 0 => rfl
  | d + 1 => by simp [bomb, arenaAfter, arenaAfterEntries, bomb_arena thr a d]

mutual
theorem calls_envCost : ∀ v : Val, (emit v).length ≤ 16 + envCost v
  | .null | .bool _ | .uint _ | .int _ | .dbl _ | .str _ | .blob _ => by simp [emit]; omega
  | .arr xs => by
    have := calls_envCostList xs
    simp only [emit, envCost, List.length_cons, List.length_append, List.length_nil]; omega
  | .map ms => by
    have := calls_envCostEntries ms
    simp only [emit, envCost, List.length_cons, List.length_append, List.length_nil]; omega
theorem calls_envCostList : ∀ xs : List Val, (emitList xs).length ≤ 16 * xs.length + envCostList xs
  | [] => by simp [emitList]
  | x :: xs => by
    have := calls_envCost x
    have := calls_envCostList xs
    simp only [emitList, envCostList, List.length_cons, List.length_append]; omega
theorem calls_envCostEntries : ∀ ms : List (Bytes × Val), (emitEntries ms).length ≤ entriesLen ms + envCostEntries ms
  | [] => by simp [emitEntries]
  | (k, v) :: ms => by
    have := calls_envCost v
    have := calls_envCostEntries ms
    simp only [emitEntries, envCostEntries, entriesLen, List.length_cons, List.length_append]; omega
end

/-- The reference to level `d`. -/
def laughVr : Nat → Bytes
  | 0 => makeVr tNull 0 0 0 0 0
  | d + 1 => makeVr tArray 0 0 (36 * d) 0 0

/-- Levels 1 to `d`: each an array of two references to the level below. -/
def laughEnv : Nat → Bytes
  | 0 => []
  | d + 1 => laughEnv d ++ (le32 2 ++ (laughVr d ++ laughVr d))

theorem laughVr_length (d : Nat) : (laughVr d).length = 16 := by cases d <;> rfl

theorem laughEnv_length : ∀ d, (laughEnv d).length = 36 * d
  | 0 => rfl
  | d + 1 => by simp [laughEnv, laughEnv_length d, laughVr_length]; omega

theorem laugh_repr : ∀ d, 36 * d < 2 ^ 32 → Repr (laughEnv d) [] (laughVr d) (laugh d)
  | 0, _ => .null
  | d + 1, h => by
    have ih := laugh_repr d (by omega)
    have hm := ih.mono (le32 2 ++ (laughVr d ++ laughVr d)) []
    rw [List.append_nil] at hm
    have := Repr.arr (env := laughEnv (d + 1)) (arena := []) [(laughVr d, laugh d), (laughVr d, laugh d)] (36 * d) (by omega)
      ⟨laughEnv d, [], by simp [laughEnv], laughEnv_length d⟩ (by
        intro p hp
        simp at hp
        subst hp
        exact hm)
    exact this

/-- A buffer whose root is level `d`. -/
def laughBuf (d : Nat) : Bytes :=
  assemble (laughEnv d ++ laughVr d) [] (36 * d) (alignUp (HeaderSize + (laughEnv d ++ laughVr d).length) ArenaBaseAlign)

theorem laughBuf_length (d : Nat) : (laughBuf d).length ≤ 36 * d + 51 := by
  have := alignUp_lt (HeaderSize + (laughEnv d ++ laughVr d).length) (a := ArenaBaseAlign) (by decide)
  have := alignUp_ge (HeaderSize + (laughEnv d ++ laughVr d).length) ArenaBaseAlign
  simp only [laughBuf, assemble, List.length_append, List.length_replicate, le32_length, le16_length, laughEnv_length, laughVr_length,
    HeaderSize, ArenaBaseAlign, List.length_nil] at *
  omega

theorem laughBuf_agrees {d : Nat} (h : d < 2 ^ 26) : ∃ r, initFrom (laughBuf d) = .ok r ∧ reader.AgreesStrictly r (laugh d) := by
  have hl : (laughEnv d ++ laughVr d).length = 36 * d + 16 := by simp [laughEnv_length, laughVr_length]
  have F : Finished (laughBuf d) (laughEnv d ++ laughVr d) [] (36 * d) (alignUp (HeaderSize + (laughEnv d ++ laughVr d).length) ArenaBaseAlign) := by
    have := alignUp_lt (HeaderSize + (laughEnv d ++ laughVr d).length) (a := ArenaBaseAlign) (by decide)
    refine ⟨rfl, rfl, by omega, by simp, ?_, by omega⟩
    simp only [HeaderSize, ArenaBaseAlign] at *
    omega
  have hat : At (laughEnv d ++ laughVr d) (36 * d) (laughVr d) := ⟨laughEnv d, [], by simp, laughEnv_length d⟩
  obtain ⟨h1, h2⟩ := F.opens hat (laughVr_length d)
  have hr := (laugh_repr d (by omega)).mono (laughVr d) []
  rw [List.append_nil] at hr
  exact ⟨_, h1, agrees_of_aligned (Repr.agreesAligned _ h2 rfl hat hr)⟩

end Zer.Zera

namespace Zer.Json

theorem bomb_dom : ∀ d, (toDom (bomb d)).canon = bomb d
  | 0 => rfl
  | d + 1 => by simp [bomb, toDom, toDomEntries, Val.canon, Val.canonEntries, bomb_dom d]

theorem bomb_plain : ∀ d, Plain (bomb d)
  | 0 => trivial
  | d + 1 => by
    have := bomb_plain d
    simp only [Plain] at this ⊢
    simp [bomb, Val.Each, Val.eachEntries, this]

end Zer.Json

namespace Zer.Flex

/-- `d` vectors of two elements, both of which are the vector before; at the bottom an empty vector. -/
def dagBody : Nat → Bytes
  | 0 => [0, 0, 0, 0, 0]
  | d + 1 => dagBody d ++ [2, 5, 6, 40, 40]

/-- The buffer, with the topmost vector as root. -/
def dag (d : Nat) : Bytes := dagBody d ++ [4, 40, 1]

theorem dagBody_length : ∀ d, (dagBody d).length = 5 * d + 5
  | 0 => rfl
  | d + 1 => by simp [dagBody, dagBody_length d]; omega

theorem dag_length (d : Nat) : (dag d).length = 5 * d + 8 := by simp [dag, dagBody_length]

/-- The vector `k` of a buffer. -/
structure Level (b : Bytes) (k : Nat) : Prop where
  at_ : At b (5 * k) (if k = 0 then [0, 0, 0, 0, 0] else [2, 5, 6, 40, 40])

theorem dagBody_level : ∀ d k, k ≤ d → ∀ post, Level (dagBody d ++ post) k
  | 0, k, h, post => by
    obtain rfl : k = 0 := by omega
    exact ⟨[], post, rfl, rfl⟩
  | d + 1, k, h, post => by
    by_cases hk : k ≤ d
    · have := dagBody_level d k hk ([2, 5, 6, 40, 40] ++ post)
      rw [dagBody, List.append_assoc]
      exact this
    · obtain rfl : k = d + 1 := by omega
      refine ⟨dagBody d, post, ?_, by rw [dagBody_length]; omega⟩
      rw [dagBody, List.append_assoc]; rfl

/-- The reference to vector `k` from a place `q` bytes behind it. -/
def levelRef (b : Bytes) (k q : Nat) : Ref := ⟨b, 5 * k + 1 + q, 1, 1, 10⟩

theorem level_get {b : Bytes} {k : Nat} (h : Level b (k + 1)) {i : Nat} {x : UInt8} (hx : ([2, 5, 6, 40, 40] : Bytes)[i]? = some x) :
    b[5 * (k + 1) + i]? = some x := by
  obtain ⟨pre, post, e, hl⟩ := h.at_
  rw [if_neg (by omega)] at e
  subst e
  rw [List.getElem?_append_right (by omega), show 5 * (k + 1) + i - pre.length = i by omega]
  have : i < 5 := by
    rcases Nat.lt_or_ge i 5 with h | h
    · exact h
    · rw [List.getElem?_eq_none (by simpa using h)] at hx; cases hx
  rw [List.getElem?_append_left (by simpa using this)]
  exact hx

theorem readU_byte {b : Bytes} {p : Nat} {x : UInt8} (h : b[p]? = some x) : readU b p 1 = .ok x.toNat := by
  have hp : p < b.length := by
    rcases Nat.lt_or_ge p b.length with h' | h'
    · exact h'
    · rw [List.getElem?_eq_none h'] at h; cases h
  rw [List.getElem?_eq_getElem hp] at h
  injection h with h
  have e : sliceAt b p (scalarWidth 1) = .ok [x] := by
    show sliceAt b p 1 = _
    rw [sliceAt, if_pos (by omega), List.drop_eq_getElem_cons hp, h]
    rfl
  rw [readU, e]
  simp [unle]

theorem level_vector {b : Bytes} {k q : Nat} {o : UInt8} (h : Level b (k + 1)) (ho : b[5 * (k + 1) + 1 + q]? = some o)
    (hq : o.toNat = q) : Ref.vector (levelRef b (k + 1) q) = .ok (5 * (k + 1) + 1, 2) := by
  have e1 : indirect b (5 * (k + 1) + 1 + q) 1 = .ok (5 * (k + 1) + 1) := by
    rw [indirect, readU_byte ho, Res.ok_bind, if_pos (by omega), hq, Nat.add_sub_cancel]; rfl
  have e2 : sizeAt b (5 * (k + 1) + 1) 1 = .ok 2 := by
    rw [sizeAt, if_pos (by omega), Nat.add_sub_cancel]
    exact readU_byte (level_get h (i := 0) (x := 2) rfl)
  simp only [Ref.vector, levelRef, Nat.succ_ne_self, or_true, if_true, e1, Res.ok_bind, e2, Res.pure_eq]

theorem bottom_vector {b : Bytes} {q : Nat} {o : UInt8} (h : Level b 0) (ho : b[5 * 0 + 1 + q]? = some o)
    (hq : o.toNat = q) : Ref.vector (levelRef b 0 q) = .ok (1, 0) := by
  have e1 : indirect b (5 * 0 + 1 + q) 1 = .ok 1 := by
    rw [indirect, readU_byte ho, Res.ok_bind, if_pos (by omega), hq]
    simp
  have e2 : sizeAt b 1 1 = .ok 0 := by
    have h0 : b[0]? = some 0 := by
      obtain ⟨pre, post, e, hl⟩ := h.at_
      obtain rfl : pre = [] := List.length_eq_zero_iff.1 hl
      rw [e]; rfl
    rw [sizeAt, if_pos (Nat.le_refl _), Nat.sub_self, readU_byte h0]; rfl
  simp only [Ref.vector, levelRef, or_true, if_true, e1, Res.ok_bind, e2, Res.pure_eq]

theorem level_child {b : Bytes} {k q : Nat} {o : UInt8} (h : Level b (k + 1)) (ho : b[5 * (k + 1) + 1 + q]? = some o)
    (hq : o.toNat = q) (i : Nat) (hi : i < 2) :
    getIdx (levelRef b (k + 1) q) i = .ok (levelRef b k (5 + i)) := by
  have e : byteAt b (5 * (k + 1) + 1 + 2 + i) = .ok 40 := by
    have : b[5 * (k + 1) + (3 + i)]? = some 40 := level_get h (by
      match i, hi with
      | 0, _ => rfl
      | 1, _ => rfl)
    rw [byteAt, show 5 * (k + 1) + 1 + 2 + i = 5 * (k + 1) + (3 + i) by omega, this]; rfl
  have e2 : elemAt b (5 * (k + 1) + 1) 1 2 i = .ok (levelRef b k (5 + i)) := by
    have h1 : u64 (2 * 1) = 2 := by decide
    have h2 : u64 (i * 1) = i := by
      match i, hi with
      | 0, _ => decide
      | 1, _ => decide
    rw [elemAt, if_neg (by omega), h1, h2, e]
    simp only [Res.ok_bind, Res.pure_eq, Ref.ofPacked, levelRef, Res.ok.injEq, Ref.mk.injEq, true_and]
    refine ⟨by omega, by decide⟩
  have e3 : isArray (levelRef b (k + 1) q) = true := rfl
  rw [getIdx, e3, level_vector h ho hq]
  simp only [Res.require, if_true, Res.ok_bind, hi, decide_true]
  exact e2

theorem count_level {b : Bytes} : ∀ (k : Nat), (∀ j, j ≤ k → Level b j) → ∀ (q : Nat) (o : UInt8) (f s : Nat),
    b[5 * k + 1 + q]? = some o → o.toNat = q → k + 1 ≤ f →
    ∃ n, writeValue reader counter f (levelRef b k q) s = .ok (s + n) ∧ 2 ^ k ≤ n
  | 0, hb, q, o, f, s, ho, hq, h => by
    obtain ⟨f, rfl⟩ : ∃ g, f = g + 1 := ⟨f - 1, by omega⟩
    refine ⟨2, ?_, by decide⟩
    have e : writeValue reader counter (f + 1) (levelRef b 0 q) s =
        (arraySize (levelRef b 0 q) >>= fun n => writeElems reader (writeValue reader counter f) (levelRef b 0 q) n 0 (s + 1) >>=
          fun t => .ok (t + 1)) := rfl
    have e1 : arraySize (levelRef b 0 q) = .ok 0 := by
      rw [arraySize, show isArray (levelRef b 0 q) = true from rfl, bottom_vector (hb 0 (Nat.le_refl _)) ho hq]; rfl
    rw [e, e1]
    rfl
  | k + 1, hb, q, o, f, s, ho, hq, h => by
    obtain ⟨f, rfl⟩ : ∃ g, f = g + 1 := ⟨f - 1, by omega⟩
    have hL := hb (k + 1) (Nat.le_refl _)
    have o1 : b[5 * k + 1 + 5]? = some 5 := by
      have := level_get hL (i := 1) rfl
      rw [← this]; congr 1
    have o2 : b[5 * k + 1 + 6]? = some 6 := by
      have := level_get hL (i := 2) rfl
      rw [← this]; congr 1
    obtain ⟨n, h1, h2⟩ := count_level k (fun j hj => hb j (by omega)) 5 5 f (s + 1) o1 rfl (by omega)
    obtain ⟨m, h3, h4⟩ := count_level k (fun j hj => hb j (by omega)) 6 6 f (s + 1 + n) o2 rfl (by omega)
    refine ⟨n + m + 2, ?_, by omega⟩
    have e : writeValue reader counter (f + 1) (levelRef b (k + 1) q) s =
        (arraySize (levelRef b (k + 1) q) >>= fun n =>
          writeElems reader (writeValue reader counter f) (levelRef b (k + 1) q) n 0 (s + 1) >>= fun t => .ok (t + 1)) := rfl
    have e1 : arraySize (levelRef b (k + 1) q) = .ok 2 := by
      rw [arraySize, show isArray (levelRef b (k + 1) q) = true from rfl, level_vector hL ho hq]; rfl
    have c0 : reader.getIdx (levelRef b (k + 1) q) 0 = .ok (levelRef b k 5) := level_child hL ho hq 0 (by omega)
    have c1 : reader.getIdx (levelRef b (k + 1) q) (0 + 1) = .ok (levelRef b k 6) := level_child hL ho hq 1 (by omega)
    rw [e, e1]
    simp only [Res.ok_bind, writeElems, c0, c1, h1, h3, Res.pure_eq]
    congr 1; omega

end Zer.Flex
