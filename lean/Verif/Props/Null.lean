import Verif.Zera.Size
import Verif.Proto
import Verif.Props.Flex
import Verif.Props.Json
import Verif.Props.MsgPack
import Verif.Props.Cbor
import Verif.Tensor.Model

/-!
# C104: empty texts without a pointer

A default-constructed `std::string_view` or `std::span` is empty and its `data()` is null. The writers and the lookups take such views; what
they do with the pointer differs. The models elsewhere take the bytes of a text and so cannot tell `std::string_view{}` from `""`.
-/

namespace Zer

/-- A text as it is passed: `none` is a view of size 0 whose `data()` is null, `some b` points at the bytes `b`. -/
abbrev Txt := Option Bytes

/-- The bytes in `[data(), data() + size())`, which a loop over iterators sees: a null pointer with size 0 is an empty range. -/
def Txt.bytes (t : Txt) : Bytes := t.getD []

/-- `memcpy(dst, t.data(), t.size())`, and the second argument of `memcmp`: undefined for a null pointer, also for size 0 (C17 7.24.1). -/
def Txt.deref : Txt → Res Bytes
  | none => .ub
  | some b => .ok b

/-- A writer call with texts as they are passed. -/
inductive Call where
  | str (t : Txt)
  | key (t : Txt)
  | blob (t : Txt)
  | other (e : Ev)

/-- The call as the rest of the model sees it. -/
def Call.ev : Call → Ev
  | .str t => .str t.bytes
  | .key t => .key t.bytes
  | .blob t => .blob t.bytes
  | .other e => e

/-- A sequence of calls; the first exception ends it. -/
def runCalls {σ : Type} (f : σ → Call → Res σ) : σ → List Call → Res σ
  | s, [] => .ok s
  | s, c :: cs => f s c >>= fun s' => runCalls f s' cs

theorem runCalls_eq {σ : Type} {f : σ → Call → Res σ} {W : Writer σ} {P : Call → Prop} (h : ∀ s c, P c → f s c = W.step s c.ev) :
    ∀ (cs : List Call) (s : σ), (∀ c ∈ cs, P c) → runCalls f s cs = W.run s (cs.map Call.ev)
  | [], _, _ => rfl
  | c :: cs, s, hc => by
    simp only [runCalls, List.map_cons, Writer.run_cons, h s c (hc c (List.mem_cons_self ..))]
    congr 1; funext s'
    exact runCalls_eq h cs s' fun d hd => hc d (List.mem_cons_of_mem _ hd)

theorem runCalls_append {σ : Type} (f : σ → Call → Res σ) : ∀ (cs ds : List Call) (s : σ),
    runCalls f s (cs ++ ds) = runCalls f s cs >>= fun s' => runCalls f s' ds
  | [], _, _ => rfl
  | c :: cs, ds, s => by
    simp only [List.cons_append, runCalls, bind_assoc]
    congr 1; funext s'; exact runCalls_append f cs ds s'

namespace Zera

/-- `if (!sv.empty()) memcpy(.., sv.data(), sv.size())`, zera.hpp:745, 751, 758: the bytes that arrive. -/
def guarded (t : Txt) : Res Bytes := if t.bytes.length = 0 then .ok [] else t.deref

/-- `zera::Serializer` with texts as they are passed, zera.hpp:742-763, 799-812. Keys are inserted by iterators, zera.hpp:807. -/
def stepP (s : RS) : Call → Res RS
  | .str t =>
    if t.bytes.length ≤ min s.thr InlineMax then do
      let out := makeVr tString 1 t.bytes.length 0 0 0
      let body ← guarded t
      deliverVr s (out.take 4 ++ body ++ out.drop (4 + t.bytes.length))
    else if t.bytes.length > u32max then .err .ser
    else do
      let body ← guarded t
      let (s', ofs) ← arenaPut s body 1
      deliverVr s' (makeVr tString 0 0 ofs t.bytes.length 0)
  | .blob t =>
    if t.bytes.length > u32max then .err .ser
    else do
      let body ← guarded t
      let (s', arenaOfs) ← arenaPut s body ArenaBaseAlign
      let (s'', shapeOfs) ← appendEnv s' (shapeBytes t.bytes.length)
      deliverVr s'' (makeVr tTyped 0 dtU8 arenaOfs t.bytes.length shapeOfs)
  | .key t => step s (.key t.bytes)
  | .other e => step s e

theorem guarded_eq (t : Txt) : guarded t = .ok t.bytes := by
  cases t with
  | none => rfl
  | some b =>
    show (if b.length = 0 then Res.ok [] else Res.ok b) = Res.ok b
    by_cases h : b.length = 0
    · rw [if_pos h, List.length_eq_zero_iff.1 h]
    · rw [if_neg h]

/-- **C104** (ZERA, writing): any calls do what they do with pointers to nothing in place of null pointers. -/
theorem c104_zera_write (s : RS) (cs : List Call) : runCalls stepP s cs = writer.run s (cs.map Call.ev) := by
  refine runCalls_eq (P := fun _ => True) (fun s c _ => ?_) cs s fun _ _ => trivial
  cases c <;> simp only [stepP, guarded_eq, Call.ev, writer, step, Res.ok_bind]

/-- `data()` of a vector that holds nothing: null when nothing was ever allocated, if `nul`. The vectors of the serializer never shrink. -/
def vecData (nul : Bool) (l : Bytes) : Txt := if nul = true ∧ l = [] then none else some l

/-- `finish` with its two copies, zera.hpp:593-634; the copies are at 630-631. -/
def finishP (nul : Bool) (s : RS) : Res Bytes :=
  match s.st with
  | _ :: _ => .err .ser
  | [] => do
    let s ← match s.root with
      | none => writeRootVr s (makeVr tNull 0 0 0 0 0)
      | some _ => pure s
    if s.env.length > u32max then .err .ser
    else if s.arena.length > u32max then .err .ser
    else
      let envSize := u32 s.env.length
      let arenaOfs := alignUp (HeaderSize + envSize) ArenaBaseAlign
      if arenaOfs > u32max then .err .ser
      else do
        let env ← (vecData nul s.env).deref
        let arena ← (vecData nul s.arena).deref
        .ok (assemble env arena (s.root.getD 0) arenaOfs)

/-- A writer run with the copies of `finish`. -/
def serializeP (nul : Bool) (thr : Nat) (cs : List Call) : Res Bytes := do
  let s0 ← setThreshold {} thr
  let s ← runCalls stepP s0 cs
  finishP nul s

mutual
/-- Nothing of the value goes to the arena: strings fit in their references and blobs are empty. -/
def NoArena (thr : Nat) : Val → Prop
  | .str s => s.length ≤ thr
  | .blob s => s = []
  | .arr xs => NoArenaList thr xs
  | .map ms => NoArenaEntries thr ms
  | _ => True
def NoArenaList (thr : Nat) : List Val → Prop
  | [] => True
  | x :: xs => NoArena thr x ∧ NoArenaList thr xs
def NoArenaEntries (thr : Nat) : List (Bytes × Val) → Prop
  | [] => True
  | (_, v) :: ms => NoArena thr v ∧ NoArenaEntries thr ms
end

mutual
theorem noArena_iff {thr : Nat} (h : thr ≤ 12) : ∀ v, arenaAfter thr 0 v = 0 ↔ NoArena thr v
  | .null | .bool _ | .int _ | .uint _ | .dbl _ => by simp [arenaAfter, NoArena]
  | .str s => by
    simp only [arenaAfter, NoArena, Nat.min_eq_left h]
    split <;> omega
  | .blob s => by
    simp only [arenaAfter, NoArena]
    have : alignUp 0 16 = 0 := by decide
    rw [this, Nat.zero_add, List.length_eq_zero_iff]
  | .arr xs => by simp only [arenaAfter, NoArena]; exact noArenaList_iff h xs
  | .map ms => by simp only [arenaAfter, NoArena]; exact noArenaEntries_iff h ms
theorem noArenaList_iff {thr : Nat} (h : thr ≤ 12) : ∀ xs, arenaAfterList thr 0 xs = 0 ↔ NoArenaList thr xs
  | [] => by simp [arenaAfterList, NoArenaList]
  | x :: xs => by
    simp only [arenaAfterList, NoArenaList, ← noArena_iff h x, ← noArenaList_iff h xs]
    constructor
    · intro e
      have h0 : arenaAfter thr 0 x = 0 := by have := le_arenaAfterList thr (arenaAfter thr 0 x) xs; omega
      rw [h0] at e
      exact ⟨h0, e⟩
    · rintro ⟨h0, h1⟩; rw [h0]; exact h1
theorem noArenaEntries_iff {thr : Nat} (h : thr ≤ 12) : ∀ ms, arenaAfterEntries thr 0 ms = 0 ↔ NoArenaEntries thr ms
  | [] => by simp [arenaAfterEntries, NoArenaEntries]
  | (k, v) :: ms => by
    simp only [arenaAfterEntries, NoArenaEntries, ← noArena_iff h v, ← noArenaEntries_iff h ms]
    constructor
    · intro e
      have h0 : arenaAfter thr 0 v = 0 := by have := le_arenaAfterEntries thr (arenaAfter thr 0 v) ms; omega
      rw [h0] at e
      exact ⟨h0, e⟩
    · rintro ⟨h0, h1⟩; rw [h0]; exact h1
end

/-- `finish` copies nothing from null where vectors without storage have a pointer. -/
theorem finishP_false (s : RS) : finishP false s = finish s := by
  simp only [finishP, finish, vecData, Txt.deref, Bool.false_eq_true, false_and, if_false, Res.ok_bind]
  cases s.st with
  | cons => rfl
  | nil => cases s.root <;> rfl

theorem finishP_full {s : RS} (h : s.arena ≠ []) (he : s.env ≠ []) (hr : s.root ≠ none) (nul : Bool) : finishP nul s = finish s := by
  unfold finishP finish
  cases s.st with
  | cons => rfl
  | nil =>
    cases hr' : s.root with
    | none => exact absurd hr' hr
    | some r => simp [vecData, Txt.deref, h, he]

theorem finishP_bare {s : RS} {b : Bytes} (h : s.arena = []) (he : s.env ≠ []) (hr : s.root ≠ none) (hb : finish s = .ok b) :
    finishP true s = .ub := by
  unfold finish at hb
  unfold finishP
  cases hs : s.st with
  | cons => rw [hs] at hb; cases hb
  | nil =>
    rw [hs] at hb
    cases hr' : s.root with
    | none => exact absurd hr' hr
    | some r =>
      simp only [hr', Res.pure_eq, Res.ok_bind] at hb ⊢
      split at hb
      · cases hb
      · rename_i c1
        split at hb
        · cases hb
        · rename_i c2
          split at hb
          · cases hb
          · rename_i c3
            rw [if_neg c1, if_neg c2, if_neg c3]
            simp [vecData, Txt.deref, h, he]

theorem calls_ev : ∀ es : List Ev, (es.map Call.other).map Call.ev = es
  | [] => rfl
  | e :: es => by simp only [List.map_cons, Call.ev, calls_ev es]

/-- What the second copy of `finish` reads, for the value of any calls that write it. -/
theorem serializeP_of {thr : Nat} (hthr : thr ≤ 12) {v : Val} {cs : List Call} (hcs : cs.map Call.ev = emit v) {b : Bytes}
    (hb : serializeEvs thr (emit v) = .ok b) :
    serializeP true thr cs = if arenaAfter thr 0 v = 0 then .ub else .ok b := by
  have h0 : setThreshold {} thr = .ok { thr := thr } := by
    simp [setThreshold, InlineMax, hthr]
  simp only [serializeEvs, h0, Res.ok_bind] at hb
  obtain ⟨s, h1, h2⟩ := bind_ok hb
  obtain ⟨hk, s', vr, hd, hl, g1, g2, g3, g4, g5⟩ := run_emit_inv v _ s h1
  simp only [List.length_nil, Nat.zero_add] at g1 g2 g3 g4 g5
  simp only [serializeP, h0, Res.ok_bind, c104_zera_write, hcs, h1]
  simp only [deliverVr, g1, writeRootVr, g2, appendEnv] at hd
  by_cases hlen : s'.env.length > u32max
  · rw [if_pos hlen] at hd; cases hd
  · rw [if_neg hlen] at hd
    simp only [Res.ok_bind, Res.pure_eq] at hd
    injection hd with hd
    have he : s.env ≠ [] := by
      rw [← hd]; intro e
      have := congrArg List.length e
      simp only [List.length_append, hl, List.length_nil] at this
      omega
    have hr : s.root ≠ none := by rw [← hd]; simp
    have ha : s.arena.length = arenaAfter thr 0 v := by rw [← hd]; exact g5
    by_cases hz : arenaAfter thr 0 v = 0
    · rw [if_pos hz]
      exact finishP_bare (List.length_eq_zero_iff.1 (by omega)) he hr h2
    · rw [if_neg hz, ← h2]
      exact finishP_full (by intro e; rw [e] at ha; simp at ha; omega) he hr true

/-- **C104** (ZERA, `finish`): where a vector that never held anything has a null pointer, writing a value is undefined exactly when
nothing of it goes to the arena, that is, when its strings are short and its blobs are empty; every other value is written as elsewhere. -/
theorem c104_zera_finish {thr : Nat} (hthr : thr ≤ 12) {v : Val} {cs : List Call} (hcs : cs.map Call.ev = emit v) {b : Bytes}
    (hb : serializeEvs thr (emit v) = .ok b) :
    (NoArena thr v → serializeP true thr cs = .ub) ∧ (¬ NoArena thr v → serializeP true thr cs = .ok b) ∧
      serializeP false thr cs = .ok b := by
  have h := serializeP_of hthr hcs hb
  refine ⟨fun hn => ?_, fun hn => ?_, ?_⟩
  · rw [h, if_pos ((noArena_iff hthr v).2 hn)]
  · rw [h, if_neg fun e => hn ((noArena_iff hthr v).1 e)]
  · simp only [serializeP, c104_zera_write, hcs, finishP_false]
    exact hb

/-- **C104** does not hold of `finish`: the number 7 is such a value; a blob of one byte is not. -/
theorem c104_zera_finish_refuted : serializeP true 12 [.other (.uint 7)] = .ub ∧
    serializeP true 12 [.blob (some [1])] = serializeEvs 12 [.blob [1]] ∧
    (∃ b, serializeEvs 12 [.blob [1]] = .ok b) := by
  have e : ∃ b, serializeEvs 12 (emit (.blob [1])) = .ok b :=
    (serializeEvs_emit_ok_iff (by omega) _).2 ⟨trivial, by decide, by decide⟩
  have e' : ∃ b, serializeEvs 12 (emit (.uint 7)) = .ok b :=
    (serializeEvs_emit_ok_iff (by omega) _).2 ⟨trivial, by decide, by decide⟩
  obtain ⟨b, hb⟩ := e
  obtain ⟨b', hb'⟩ := e'
  refine ⟨(c104_zera_finish (by omega) (v := .uint 7) rfl hb').1 trivial, ?_, b, hb⟩
  rw [(c104_zera_finish (by omega) (v := .blob [1]) (cs := [.blob (some [1])]) rfl hb).2.1 (by simp [NoArena])]
  exact hb.symm

namespace View

/-- The comparison with a key as it is passed, zera.hpp:415-416, 478. -/
def keyHitP (v : View) (t : Txt) (kp keyLen : Nat) : Res Bool :=
  if keyLen = t.bytes.length then do
    let kb ← sliceAt v.buf kp t.bytes.length
    let key ← t.deref
    pure (decide (kb = key))
  else pure false

/-- Loop of `contains`, zera.hpp:410-419. -/
def containsFromP (v : View) (t : Txt) : Nat → Nat → Res Bool
  | 0, _ => pure false
  | n + 1, ofs => do
    let e ← v.envPtrAt (u32 ofs) 4
    let keyLen ← readU16 v.buf e
    let _ ← readU16 v.buf (e + 2)
    let kp ← v.envPtrAt (u32 (ofs + 4)) keyLen
    let hit ← v.keyHitP t kp keyLen
    if hit then pure true
    else do
      let ofs' := ofs + (4 + keyLen + 16)
      let _ ← v.envPtrAt (u32 ofs') 0
      containsFromP v t n ofs'

/-- `contains`, zera.hpp:403-421 -/
def containsP (v : View) (t : Txt) : Res Bool := do
  let m ← v.isMap
  if !m then pure false
  else do
    v.requireFlagsOk
    let objOfs ← v.a
    let p ← v.envPtrAt objOfs 4
    let count ← readU32 v.buf p
    v.containsFromP t count (u32 (objOfs + 4))

/-- Loop of `operator[](string_view)`, zera.hpp:472-483. -/
def getKeyFromP (v : View) (t : Txt) : Nat → Nat → Res View
  | 0, _ => .err .deser
  | n + 1, ofs => do
    let e ← v.envPtrAt (u32 ofs) 4
    let keyLen ← readU16 v.buf e
    let _ ← readU16 v.buf (e + 2)
    let kp ← v.envPtrAt (u32 (ofs + 4)) keyLen
    let vp ← v.envPtrAt (u32 (ofs + 4 + keyLen)) 16
    let hit ← v.keyHitP t kp keyLen
    if hit then pure { v with vr := some vp }
    else do
      let ofs' := ofs + (4 + keyLen + 16)
      let _ ← v.envPtrAt (u32 ofs') 0
      getKeyFromP v t n ofs'

/-- `operator[](string_view)`, zera.hpp:465-485 -/
def getKeyP (v : View) (t : Txt) : Res View := do
  let tg ← v.tag
  Res.require (decide (tg = tObject)) .deser
  v.requireFlagsOk
  let objOfs ← v.a
  let p ← v.envPtrAt objOfs 4
  let count ← readU32 v.buf p
  v.getKeyFromP t count (u32 (objOfs + 4))

theorem keyHitP_some (v : View) (k : Bytes) (kp n : Nat) : v.keyHitP (some k) kp n = v.keyHit k kp n := rfl

/-- With a null pointer the comparison is undefined where it would succeed, and as with an empty text where it would not. -/
theorem keyHitP_none (v : View) (kp n : Nat) :
    v.keyHitP none kp n = v.keyHit [] kp n >>= fun b => if b then .ub else .ok false := by
  show (if n = 0 then (sliceAt v.buf kp 0 >>= fun kb => (Res.ub : Res Bytes) >>= fun key => pure (decide (kb = key))) else pure false) =
    ((if n = 0 then (sliceAt v.buf kp 0 >>= fun kb => pure (decide (kb = []))) else pure false) >>= fun b =>
      if b then .ub else .ok false)
  by_cases hz : n = 0
  · rw [if_pos hz, if_pos hz]
    cases h : sliceAt v.buf kp 0 with
    | ok b =>
      have : b = [] := by
        simp only [sliceAt] at h
        split at h
        · simpa using (Res.ok.inj h).symm
        · cases h
      subst this
      rfl
    | err e => rfl
    | ub => rfl
    | diverge => rfl
  · rw [if_neg hz, if_neg hz]; rfl

theorem containsFromP_none (v : View) : ∀ (n ofs : Nat),
    v.containsFromP none n ofs = v.containsFrom [] n ofs >>= fun b => if b then .ub else .ok false
  | 0, _ => rfl
  | n + 1, ofs => by
    simp only [containsFromP, containsFrom, bind_assoc, keyHitP_none]
    congr 1; funext e; congr 1; funext kl; congr 1; funext _; congr 1; funext kp; congr 1; funext b
    cases b
    · simp only [Bool.false_eq_true, if_false, Res.ok_bind, bind_assoc]
      congr 1; funext _; exact containsFromP_none v n _
    · simp only [if_true, Res.pure_eq, Res.ok_bind]
      rfl

theorem getKeyFromP_none (v : View) : ∀ (n ofs : Nat), v.getKeyFromP none n ofs = v.getKeyFrom [] n ofs >>= fun _ => .ub
  | 0, _ => rfl
  | n + 1, ofs => by
    simp only [getKeyFromP, getKeyFrom, bind_assoc, keyHitP_none]
    congr 1; funext e; congr 1; funext kl; congr 1; funext _; congr 1; funext kp; congr 1; funext vp; congr 1; funext b
    cases b
    · simp only [Bool.false_eq_true, if_false, Res.ok_bind, bind_assoc]
      congr 1; funext _; exact getKeyFromP_none v n _
    · simp only [if_true, Res.pure_eq, Res.ok_bind]
      rfl

theorem containsFromP_some (v : View) (k : Bytes) : ∀ (n ofs : Nat), v.containsFromP (some k) n ofs = v.containsFrom k n ofs
  | 0, _ => rfl
  | n + 1, ofs => by
    simp only [containsFromP, containsFrom, keyHitP_some, containsFromP_some v k n]

theorem getKeyFromP_some (v : View) (k : Bytes) : ∀ (n ofs : Nat), v.getKeyFromP (some k) n ofs = v.getKeyFrom k n ofs
  | 0, _ => rfl
  | n + 1, ofs => by
    simp only [getKeyFromP, getKeyFrom, keyHitP_some, getKeyFromP_some v k n]

/-- **C104** (ZERA, lookup): of any position in any bytes, a key that is a null pointer is looked up like the empty key where that is not
found, and undefined where it is. -/
theorem c104_zera_lookup (v : View) :
    v.getKeyP none = (v.getKey [] >>= fun _ => .ub) ∧
    v.containsP none = (v.contains [] >>= fun b => if b then .ub else .ok false) ∧
    (∀ k, v.getKeyP (some k) = v.getKey k ∧ v.containsP (some k) = v.contains k) := by
  refine ⟨?_, ?_, fun k => ⟨?_, ?_⟩⟩
  · simp only [getKeyP, getKey, bind_assoc, getKeyFromP_none]
  · simp only [containsP, contains, bind_assoc, containsFromP_none]
    congr 1; funext m
    cases m <;> simp [bind_assoc]
  · simp only [getKeyP, getKey, getKeyFromP_some]
  · simp only [containsP, contains, containsFromP_some]

/-- **C104** does not hold of ZERA lookups: in a map with an empty key the lookup is undefined, in one without it is not. -/
theorem c104_zera_lookup_refuted :
    (serializeEvs 12 [.beginMap 1, .key [], .null, .endMap] >>= initFrom >>= fun v => v.contains []) = .ok true ∧
    (serializeEvs 12 [.beginMap 1, .key [], .null, .endMap] >>= initFrom >>= fun v => v.containsP none) = .ub ∧
    (serializeEvs 12 [.beginMap 1, .key [97], .null, .endMap] >>= initFrom >>= fun v => v.containsP none) = .ok false := by
  decide +kernel

end View

end Zera

namespace MsgPack

/-- `msgpack_sbuffer_write` returns at once for a null pointer (msgpack-c sbuffer.h), whatever the size. -/
def sbufferWrite (s : Bytes) : Txt → Bytes
  | none => s
  | some b => s ++ b

/-- `MsgPackSerializer` with texts as they are passed, msgpack.hpp:529-537, 546. -/
def stepP (s : Bytes) : Call → Res Bytes
  | .str t => .ok (sbufferWrite (s ++ packStrHead t.bytes.length) t)
  | .key t => .ok (sbufferWrite (s ++ packStrHead t.bytes.length) t)
  | .blob t => .ok (sbufferWrite (s ++ packBinHead t.bytes.length) t)
  | .other e => writer.step s e

/-- **C104** (MessagePack, writing). -/
theorem c104_msgpack_write (s : Bytes) (cs : List Call) : runCalls stepP s cs = writer.run s (cs.map Call.ev) := by
  refine runCalls_eq (P := fun _ => True) (fun s c _ => ?_) cs s fun _ _ => trivial
  cases c with
  | other e => rfl
  | str t => cases t <;> simp [stepP, sbufferWrite, Call.ev, writer, packEv, Txt.bytes]
  | key t => cases t <;> simp [stepP, sbufferWrite, Call.ev, writer, packEv, Txt.bytes]
  | blob t => cases t <;> simp [stepP, sbufferWrite, Call.ev, writer, packEv, Txt.bytes]

example : runCalls stepP [] [.other (.beginMap 1), .key none, .str none] = .ok [0x81, 0xa0, 0xa0] := by decide

end MsgPack

namespace Json

/-- `yyjson_mut_strn`: no node for a null pointer (yyjson.h). -/
def strn : Txt → Option Val
  | none => none
  | some b => some (.str b)

/-- `JsonSerializer` with texts as they are passed: `string`, json.hpp:286-288, whose node `push_value` looks at first, json.hpp:339;
`key` assigns the range to a `std::string`, json.hpp:332; `binary` passes the text of base64, which is a `std::string`, json.hpp:290-301. -/
def stepP (dbg : Bool) (s : RS) : Call → Res RS
  | .str t => match strn t with
    | none => .err .badAlloc
    | some v => push dbg s v
  | .key t => key s t.bytes
  | .blob t => binary dbg s t.bytes
  | .other e => step dbg s e

theorem stepP_eq (dbg : Bool) (s : RS) (c : Call) (h : c ≠ .str none) : stepP dbg s c = (writer dbg).step s c.ev := by
  cases c with
  | str t => cases t with
    | none => exact absurd rfl h
    | some b => rfl
  | key t => rfl
  | blob t => rfl
  | other e => rfl

/-- **C104** (JSON, writing), partial: not for strings. -/
theorem c104_json_write_partial (dbg : Bool) (s : RS) (cs : List Call) (h : Call.str none ∉ cs) :
    runCalls (stepP dbg) s cs = (writer dbg).run s (cs.map Call.ev) :=
  runCalls_eq (P := fun c => c ≠ .str none) (fun s c => stepP_eq dbg s c) cs s fun _ hc e => h (e ▸ hc)

/-- **C104** does not hold of JSON: a string that is a null pointer raises `std::bad_alloc` wherever it comes, also where the empty string
can be written. -/
theorem c104_json_write_refuted (dbg : Bool) {s t : RS} {cs : List Call} (ds : List Call) (h : runCalls (stepP dbg) s cs = .ok t) :
    runCalls (stepP dbg) s (cs ++ .str none :: ds) = .err .badAlloc := by
  rw [runCalls_append, h]; rfl

example (T : Text) : (∃ b, (proto T false).writer.run {} [.str []] = .ok b) ∧ runCalls (stepP false) {} [.str none] = .err .badAlloc :=
  ⟨⟨_, rfl⟩, rfl⟩

/-- `yyjson_obj_getn`: nothing is found under a null pointer (yyjson.h). -/
def objGetn (ms : List (Bytes × Val)) : Txt → Option Val
  | none => none
  | some k => firstVal ms k

/-- `contains`, json.hpp:189-192 -/
def containsP : Val → Txt → Res Bool
  | .map ms, t => .ok (objGetn ms t).isSome
  | _, _ => .ok false

/-- `operator[](string_view)`, json.hpp:199-204 -/
def getKeyP : Val → Txt → Res Val
  | .map ms, t => match objGetn ms t with
    | some v => .ok v
    | none => .err .deser
  | _, _ => .err .deser

/-- **C104** (JSON, lookup), partial: not where there is an empty key. -/
theorem c104_json_lookup_partial (v : Val) (t : Txt) (h : t = none → ∀ ms, v = .map ms → [] ∉ ms.map Prod.fst) :
    containsP v t = contains v t.bytes ∧ getKeyP v t = getKey v t.bytes := by
  cases v with
  | map ms =>
    cases t with
    | some k => exact ⟨rfl, rfl⟩
    | none =>
      have hn : firstVal ms [] = none := by
        cases hf : firstVal ms [] with
        | none => rfl
        | some w => exact absurd (firstVal_isSome.2 ⟨w, hf⟩) (h rfl ms rfl)
      simp only [containsP, contains, getKeyP, getKey, objGetn, Txt.bytes, Option.getD_none, hn]
      exact ⟨trivial, trivial⟩
  | _ => exact ⟨rfl, rfl⟩

/-- **C104** does not hold of JSON objects with an empty key: it is found as `""` and not as a null pointer. -/
theorem c104_json_lookup_refuted {ms : List (Bytes × Val)} (h : [] ∈ ms.map Prod.fst) :
    contains (.map ms) [] = .ok true ∧ containsP (.map ms) none = .ok false ∧
    (∃ w, getKey (.map ms) [] = .ok w) ∧ getKeyP (.map ms) none = .err .deser := by
  obtain ⟨w, hw⟩ := firstVal_isSome.1 h
  refine ⟨?_, rfl, ⟨w, ?_⟩, rfl⟩
  · simp [contains, hw]
  · simp [getKey, hw]

example : contains (.map [([], .null)]) [] = .ok true ∧ containsP (.map [([], .null)]) none = .ok false := ⟨rfl, rfl⟩

end Json

namespace Cbor

/-- `cbor::Serializer` with texts as they are passed, cbor.hpp:57-62, 69: jsoncons copies ranges (cbor_encoder.hpp). -/
def stepP (utf8 : Bytes → Bool) (maxDepth : Nat) (s : WS) : Call → Res WS
  | .str t => step utf8 maxDepth s (.str t.bytes)
  | .key t => step utf8 maxDepth s (.key t.bytes)
  | .blob t => step utf8 maxDepth s (.blob t.bytes)
  | .other e => step utf8 maxDepth s e

/-- **C104** (CBOR, writing). -/
theorem c104_cbor_write (utf8 : Bytes → Bool) (maxDepth : Nat) (s : WS) (cs : List Call) :
    runCalls (stepP utf8 maxDepth) s cs = (writer utf8 maxDepth).run s (cs.map Call.ev) :=
  runCalls_eq (P := fun _ => True) (fun s c _ => by cases c <;> rfl) cs s fun _ _ => trivial

end Cbor

namespace Flex

/-- `len + 1` bytes from `t.data()`, read by flexbuffers `String` and `Key`: the text and the byte behind it, here a NUL as behind a
`std::string` or a literal; of a null pointer the one byte is read through it. -/
def withNul : Txt → Res Bytes
  | none => .ub
  | some b => .ok (b ++ [0])

/-- `FlexSerializer` with texts as they are passed, flex.hpp:57-63, 91-94; a blob is copied as a range. -/
def stepP (L : Lib) (dbg : Bool) (s : RS) : Call → Res RS
  | .str t => do
    let b ← withNul t
    .ok (pushBlob s (createBlob s.buf 5 b.dropLast [0]))
  | .key t => do
    let b ← withNul t
    keyBytes s b
  | .blob t => step L dbg s (.blob t.bytes)
  | .other e => step L dbg s e

theorem stepP_eq (L : Lib) (dbg : Bool) (s : RS) (c : Call) (h : c ≠ .str none ∧ c ≠ .key none) :
    stepP L dbg s c = (writer L dbg).step s c.ev := by
  cases c with
  | str t => cases t with
    | none => exact absurd rfl h.1
    | some b => simp [stepP, withNul, Call.ev, writer, step, Txt.bytes]
  | key t => cases t with
    | none => exact absurd rfl h.2
    | some b => simp [stepP, withNul, Call.ev, writer, step, Txt.bytes]
  | blob t => rfl
  | other e => rfl

/-- **C104** (Flex, writing), partial: not for strings and keys. -/
theorem c104_flex_write_partial (L : Lib) (dbg : Bool) (s : RS) (cs : List Call) (h1 : Call.str none ∉ cs) (h2 : Call.key none ∉ cs) :
    runCalls (stepP L dbg) s cs = (writer L dbg).run s (cs.map Call.ev) :=
  runCalls_eq (P := fun c => c ≠ .str none ∧ c ≠ .key none) (fun s c => stepP_eq L dbg s c) cs s
    fun _ hc => ⟨fun e => h1 (e ▸ hc), fun e => h2 (e ▸ hc)⟩

/-- **C104** does not hold of Flex: a string or a key that is a null pointer is read through. -/
theorem c104_flex_write_refuted (L : Lib) (dbg : Bool) {s t : RS} {cs : List Call} (ds : List Call)
    (h : runCalls (stepP L dbg) s cs = .ok t) :
    runCalls (stepP L dbg) s (cs ++ .str none :: ds) = .ub ∧ runCalls (stepP L dbg) s (cs ++ .key none :: ds) = .ub := by
  constructor <;> (rw [runCalls_append, h]; rfl)

example : runCalls (stepP std false) {} [.str none] = .ub ∧ (∃ s, (writer std false).run {} [.str []] = .ok s) := ⟨rfl, _, rfl⟩

end Flex

namespace Tensor

variable {ρ : Type}

/-- `memcpy` into an owning container, xtensor.hpp:161, 194, eigen.hpp:173, 177, 196, 200, where containers without elements have a null
pointer if `nul`. -/
def ownedCopyP (nul : Bool) (n size : Nat) (bytes : Bytes) : Res Bytes :=
  if n * size < 2 ^ 64 then do
    let _ ← (if nul = true ∧ n = 0 then none else some [] : Txt).deref
    ownedCopy n size bytes
  else .err .badAlloc

/-- The last part of both functions, xtensor.hpp:151-202, eigen.hpp:158-207. -/
def makeViewP (nul : Bool) (span : Bool) (addr : Nat) (dt : DType) (shape : List Nat) (count : Nat) (bytes : Bytes) : Res View :=
  if span = false then do
    let own ← ownedCopyP nul count dt.size bytes
    pure ⟨shape, count, own, false, .notSpanBacked, dt.align, addr, bytes.length⟩
  else if addr % dt.align ≠ 0 then do
    let own ← ownedCopyP nul count dt.size bytes
    pure ⟨shape, count, own, false, .misaligned, dt.align, addr, bytes.length⟩
  else
    pure ⟨shape, count, bytes, true, .ok, dt.align, addr, bytes.length⟩

/-- `asXTensorView<T, D>`, xtensor.hpp:119-203 -/
def asXTensorViewP (nul : Bool) (R : TReader ρ) (dt : DType) (D : Option Nat) (r : ρ) : Res View := do
  Res.require (← isTensor R dt r) .deser
  let dtype ← R.asIntN 32 (← R.getIdx r 0)
  if dtype ≠ dt.code then .err .deser
  else do
    let shape ← tensorShape R.toReader (← R.getIdx r 1)
    if (match D with | none => false | some d => decide (shape.length ≠ d)) then .err .deser
    else do
      let data ← R.getIdx r 2
      let bytes ← R.asBlob data
      let count ← checkedCount 1 shape
      let expected := u64 (count * dt.size)
      if bytes.length ≠ expected then .err .deser
      else makeViewP nul R.span (R.addr data) dt shape count bytes

/-- `asEigenMatrixView<T, NRows, NCols>`, eigen.hpp:105-208 -/
def asEigenMatrixViewP (nul : Bool) (R : TReader ρ) (dt : DType) (nr nc : Option Nat) (r : ρ) : Res View := do
  Res.require (← isTensor R dt r) .deser
  let dtype ← R.asIntN 32 (← R.getIdx r 0)
  if dtype ≠ dt.code then .err .deser
  else do
    let shape ← tensorShape R.toReader (← R.getIdx r 1)
    match shape with
    | [rows, cols] =>
      if (match nr with | none => false | some d => decide (rows ≠ d)) then .err .deser
      else if (match nc with | none => false | some d => decide (cols ≠ d)) then .err .deser
      else do
        let data ← R.getIdx r 2
        let bytes ← R.asBlob data
        let expected := u64 (u64 (rows * cols) * dt.size)
        if bytes.length ≠ expected then .err .deser
        else makeViewP nul R.span (R.addr data) dt [rows, cols] (rows * cols) bytes
    | _ => .err .deser

/-- Undefined for a copy without elements. -/
def emptyCopy (nul : Bool) (v : View) : Res View := if nul = true ∧ v.zeroCopy = false ∧ v.count = 0 then .ub else .ok v

theorem ownedCopyP_eq (nul : Bool) (n size : Nat) (bytes : Bytes) (hb : n = 0 → bytes = []) :
    ownedCopyP nul n size bytes = ownedCopy n size bytes >>= fun o => if nul = true ∧ n = 0 then .ub else .ok o := by
  by_cases hc : nul = true ∧ n = 0
  · obtain ⟨h1, h2⟩ := hc
    subst h2
    simp [ownedCopyP, ownedCopy, h1, Txt.deref, hb rfl]
  · simp only [ownedCopyP, if_neg hc, Txt.deref, Res.ok_bind]
    by_cases hs : n * size < 2 ^ 64
    · rw [if_pos hs]; cases ownedCopy n size bytes <;> rfl
    · rw [if_neg hs, ownedCopy, if_neg hs]; rfl

theorem makeViewP_eq (nul span : Bool) (addr : Nat) (dt : DType) (shape : List Nat) (count : Nat) (bytes : Bytes)
    (hb : count = 0 → bytes = []) :
    makeViewP nul span addr dt shape count bytes = makeView span addr dt shape count bytes >>= emptyCopy nul := by
  have copy : ∀ rs, (ownedCopyP nul count dt.size bytes >>= fun own =>
        (pure ⟨shape, count, own, false, rs, dt.align, addr, bytes.length⟩ : Res View)) =
      (ownedCopy count dt.size bytes >>= fun own =>
        (pure ⟨shape, count, own, false, rs, dt.align, addr, bytes.length⟩ : Res View)) >>= emptyCopy nul := by
    intro rs
    rw [ownedCopyP_eq nul count dt.size bytes hb]
    cases ownedCopy count dt.size bytes with
    | ok o =>
      simp only [Res.ok_bind, Res.pure_eq, emptyCopy]
      by_cases hc : nul = true ∧ count = 0
      · rw [if_pos hc, if_pos ⟨hc.1, trivial, hc.2⟩]; rfl
      · rw [if_neg hc, if_neg fun h => hc ⟨h.1, h.2.2⟩]; rfl
    | err e => rfl
    | ub => rfl
    | diverge => rfl
  unfold makeViewP makeView
  by_cases h1 : span = false
  · rw [if_pos h1, if_pos h1]; exact copy _
  · rw [if_neg h1, if_neg h1]
    by_cases h2 : addr % dt.align ≠ 0
    · rw [if_pos h2, if_pos h2]; exact copy _
    · rw [if_neg h2, if_neg h2]
      simp [emptyCopy]

theorem noBytes {b : Bytes} {n k : Nat} (h : ¬ b.length ≠ u64 (n * k)) (hn : n = 0) : b = [] := by
  subst hn
  simp only [Nat.zero_mul, ne_eq, Decidable.not_not] at h
  exact List.length_eq_zero_iff.1 h

theorem noBytes₂ {b : Bytes} {n k : Nat} (h : ¬ b.length ≠ u64 (u64 n * k)) (hn : n = 0) : b = [] := by
  subst hn
  have e : u64 0 = 0 := rfl
  rw [e] at h
  exact noBytes h rfl

/-- **C104** (tensors): where containers without elements have a null pointer, a view is what it is elsewhere, unless it is a copy and has
no elements; then it is undefined. For any reader of any protocol and any document. -/
theorem c104_tensor_views (nul : Bool) (R : TReader ρ) (dt : DType) (r : ρ) :
    (∀ D, asXTensorViewP nul R dt D r = asXTensorView R dt D r >>= emptyCopy nul) ∧
    (∀ nr nc, asEigenMatrixViewP nul R dt nr nc r = asEigenMatrixView R dt nr nc r >>= emptyCopy nul) := by
  constructor
  · intro D
    simp only [asXTensorViewP, asXTensorView, bind_assoc]
    congr 1; funext b; congr 1; funext _; congr 1; funext e0; congr 1; funext dty
    split
    · rfl
    · simp only [bind_assoc]
      congr 1; funext e1; congr 1; funext shape
      have rest : (R.getIdx r 2 >>= fun data => R.asBlob data >>= fun bytes => checkedCount 1 shape >>= fun count =>
            if bytes.length ≠ u64 (count * dt.size) then .err .deser
            else makeViewP nul R.span (R.addr data) dt shape count bytes) =
          (R.getIdx r 2 >>= fun data => R.asBlob data >>= fun bytes => checkedCount 1 shape >>= fun count =>
            if bytes.length ≠ u64 (count * dt.size) then .err .deser
            else makeView R.span (R.addr data) dt shape count bytes) >>= emptyCopy nul := by
        simp only [bind_assoc]
        congr 1; funext data; congr 1; funext bytes; congr 1; funext count
        by_cases hb : bytes.length ≠ u64 (count * dt.size)
        · rw [if_pos hb, if_pos hb]; rfl
        · rw [if_neg hb, if_neg hb]
          exact makeViewP_eq _ _ _ _ _ _ _ (noBytes hb)
      cases D with
      | none => exact rest
      | some d =>
        by_cases hd : shape.length ≠ d
        · simp [hd]
        · simp only [hd, decide_false, Bool.false_eq_true, if_false]
          exact rest
  · intro nr nc
    simp only [asEigenMatrixViewP, asEigenMatrixView, bind_assoc]
    congr 1; funext b; congr 1; funext _; congr 1; funext e0; congr 1; funext dty
    split
    · rfl
    · simp only [bind_assoc]
      congr 1; funext e1; congr 1; funext shape
      rcases shape with _ | ⟨rows, _ | ⟨cols, _ | ⟨_, _⟩⟩⟩
      · rfl
      · rfl
      · have rest : (R.getIdx r 2 >>= fun data => R.asBlob data >>= fun bytes =>
              if bytes.length ≠ u64 (u64 (rows * cols) * dt.size) then .err .deser
              else makeViewP nul R.span (R.addr data) dt [rows, cols] (rows * cols) bytes) =
            (R.getIdx r 2 >>= fun data => R.asBlob data >>= fun bytes =>
              if bytes.length ≠ u64 (u64 (rows * cols) * dt.size) then .err .deser
              else makeView R.span (R.addr data) dt [rows, cols] (rows * cols) bytes) >>= emptyCopy nul := by
          simp only [bind_assoc]
          congr 1; funext data; congr 1; funext bytes
          by_cases hb : bytes.length ≠ u64 (u64 (rows * cols) * dt.size)
          · rw [if_pos hb, if_pos hb]; rfl
          · rw [if_neg hb, if_neg hb]
            exact makeViewP_eq _ _ _ _ _ _ _ (noBytes₂ hb)
        cases nr with
        | none => cases nc with
          | none => exact rest
          | some c =>
            by_cases hc : cols ≠ c
            · simp [hc]
            · simp only [hc, decide_false, Bool.false_eq_true, if_false]
              exact rest
        | some d =>
          by_cases hd : rows ≠ d
          · simp [hd]
          · cases nc with
            | none =>
              simp only [hd, decide_false, Bool.false_eq_true, if_false]
              exact rest
            | some c =>
              by_cases hc : cols ≠ c
              · simp [hc]
              · simp only [hc, hd, decide_false, Bool.false_eq_true, if_false]
                exact rest
      · rfl

/-- **C104** does not hold of tensors without elements: an array of doubles in JSON, `[11,[0],["~b","","base64"]]`. -/
theorem c104_tensor_refuted (T : TReader Val) (h : T = { Json.reader with asIntN := Json.asIntN, span := false, addr := fun _ => 0 }) :
    (∃ v, asXTensorView T .f64 none (.arr [.int 11, .arr [.int 0], .arr [.str Json.blobTag, .str [], .str Json.blobEncoding]]) = .ok v) ∧
    asXTensorViewP true T .f64 none (.arr [.int 11, .arr [.int 0], .arr [.str Json.blobTag, .str [], .str Json.blobEncoding]]) = .ub := by
  subst h
  exact ⟨⟨⟨[0], 0, [], false, .notSpanBacked, 8, 0, 0⟩, by decide +kernel⟩, by decide +kernel⟩

end Tensor

end Zer
