import Verif.Dyn.Model

/-!
# What a description of a value means, and that `serialize` makes the calls of that value
-/

namespace Zer.Dyn

mutual
/-- The value that is described. -/
def Src.val : Src → Val
  | .null => .null
  | .bool b => .bool b
  | .sint _ x => .int (Int64.ofInt x.toInt)
  | .uint _ x => .uint (UInt64.ofNat x.toNat)
  | .flt x => .dbl (UInt64.ofNat (widen32 x.toNat))
  | .dbl x => .dbl x
  | .cstr m => .str ((m.getD []).takeWhile (· ≠ 0))
  | .str s => .str s
  | .blob s => .blob s
  | .seq _ xs => .arr (Src.valList xs)
  | .smap ms => .map (Src.valEntries ms)
  | .umap ms => .map (Src.valEntries ms)
  | .zvec xs => .arr (Src.valList xs)
  | .zmap ms => .map (Src.valEntries ms)
  | .dyn d => d.val
  | .custom es => (Tree.eval es).getD .null
def Src.valList : List Src → List Val
  | [] => []
  | x :: xs => x.val :: Src.valList xs
def Src.valEntries : List (Bytes × Src) → List (Bytes × Val)
  | [] => []
  | (k, x) :: ms => (k, x.val) :: Src.valEntries ms
def DVal.val : DVal → Val
  | .null => .null
  | .bool b => .bool b
  | .int i => .int i
  | .uint n => .uint n
  | .dbl x => .dbl x
  | .str s => .str s
  | .blob s => .blob s
  | .arr xs => .arr (DVal.valList xs)
  | .map ms => .map (DVal.valEntries ms)
  | .ser x => x.val
def DVal.valList : List DVal → List Val
  | [] => []
  | x :: xs => x.val :: DVal.valList xs
def DVal.valEntries : List (Bytes × DVal) → List (Bytes × Val)
  | [] => []
  | (k, x) :: ms => (k, x.val) :: DVal.valEntries ms
end

mutual
/-- What the caller has to provide: C strings end inside their allocation, user-defined `serialize`
functions make the calls of one value. -/
def Src.Ok : Src → Prop
  | .cstr m => ∃ mem, m = some mem ∧ (0 : UInt8) ∈ mem
  | .seq _ xs => Src.okList xs
  | .smap ms => Src.okEntries ms
  | .umap ms => Src.okEntries ms
  | .zvec xs => Src.okList xs
  | .zmap ms => Src.okEntries ms
  | .dyn d => d.Ok
  | .custom es => ∃ v, es = emit v
  | _ => True
def Src.okList : List Src → Prop
  | [] => True
  | x :: xs => x.Ok ∧ Src.okList xs
def Src.okEntries : List (Bytes × Src) → Prop
  | [] => True
  | (_, x) :: ms => x.Ok ∧ Src.okEntries ms
def DVal.Ok : DVal → Prop
  | .arr xs => DVal.okList xs
  | .map ms => DVal.okEntries ms
  | .ser x => x.Ok
  | _ => True
def DVal.okList : List DVal → Prop
  | [] => True
  | x :: xs => x.Ok ∧ DVal.okList xs
def DVal.okEntries : List (Bytes × DVal) → Prop
  | [] => True
  | (_, x) :: ms => x.Ok ∧ DVal.okEntries ms
end

/-- A `WriterView` behaves like the writer it was made from. -/
theorem writerView_make {σ : Type} (W : Writer σ) : (WriterView.make W).writer = W := by
  cases W with | mk step =>
  simp only [WriterView.writer, WriterView.make, Writer.mk.injEq]
  funext c e
  cases e <;> rfl

theorem strlen_ok {mem : Bytes} (h : (0 : UInt8) ∈ mem) : strlen (some mem) = .ok (mem.takeWhile (· ≠ 0)) := by
  simp only [strlen, if_pos h]

theorem valList_length : ∀ xs : List Src, (Src.valList xs).length = xs.length
  | [] => rfl
  | _ :: xs => by simp [Src.valList, valList_length xs]
theorem valEntries_length : ∀ ms : List (Bytes × Src), (Src.valEntries ms).length = ms.length
  | [] => rfl
  | (_, _) :: ms => by simp [Src.valEntries, valEntries_length ms]
theorem dvalList_length : ∀ xs : List DVal, (DVal.valList xs).length = xs.length
  | [] => rfl
  | _ :: xs => by simp [DVal.valList, dvalList_length xs]
theorem dvalEntries_length : ∀ ms : List (Bytes × DVal), (DVal.valEntries ms).length = ms.length
  | [] => rfl
  | (_, _) :: ms => by simp [DVal.valEntries, dvalEntries_length ms]

theorem run_one {σ : Type} (W : Writer σ) (s : σ) (e : Ev) : W.run s [e] = W.step s e := by
  simp [Writer.run]

theorem run_arr {σ : Type} (W : Writer σ) (s : σ) (n : Nat) (es : List Ev) (e : Ev) :
    W.run s (.beginArr n :: (es ++ [e])) =
      (W.step s (.beginArr n) >>= fun s => W.run s es >>= fun s => W.step s e) := by
  simp [Writer.run_append]

theorem run_map {σ : Type} (W : Writer σ) (s : σ) (n : Nat) (es : List Ev) (e : Ev) :
    W.run s (.beginMap n :: (es ++ [e])) =
      (W.step s (.beginMap n) >>= fun s => W.run s es >>= fun s => W.step s e) := by
  simp [Writer.run_append]

theorem eval_emit_getD (v : Val) : (Tree.eval (emit v)).getD .null = v := by
  rw [Tree.eval_emit]; rfl

mutual
theorem ser_eq {σ : Type} (W : Writer σ) (s : σ) : ∀ x : Src, x.Ok → ser W s x = W.run s (emit x.val)
  | .null, _ => (run_one W s _).symm
  | .bool _, _ => (run_one W s _).symm
  | .sint _ _, _ => (run_one W s _).symm
  | .uint _ _, _ => (run_one W s _).symm
  | .flt _, _ => (run_one W s _).symm
  | .dbl _, _ => (run_one W s _).symm
  | .cstr m, h => by
    obtain ⟨mem, rfl, h⟩ := h
    simp only [ser, strlen_ok h, Src.val, emit, run_one, Option.getD_some]
    rfl
  | .str _, _ => (run_one W s _).symm
  | .blob _, _ => (run_one W s _).symm
  | .seq _ xs, h => by
    simp only [ser, Src.val, emit, run_arr, valList_length]
    exact congrArg _ (funext fun s => by rw [serList_eq W s xs h])
  | .smap ms, h => by
    simp only [ser, Src.val, emit, run_map, valEntries_length]
    exact congrArg _ (funext fun s => by rw [serEntries_eq W s ms h])
  | .umap ms, h => by
    simp only [ser, Src.val, emit, run_map, valEntries_length]
    exact congrArg _ (funext fun s => by rw [serEntries_eq W s ms h])
  | .zvec xs, h => by
    simp only [ser, Src.val, emit, run_arr, valList_length]
    exact congrArg _ (funext fun s => by rw [serList_eq W s xs h])
  | .zmap ms, h => by
    simp only [ser, Src.val, emit, run_map, valEntries_length]
    exact congrArg _ (funext fun s => by rw [serEntries_eq W s ms h])
  | .dyn d, h => by
    simp only [ser, Src.val]
    exact serDyn_eq W s d h
  | .custom es, h => by
    obtain ⟨v, rfl⟩ := h
    simp only [ser, Src.val, eval_emit_getD]
theorem serList_eq {σ : Type} (W : Writer σ) (s : σ) : ∀ xs : List Src, Src.okList xs →
    serList W s xs = W.run s (emitList (Src.valList xs))
  | [], _ => rfl
  | x :: xs, h => by
    simp only [serList, Src.valList, emitList, Writer.run_append, ser_eq W s x h.1]
    exact congrArg _ (funext fun s => serList_eq W s xs h.2)
theorem serEntries_eq {σ : Type} (W : Writer σ) (s : σ) : ∀ ms : List (Bytes × Src), Src.okEntries ms →
    serEntries W s ms = W.run s (emitEntries (Src.valEntries ms))
  | [], _ => rfl
  | (k, x) :: ms, h => by
    simp only [serEntries, Src.valEntries, emitEntries, Writer.run_cons, Writer.run_append]
    refine congrArg _ (funext fun s => ?_)
    rw [ser_eq W s x h.1]
    exact congrArg _ (funext fun s => serEntries_eq W s ms h.2)
theorem serDyn_eq {σ : Type} (W : Writer σ) (s : σ) : ∀ d : DVal, d.Ok → serDyn W s d = W.run s (emit d.val)
  | .null, _ => (run_one W s _).symm
  | .bool _, _ => (run_one W s _).symm
  | .int _, _ => (run_one W s _).symm
  | .uint _, _ => (run_one W s _).symm
  | .dbl _, _ => (run_one W s _).symm
  | .str _, _ => (run_one W s _).symm
  | .blob _, _ => (run_one W s _).symm
  | .arr xs, h => by
    simp only [serDyn, DVal.val, emit, run_arr, dvalList_length]
    exact congrArg _ (funext fun s => by rw [serDynList_eq W s xs h])
  | .map ms, h => by
    simp only [serDyn, DVal.val, emit, run_map, dvalEntries_length]
    exact congrArg _ (funext fun s => by rw [serDynEntries_eq W s ms h])
  | .ser x, h => by
    simp only [serDyn, DVal.val, writerView_make]
    exact ser_eq W s x h
theorem serDynList_eq {σ : Type} (W : Writer σ) (s : σ) : ∀ xs : List DVal, DVal.okList xs →
    serDynList W s xs = W.run s (emitList (DVal.valList xs))
  | [], _ => rfl
  | x :: xs, h => by
    simp only [serDynList, DVal.valList, emitList, Writer.run_append, serDyn_eq W s x h.1]
    exact congrArg _ (funext fun s => serDynList_eq W s xs h.2)
theorem serDynEntries_eq {σ : Type} (W : Writer σ) (s : σ) : ∀ ms : List (Bytes × DVal), DVal.okEntries ms →
    serDynEntries W s ms = W.run s (emitEntries (DVal.valEntries ms))
  | [], _ => rfl
  | (k, x) :: ms, h => by
    simp only [serDynEntries, DVal.valEntries, emitEntries, Writer.run_cons, Writer.run_append]
    refine congrArg _ (funext fun s => ?_)
    rw [serDyn_eq W s x h.1]
    exact congrArg _ (funext fun s => serDynEntries_eq W s ms h.2)
end

/-! ## Announced sizes -/

/-- Checks announced sizes: a stack of open containers, each with what was announced and how many
children (array elements, map keys) have been seen. -/
def countStep (st : List (Nat × Nat)) : Ev → Option (List (Nat × Nat))
  | .beginArr n => some ((n, 0) :: st)
  | .beginMap n => some ((n, 0) :: st)
  | .endArr => countEnd st
  | .endMap => countEnd st
  | .key _ => some st
  | _ => some (bump st)
where
  bump : List (Nat × Nat) → List (Nat × Nat)
    | [] => []
    | (n, k) :: st => (n, k + 1) :: st
  countEnd : List (Nat × Nat) → Option (List (Nat × Nat))
    | (n, k) :: st => if n = k then some (bump st) else none
    | [] => none

def countRun : List (Nat × Nat) → List Ev → Option (List (Nat × Nat))
  | st, [] => some st
  | st, e :: es => countStep st e >>= fun st => countRun st es

theorem countRun_append : ∀ (es fs : List Ev) (st : List (Nat × Nat)),
    countRun st (es ++ fs) = (countRun st es >>= fun st => countRun st fs)
  | [], _, _ => rfl
  | e :: es, fs, st => by
    simp only [List.cons_append, countRun]
    cases countStep st e with
    | none => rfl
    | some st' => exact countRun_append es fs st'

mutual
theorem count_emit : ∀ (v : Val) (st : List (Nat × Nat)), countRun st (emit v) = some (countStep.bump st)
  | .null, _ => rfl
  | .bool _, _ => rfl
  | .int _, _ => rfl
  | .uint _, _ => rfl
  | .dbl _, _ => rfl
  | .str _, _ => rfl
  | .blob _, _ => rfl
  | .arr xs, st => by
    simp only [emit, countRun, countStep, Option.bind_eq_bind, Option.bind_some, countRun_append,
      count_emitList xs xs.length 0 st]
    simp [countStep.countEnd]
  | .map ms, st => by
    simp only [emit, countRun, countStep, Option.bind_eq_bind, Option.bind_some, countRun_append,
      count_emitEntries ms ms.length 0 st]
    simp [countStep.countEnd]
theorem count_emitList : ∀ (xs : List Val) (n k : Nat) (st : List (Nat × Nat)),
    countRun ((n, k) :: st) (emitList xs) = some ((n, k + xs.length) :: st)
  | [], _, _, _ => rfl
  | x :: xs, n, k, st => by
    simp only [emitList, countRun_append, count_emit x, countStep.bump, Option.bind_eq_bind, Option.bind_some,
      count_emitList xs, List.length_cons]
    simp; omega
theorem count_emitEntries : ∀ (ms : List (Bytes × Val)) (n k : Nat) (st : List (Nat × Nat)),
    countRun ((n, k) :: st) (emitEntries ms) = some ((n, k + ms.length) :: st)
  | [], _, _, _ => rfl
  | (_, x) :: ms, n, k, st => by
    simp only [emitEntries, countRun, countStep, countRun_append, count_emit x, countStep.bump,
      Option.bind_eq_bind, Option.bind_some, count_emitEntries ms, List.length_cons]
    simp; omega
end

/-! ## `std::map` -/

theorem insertKey_mem {α : Type} (k : Bytes) (x : α) : ∀ ms : List (Bytes × α), ∀ k',
    k' ∈ (insertKey k x ms).map Prod.fst ↔ k' = k ∨ k' ∈ ms.map Prod.fst
  | [], k' => by simp [insertKey]
  | (k0, x0) :: ms, k' => by
    simp only [insertKey]
    split
    · next h => subst h; simp
    · split
      · simp
      · simp only [List.map_cons, List.mem_cons, insertKey_mem k x ms k']
        constructor
        · rintro (h | h | h) <;> simp [h]
        · rintro (h | h | h) <;> simp [h]

theorem insertKey_sorted {α : Type} (k : Bytes) (x : α) : ∀ {ms : List (Bytes × α)},
    ms.Pairwise (fun a b => a.1 < b.1) → (insertKey k x ms).Pairwise (fun a b => a.1 < b.1)
  | [], _ => by simp [insertKey]
  | (k0, x0) :: ms, h => by
    rw [List.pairwise_cons] at h
    simp only [insertKey]
    split
    · exact List.pairwise_cons.2 h
    · split
      · next h1 h2 =>
        refine List.pairwise_cons.2 ⟨fun b hb => ?_, List.pairwise_cons.2 h⟩
        rcases List.mem_cons.1 hb with rfl | hb
        · exact h2
        · exact List.lt_trans h2 (h.1 b hb)
      · next h1 h2 =>
        refine List.pairwise_cons.2 ⟨fun b hb => ?_, insertKey_sorted k x h.2⟩
        have := (insertKey_mem k x ms b.1).1 (List.mem_map_of_mem hb)
        rcases this with e | hm
        · rw [e]
          show k0 < k
          rcases List.le_iff_lt_or_eq.1 (List.not_lt.1 h2) with h3 | h3
          · exact h3
          · exact absurd h3.symm h1
        · obtain ⟨c, hc, hc'⟩ := List.mem_map.1 hm
          rw [← hc']; exact h.1 c hc

/-- A `std::map` iterates in strictly increasing order of keys. -/
theorem stdMap_sorted {α : Type} (ins : List (Bytes × α)) : (stdMap ins).Pairwise (fun a b => a.1 < b.1) := by
  suffices h : ∀ (ins : List (Bytes × α)) m, m.Pairwise (fun a b : Bytes × α => a.1 < b.1) →
      (ins.foldl (fun m p => insertKey p.1 p.2 m) m).Pairwise (fun a b => a.1 < b.1) from h ins [] .nil
  intro ins
  induction ins with
  | nil => exact fun _ h => h
  | cons p ins ih => exact fun m h => ih _ (insertKey_sorted p.1 p.2 h)

theorem insertKey_lookup {α : Type} (k : Bytes) (x : α) : ∀ (ms : List (Bytes × α)),
    ms.Pairwise (fun a b => a.1 < b.1) → ∀ k' : Bytes,
    (insertKey k x ms).lookup k' = (ms.lookup k').or (if k' = k then some x else none)
  | [], _, k' => by
    by_cases h : k' = k
    · subst h; simp [insertKey, List.lookup]
    · have : (k' == k) = false := by simpa using h
      simp [insertKey, List.lookup, h, this]
  | (k0, x0) :: ms, hs, k' => by
    rw [List.pairwise_cons] at hs
    have ih := insertKey_lookup k x ms hs.2 k'
    by_cases h0 : k' = k0
    · subst h0
      simp only [insertKey]
      split
      · simp [List.lookup]
      · next h1 =>
        split
        · have : (k' == k) = false := by simpa using Ne.symm h1
          simp [List.lookup, this]
        · simp [List.lookup]
    · have e0 : (k' == k0) = false := by simpa using h0
      simp only [insertKey]
      split
      · next h1 => subst h1; simp [List.lookup, e0, h0]
      · split
        · next h2 =>
          by_cases h : k' = k
          · have hn : ms.lookup k' = none := by
              rw [List.lookup_eq_none_iff]
              intro p hp
              have : k < p.1 := List.lt_trans h2 (hs.1 p hp)
              simp only [h, bne_iff_ne, beq_eq_false_iff_ne, ne_eq]
              rintro rfl
              exact List.lt_irrefl _ this
            subst h; simp [List.lookup, e0, hn]
          · have : (k' == k) = false := by simpa using h
            simp [List.lookup, e0, this, h]
        · simp [List.lookup, e0, ih]

/-- What a `std::map` holds under a key is what was inserted first under it. -/
theorem stdMap_lookup {α : Type} (ins : List (Bytes × α)) (k : Bytes) : (stdMap ins).lookup k = ins.lookup k := by
  suffices h : ∀ (ins : List (Bytes × α)) m, m.Pairwise (fun a b : Bytes × α => a.1 < b.1) →
      (ins.foldl (fun m p => insertKey p.1 p.2 m) m).lookup k = (m.lookup k).or (ins.lookup k) by
    simpa [stdMap] using h ins [] .nil
  intro ins
  induction ins with
  | nil => intro m _; simp
  | cons p ins ih =>
    intro m hm
    rw [List.foldl_cons, ih _ (insertKey_sorted p.1 p.2 hm), insertKey_lookup _ _ _ hm, Option.or_assoc]
    congr 1
    obtain ⟨k0, x0⟩ := p
    by_cases h : k = k0
    · subst h; simp [List.lookup]
    · have : (k == k0) = false := by simpa using h
      simp [List.lookup, h, this]

end Zer.Dyn
