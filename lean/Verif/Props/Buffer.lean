import Verif.Buffer.Observe
import Verif.Buffer.Hex

/-!
# Buffers: C43-C46
-/

namespace Zer.Buf

/-! ## C43 Memory is released exactly once -/

/-- **C43** Whatever a program does with buffers, the calls of deleter `d` on allocation `p` so far and the buffers that
still hold `p` with `d` together are as many as the times the program handed over `p` with `d`: nothing is
released twice, nothing is lost, nothing is released by another deleter. -/
theorem c43_balance (ops : List Op) {s : State} (h : run {} ops = .done s) (d p : Nat) :
    s.log.count (d, p) + s.held d p = handed d p ops := by
  have := run_count ops h d p
  simpa [State.held] using this

/-- **C43** An allocation that was handed over once is released at most once, not while a buffer holds it, and exactly
once when all buffers are gone. -/
theorem c43_released_once (ops : List Op) {s : State} (h : run {} ops = .done s) {d p : Nat}
    (h1 : handed d p ops = 1) :
    s.log.count (d, p) ≤ 1 ∧ (∀ i x, s.obj i = some x → holds d p (some x) → (d, p) ∉ s.log) ∧
    ((∀ i, s.obj i = none) → s.log.count (d, p) = 1) := by
  have hb := c43_balance ops h d p
  refine ⟨by omega, fun i x hx hh hm => ?_, fun hn => ?_⟩
  · obtain ⟨hi, e⟩ := obj_some hx
    have : 0 < s.held d p := List.countP_pos_iff.2 ⟨_, List.getElem_mem hi, by rw [e]; exact hh⟩
    have := List.count_pos_iff.2 hm
    omega
  · have : s.held d p = 0 := by
      unfold State.held
      rw [List.countP_eq_zero]
      intro y hy
      obtain ⟨i, hi, e⟩ := List.getElem_of_mem hy
      have := hn i
      rw [obj_of_get (List.getElem?_eq_some_iff.2 ⟨hi, e⟩)] at this
      rw [this]; simp [holds]
    omega

/-- **C43** No deleter is called on anything that was not handed over with it. -/
theorem c43_nothing_else (ops : List Op) {s : State} (h : run {} ops = .done s) {d p : Nat} (hm : (d, p) ∈ s.log) :
    ∃ k n, Op.adopt k (some p) n (some d) ∈ ops := by
  have hb := c43_balance ops h d p
  have := List.count_pos_iff.2 hm
  have hp : 0 < handed d p ops := by omega
  obtain ⟨o, ho, hh⟩ := List.countP_pos_iff.1 hp
  cases o with
  | adopt k q n e =>
    simp only [Bool.and_eq_true, beq_iff_eq] at hh
    obtain ⟨rfl, rfl⟩ := hh
    exact ⟨k, n, ho⟩
  | _ => cases hh

/-- Three buffers, two allocations, moves in both directions, all destroyed. -/
def sample : List Op :=
  [.adopt .bytes (some 10) 4 (some 1), .adopt .void (some 20) 8 (some 2), .fromVec [1, 2], .moveNew 0,
   .moveTo 2 1, .moveTo 3 2, .moveTo 1 3, .destroy 0, .destroy 1, .destroy 2, .destroy 3]

example : ∃ s, run {} sample = .done s ∧ s.log = [(1, 10), (2, 20)] ∧ handed 1 10 sample = 1 ∧
    (∀ i, s.obj i = none) := by
  refine ⟨⟨[none, none, none, none], [(1, 10), (2, 20)]⟩, by decide +kernel, rfl, by decide +kernel, fun i => ?_⟩
  match i with
  | 0 | 1 | 2 | 3 => rfl
  | n + 4 => rfl

/-! ## C44 Observers -/

/-- **C44** for `owned()`: after any history, a buffer that says it is owned has nothing a deleter is called for, and the size
of one that says it is not is the size some pointer was adopted with. -/
theorem c44_owned (ops : List Op) {s : State} (h : run {} ops = .done s) {i : Nat} {x : Storage} (hx : s.obj i = some x) :
    (x.owned = true → ∀ log, x.destroy log = some log) ∧
    (x.owned = false → ∃ k p d, Op.adopt k p x.size d ∈ ops) := by
  have key : ∀ (os : List Op) (s s' : State), run s os = .done s' → (∀ o ∈ os, o ∈ ops) →
      (∀ i x, s.obj i = some x → (x.owned = true → ∀ log, x.destroy log = some log) ∧
        (x.owned = false → ∃ k p d, Op.adopt k p x.size d ∈ ops)) →
      ∀ i x, s'.obj i = some x → (x.owned = true → ∀ log, x.destroy log = some log) ∧
        (x.owned = false → ∃ k p d, Op.adopt k p x.size d ∈ ops) := by
    intro os
    induction os with
    | nil => intro s s' h _ hs; simp only [run, Out.done.injEq] at h; subst h; exact hs
    | cons o os ih =>
      intro s s' h ho hs
      obtain ⟨t, h1, h2⟩ := run_cons h
      refine ih t s' h2 (fun o h => ho o (List.mem_cons_of_mem _ h)) (step_all (o := o) (s := s) h1 ?_ ?_ ?_ hs)
      · intro b; exact ⟨fun _ _ => rfl, fun h => by cases h⟩
      · intro x hx
        cases x with
        | vec b => exact ⟨fun _ _ => rfl, fun h => by cases h⟩
        | managed m => exact ⟨fun _ _ => rfl, hx.2⟩
      · intro k p n d e
        subst e
        exact ⟨(fun h => by cases h), fun _ => ⟨k, p, d, ho _ List.mem_cons_self⟩⟩
  exact key ops {} s h (fun _ h => h) (fun i x hx => by simp [State.obj] at hx) i x hx

example : ∃ s, run {} [.adopt .bytes (some 1) 4 (some 7), .fromVec [1, 2], .moveNew 0] = .done s ∧
    (s.obj 2).map Storage.owned = some false ∧ (s.obj 1).map Storage.owned = some true := ⟨_, rfl, rfl, rfl⟩

/-- **C44** Take any history in which adopted allocations have the size they were announced with. Every live buffer that
was not moved from (nor given the content of a moved-from buffer) can be read completely: `data()` points to `size()`
readable bytes. -/
theorem c44_observers_partial (ops : List Op) {s : State} (h : run {} ops = .done s) (mem : Mem)
    (hm : ∀ k p n d, Op.adopt k (some p) n d ∈ ops → n ≤ (mem p).length) {i : Nat} {x : Storage}
    (hx : s.obj i = some x) (hs : stale ops i = false) :
    ∃ b, x.readBuf mem = .ok b ∧ b.length = x.size ∧ x.copyOut mem = .ok b := by
  have hi : Inv (fun p n => n ≤ (mem p).length) s (ops.foldl mark []) :=
    run_inv ops h ⟨rfl, fun i x g => by simp at g⟩ hm
  have hg := inv_good hi hx hs
  cases x with
  | vec b =>
    refine ⟨b, by simp [Storage.readBuf, Storage.data, Storage.size, Target.read, sliceAt], rfl, ?_⟩
    by_cases hl : b.length = 0
    · have : b = [] := List.length_eq_zero_iff.1 hl
      subst this; simp [Storage.copyOut, Storage.size]
    · have : b ≠ [] := fun e => hl (by simp [e])
      simp [Storage.copyOut, Storage.data, Storage.size, Target.read, sliceAt, this]
  | managed m =>
    obtain ⟨ptr, n, del⟩ := m
    cases ptr with
    | none =>
      have : n = 0 := hg
      subst this
      exact ⟨[], by simp [Storage.readBuf, Storage.data, Storage.size, Target.read], rfl, by
        simp [Storage.copyOut, Storage.data, Storage.size]⟩
    | some p =>
      have hl : n ≤ (mem p).length := hg
      refine ⟨(mem p).take n, ?_, by simp [Storage.size, hl], ?_⟩
      · simp [Storage.readBuf, Storage.data, Storage.size, Target.read, sliceAt, hl]
      · by_cases h0 : n = 0
        · subst h0; simp [Storage.copyOut, Storage.size]
        · simp [Storage.copyOut, Storage.data, Storage.size, Target.read, sliceAt, hl, h0]

/-- **C44** What is read belongs to the buffer: the allocation is not released while it can be seen through a buffer. -/
theorem c44_alive (ops : List Op) {s : State} (h : run {} ops = .done s) {i p : Nat} {x : Storage}
    (hx : s.obj i = some x) (hd : x.data = .alloc p)
    (h1 : ∀ d, handed d p ops ≤ 1) : ∀ d, holds d p (some x) → (d, p) ∉ s.log := by
  intro d hh hm
  have hb := c43_balance ops h d p
  obtain ⟨hi, e⟩ := obj_some hx
  have : 0 < s.held d p := List.countP_pos_iff.2 ⟨_, List.getElem_mem hi, by rw [e]; exact hh⟩
  have := List.count_pos_iff.2 hm
  have := h1 d
  omega

/-- **C44** The copying observers (`to_vector_copy`, `to_debug_string`) are defined on every live buffer, moved-from or
not. -/
theorem c44_copies (ops : List Op) {s : State} (h : run {} ops = .done s) (mem : Mem)
    (hm : ∀ k p n d, Op.adopt k (some p) n d ∈ ops → n ≤ (mem p).length) {i : Nat} {x : Storage}
    (hx : s.obj i = some x) : ∃ b, x.copyOut mem = .ok b := by
  have hall : ∀ (ops : List Op) (s s' : State), run s ops = .done s' →
      (∀ k p n d, Op.adopt k (some p) n d ∈ ops → n ≤ (mem p).length) →
      (∀ i x, s.obj i = some x → ∀ m p, x = .managed m → m.ptr = some p → m.count ≤ (mem p).length) →
      (∀ i x, s'.obj i = some x → ∀ m p, x = .managed m → m.ptr = some p → m.count ≤ (mem p).length) := by
    intro ops
    induction ops with
    | nil => intro s s' h _ hs; simp only [run, Out.done.injEq] at h; subst h; exact hs
    | cons o os ih =>
      intro s s' h ho hs
      obtain ⟨t, h1, h2⟩ := run_cons h
      refine ih t s' h2 (fun k p n d m => ho k p n d (List.mem_cons_of_mem _ m)) ?_
      refine step_all (P := fun x => ∀ m p, x = .managed m → m.ptr = some p → m.count ≤ (mem p).length) h1
        (fun b m p e => by cases e) (fun x hx m p e hp => ?_) (fun k p n d e m q e1 hq => ?_) hs
      · cases x with
        | vec b => cases e
        | managed m' => cases e; cases hp
      · cases e1
        have : p = some q := hq
        subst this
        exact ho k q n d (by simp [e])
  have hg := hall ops {} s h hm (fun i x g => by simp [State.obj] at g) i x hx
  cases x with
  | vec b =>
    by_cases h0 : b.length = 0
    · exact ⟨[], by simp [Storage.copyOut, Storage.size, h0]⟩
    · have : b ≠ [] := fun e => h0 (by simp [e])
      exact ⟨b, by simp [Storage.copyOut, Storage.data, Storage.size, Target.read, sliceAt, this]⟩
  | managed m =>
    obtain ⟨ptr, n, del⟩ := m
    cases ptr with
    | none => exact ⟨[], by simp [Storage.copyOut, Storage.data]⟩
    | some p =>
      have hl : n ≤ (mem p).length := hg _ p rfl rfl
      by_cases h0 : n = 0
      · subst h0; exact ⟨[], by simp [Storage.copyOut, Storage.size]⟩
      · exact ⟨(mem p).take n, by
          simp [Storage.copyOut, Storage.data, Storage.size, Target.read, sliceAt, hl, h0]⟩

/-- **C44** does not hold of moved-from buffers: `count` is a plain number and survives the move, so an
adopted buffer that was moved from announces its old size with a null pointer, and reading its `buf()` is undefined. -/
theorem c44_observers_refuted : ∃ ops s x, run {} ops = .done s ∧ s.obj 0 = some x ∧ x.size = 4 ∧ x.data = .null ∧
    ∀ mem, x.readBuf mem = .ub :=
  ⟨[.adopt .bytes (some 7) 4 (some 1), .moveNew 0],
    ⟨[some (.managed ⟨none, 4, .empty⟩), some (.managed ⟨some 7, 4, .fn 1⟩)], []⟩, .managed ⟨none, 4, .empty⟩,
    by decide +kernel, by decide +kernel, rfl, rfl, fun _ => rfl⟩

/-- The moved-to buffer of that history is not affected, and neither is a buffer assigned after it was moved from. -/
example : stale [.adopt .bytes (some 7) 4 (some 1), .moveNew 0, .fromVec [1], .moveTo 0 2] 1 = false ∧
    stale [.adopt .bytes (some 7) 4 (some 1), .moveNew 0, .fromVec [1], .moveTo 0 2] 0 = false ∧
    stale [.adopt .bytes (some 7) 4 (some 1), .moveNew 0, .fromVec [1], .moveTo 0 2] 2 = true := by
  decide +kernel

/-! ## C45 Adoption errors -/

/-- **C45** What the three adopting constructors do, for every pointer, size and deleter. -/
theorem c45_adoption (s : State) (k : Kind) (p : Option Nat) (n : Nat) (d : Option Nat) :
    step s (.adopt k p n d) =
      if p = none then
        if 0 < n ∨ (k = .bytes ∧ d = none) then .threw ⟨s.objs ++ [none], s.log⟩
        else .done ⟨s.objs ++ [some (.managed ⟨none, n, k.deleter d⟩)], s.log⟩
      else if k = .bytes ∧ d = none then .terminated
      else .done ⟨s.objs ++ [some (.managed ⟨p, n, k.deleter d⟩)], s.log⟩ := by
  cases p <;> cases k <;> cases d <;> by_cases hn : 0 < n <;>
    simp [step, adopt, Kind.deleter, Storage.destroy, Deleter.target, hn]

/-- **C45** If a deleter comes with every pointer that is not null, no history of buffers ends the program, and bad
arguments reach the caller as an exception that changes no other buffer and releases nothing. -/
theorem c45_reported_partial (ops : List Op) (ho : ∀ k p n d, Op.adopt k (some p) n d ∈ ops → d ≠ none) :
    run {} ops ≠ .terminated ∧
    (∀ s k n d, 0 < n → step s (.adopt k none n d) = .threw ⟨s.objs ++ [none], s.log⟩) :=
  ⟨run_not_terminated ops (fun i m p g => by simp [State.obj] at g) ho, fun s k n d hn => by
    rw [c45_adoption, if_pos rfl, if_pos (.inl hn)]⟩

example : ∀ k p n d, Op.adopt k (some p) n d ∈ sample → d ≠ none := by
  intro k p n d h
  simp only [sample, List.mem_cons, Op.adopt.injEq, reduceCtorEq, List.not_mem_nil, or_false, false_or] at h
  rcases h with ⟨-, -, -, rfl⟩ | ⟨-, -, -, rfl⟩ <;> simp

/-- **C45** does not hold: adopting a pointer with an empty deleter ends the program — the check throws, and the
half-built `unique_ptr` calls the empty deleter during unwinding. -/
theorem c45_reported_refuted (p n : Nat) (s : State) : step s (.adopt .bytes (some p) n none) = .terminated := by
  simp [c45_adoption]

/-- **C45** The other two constructors do not notice an empty deleter: it is wrapped, the construction succeeds, and the
program ends when the buffer is destroyed. -/
theorem c45_late_refuted (p n : Nat) : ∀ k, k = .chars ∨ k = .void →
    run {} [.adopt k (some p) n none] = .done ⟨[some (.managed ⟨some p, n, .wrap none⟩)], []⟩ ∧
    run {} [.adopt k (some p) n none, .destroy 0] = .terminated := by
  rintro k (rfl | rfl) <;>
    simp [run, adopt, step, State.obj, Storage.destroy, Deleter.target, Kind.deleter]

/-! ## C46 Hexdump -/

/-- **C46** For every row width from 1 on the dump ends; it consists of rows of `row` bytes (the last may be shorter) that
together are exactly the bytes of the buffer in order; each row shows offset, every byte as two digits, and the
printable characters. -/
theorem c46_hexdump_partial (isprint : UInt8 → Bool) {row : Nat} (hr : 0 < row) (hr2 : row < 2 ^ 64) {p : Bytes}
    (hp : p ≠ []) (hl : p.length ≤ 2 ^ 63) {fuel : Nat} (hf : p.length < fuel) :
    ∃ rows : List Bytes, rows.flatten = p ∧ (∀ c ∈ rows, 0 < c.length ∧ c.length ≤ row) ∧
      hexdump isprint fuel row p = .ok (rowsFrom isprint row 0 rows) := by
  refine ⟨chunks row p, chunks_flatten hr p, chunks_row hr p, ?_⟩
  have : p.length ≠ 0 := fun e => hp (List.length_eq_zero_iff.1 e)
  rw [hexdump, if_neg this, hexRows_eq isprint p hr hr2 hl fuel 0 (.inl rfl) (by omega)]
  rfl

/-- **C46** The dump loses nothing: different buffers have different dumps. -/
theorem c46_hexdump_injective (isprint : UInt8 → Bool) {row : Nat} (hr : 0 < row) (hr2 : row < 2 ^ 64) {p q : Bytes}
    (hp : p.length ≤ 2 ^ 63) (hq : q.length ≤ 2 ^ 63) {fuel fuel' : Nat} (hf : p.length < fuel)
    (hf' : q.length < fuel') (h : hexdump isprint fuel row p = hexdump isprint fuel' row q) : p = q := by
  have ne : ∀ (q : Bytes), q ≠ [] → rowsFrom isprint row 0 (chunks row q) ≠ emptyText := by
    intro q hq e
    rw [chunks_cons hr hq] at e
    simp only [rowsFrom, rowText, List.append_assoc] at e
    have : (hexNum 8 0).head? = some 0x30 := by decide
    have e2 := congrArg List.head? e
    rw [List.head?_append, this] at e2
    simp [emptyText] at e2
  have val : ∀ (q : Bytes) (fuel : Nat), q.length ≤ 2 ^ 63 → q.length < fuel →
      hexdump isprint fuel row q = .ok (if q = [] then emptyText else rowsFrom isprint row 0 (chunks row q)) := by
    intro q fuel hq hf
    by_cases h0 : q = []
    · subst h0; rfl
    · have h1 : q.length ≠ 0 := fun e => h0 (List.length_eq_zero_iff.1 e)
      rw [hexdump, if_neg h1, hexRows_eq isprint q hr hr2 hq fuel 0 (.inl rfl) (by omega), if_neg h0]
      rfl
  rw [val p fuel hp hf, val q fuel' hq hf', Res.ok.injEq] at h
  by_cases h1 : p = [] <;> by_cases h2 : q = []
  · rw [h1, h2]
  · rw [if_pos h1, if_neg h2] at h; exact absurd h.symm (ne q h2)
  · rw [if_neg h1, if_pos h2] at h; exact absurd h (ne p h1)
  · rw [if_neg h1, if_neg h2] at h
    have := rowsFrom_inj (fun c hc => (chunks_row hr p c hc).2) (fun c hc => (chunks_row hr q c hc).2) h
    rw [← chunks_flatten hr p, ← chunks_flatten hr q, this]

/-- **C46** does not hold for row width 0: the loop never advances on a buffer that is not empty. -/
theorem c46_hexdump_refuted (isprint : UInt8 → Bool) {p : Bytes} (hp : p ≠ []) (fuel : Nat) :
    hexdump isprint fuel 0 p = .diverge := by
  have h0 : p.length ≠ 0 := fun e => hp (List.length_eq_zero_iff.1 e)
  rw [hexdump, if_neg h0]
  have : ∀ f, hexRows isprint p 0 f 0 = .diverge := by
    intro f
    induction f with
    | zero => rfl
    | succ f ih => rw [hexRows, if_pos (by omega)]; simp [ih]
  exact this fuel

/-- "A", newline, "B" in rows of two. -/
example : hexdump (fun c => decide (0x20 ≤ c ∧ c < 0x7f)) 10 2 [0x41, 0x0a, 0x42] =
    .ok ("00000000  41 0a  |A.|\n00000002  42     |B|\n".toUTF8.toList) := by decide +kernel

end Zer.Buf
