import Verif.Buffer.Readers

/-!
# Lifetimes of readers: C47, C48
-/

namespace Zer.Life

def bn (b : Bool) : Nat := if b then 1 else 0

theorem countP_set' {α : Type} (f : α → Bool) (l : List α) (i : Nat) (y : α) (h : i < l.length) :
    (l.set i y).countP f + bn (f l[i]) = l.countP f + bn (f y) := by
  rw [List.countP_set h]
  have : bn (f l[i]) ≤ l.countP f := by
    unfold bn; split
    · exact List.countP_pos_iff.2 ⟨_, List.getElem_mem h, by assumption⟩
    · exact Nat.zero_le _
  unfold bn at *
  omega

theorem join_some {α : Type} {l : List (Option α)} {i : Nat} {x : α} (h : (l[i]?).join = some x) :
    ∃ hi : i < l.length, l[i] = some x := by
  cases g : l[i]? with
  | none => rw [g] at h; cases h
  | some y =>
    rw [g] at h
    obtain ⟨hi, e⟩ := List.getElem?_eq_some_iff.1 g
    exact ⟨hi, by rw [e]; exact h⟩

theorem countP_snoc {α : Type} (f : α → Bool) (l : List α) (y : α) : (l ++ [y]).countP f = l.countP f + bn (f y) := by
  rw [List.countP_append, List.countP_singleton]; rfl

theorem bn_some (m n : Nat) : bn (some m == some n) = if m = n then 1 else 0 := by
  by_cases e : m = n <;> simp [bn, e]

theorem new_count (n k : Nat) : (if n < k + 1 then 1 else 0) = (if n < k then 1 else 0) + (if k = n then 1 else 0) := by
  split <;> split <;> split <;> omega

/-! ## The binary readers -/

/-- The reader owns block `n`. -/
def owns (n : Nat) : Option Reader → Bool
  | some r => r.own == some n
  | none => false

def State.owners (s : State) (n : Nat) : Nat := s.objs.countP (owns n)

/-- Every block has one owner or has been freed once; blocks that do not exist have neither. -/
def Bal (s : State) : Prop := ∀ n, s.freed.count n + s.owners n = if n < s.cells.length then 1 else 0

theorem release_count (freed : List Nat) (o : Option Nat) (n : Nat) :
    (release freed o).count n = freed.count n + bn (o == some n) := by
  cases o with
  | none => rfl
  | some m =>
    simp only [release, List.count_append, List.count_singleton, bn]
    by_cases e : m = n <;> simp [e]

theorem copyCells_length (s : State) (r : Reader) (n : Nat) :
    (if n < (copyCells s r).2.length then 1 else 0) =
      (if n < s.cells.length then 1 else 0) + bn ((copyCells s r).1 == some n) := by
  unfold copyCells
  cases r.own with
  | none => simp [bn]
  | some m =>
    by_cases h : n < s.cells.length
    · simp [bn, h, Nat.lt_succ_of_lt h, Nat.ne_of_gt h]
    · by_cases e : s.cells.length = n
      · simp [bn, e]
      · have : ¬ n < s.cells.length + 1 := by omega
        simp [bn, h, e, this]

theorem copyCells_get {s : State} {r : Reader} {n : Nat} {b : Bytes} (h : s.cells[n]? = some b) :
    (copyCells s r).2[n]? = some b := by
  unfold copyCells
  cases r.own with
  | none => exact h
  | some m => rw [List.getElem?_append_left (List.getElem?_eq_some_iff.1 h).1]; exact h

theorem step_bal {s t : State} {o : Op} (h : step s o = some t) (hb : Bal s) : Bal t := by
  intro n
  have hn := hb n
  cases o with
  | dflt => simp only [step, Option.some.injEq] at h; subst h; simpa [State.owners, owns] using hn
  | overCaller b => simp only [step, Option.some.injEq] at h; subst h; simpa [State.owners, owns] using hn
  | overVector b =>
    simp only [step, Option.some.injEq] at h; subst h
    have k := countP_snoc (owns n) s.objs (some ⟨some s.cells.length, .block s.cells.length⟩)
    simp only [owns, bn_some] at k
    simp only [State.owners, List.length_append, List.length_singleton, new_count] at hn ⊢
    omega
  | child src =>
    simp only [step, Option.map_eq_some_iff] at h
    obtain ⟨r, -, rfl⟩ := h
    simpa [State.owners, owns] using hn
  | copyNew src =>
    simp only [step, Option.map_eq_some_iff] at h
    obtain ⟨r, -, rfl⟩ := h
    have := copyCells_length s r n
    have k := countP_snoc (owns n) s.objs (some ⟨(copyCells s r).1, r.view⟩)
    simp only [owns] at k
    simp only [State.owners] at hn ⊢
    omega
  | moveNew src =>
    simp only [step, Option.map_eq_some_iff] at h
    obtain ⟨r, g, rfl⟩ := h
    obtain ⟨hi, e⟩ := join_some g
    have := countP_set' (owns n) s.objs src (some ⟨none, r.view⟩) hi
    rw [e] at this
    rw [show bn (owns n (some ⟨none, r.view⟩)) = 0 from rfl] at this
    have k := countP_snoc (owns n) (s.objs.set src (some ⟨none, r.view⟩)) (some r)
    simp only [State.owners] at hn ⊢
    omega
  | copyTo dst src =>
    simp only [step] at h
    split at h
    · simp only [Option.map_eq_some_iff] at h
      obtain ⟨r, -, rfl⟩ := h
      exact hn
    · split at h
      · rename_i d r g1 g2
        simp only [Option.some.injEq] at h; subst h
        obtain ⟨hi, e⟩ := join_some g1
        have k1 := countP_set' (owns n) s.objs dst (some ⟨(copyCells s r).1, r.view⟩) hi
        rw [e] at k1
        have k2 := copyCells_length s r n
        have k3 := release_count s.freed d.own n
        simp only [State.owners, owns] at hn k1 k2 k3 ⊢
        omega
      · simp at h
  | moveTo dst src =>
    simp only [step] at h
    split at h
    · simp at h
    rename_i ne
    split at h
    · rename_i d r g1 g2
      simp only [Option.some.injEq] at h; subst h
      obtain ⟨h1, e1⟩ := join_some g1
      obtain ⟨h2, e2⟩ := join_some g2
      have k1 := countP_set' (owns n) s.objs dst (some r) h1
      have h2' : src < (s.objs.set dst (some r)).length := by simpa using h2
      have k2 := countP_set' (owns n) (s.objs.set dst (some r)) src (some ⟨none, r.view⟩) h2'
      rw [List.getElem_set_ne ne, e2] at k2
      rw [e1] at k1
      have k3 := release_count s.freed d.own n
      simp only [State.owners, owns, show bn ((none : Option Nat) == some n) = 0 from rfl] at hn k1 k2 k3 ⊢
      omega
    · simp at h
  | destroy i =>
    simp only [step, Option.map_eq_some_iff] at h
    obtain ⟨r, g, rfl⟩ := h
    obtain ⟨hi, e⟩ := join_some g
    have k1 := countP_set' (owns n) s.objs i none hi
    rw [e] at k1
    have k3 := release_count s.freed r.own n
    simp only [State.owners, owns, show bn false = 0 from rfl] at hn k1 k3 ⊢
    omega

theorem run_bal : ∀ (ops : List Op) {s t : State}, run s ops = some t → Bal s → Bal t
  | [], s, t, h, hb => by simp only [run, Option.some.injEq] at h; subst h; exact hb
  | o :: os, s, t, h, hb => by
    simp only [run, Option.bind_eq_some_iff] at h
    obtain ⟨u, h1, h2⟩ := h
    exact run_bal os h2 (step_bal h1 hb)

theorem bal_init : Bal {} := fun n => by simp [State.owners]

/-- **C47** Memory of readers is freed exactly once: a block has been freed or has exactly one live owner. -/
theorem c47_balance (ops : List Op) {s : State} (h : run {} ops = some s) (n : Nat) (hn : n < s.cells.length) :
    s.freed.count n + s.owners n = 1 := by
  have := run_bal ops h bal_init n
  rwa [if_pos hn] at this

/-- What the program gave to the constructor of the reader, if the reader was made from a vector or moved from a
reader that was (directly or over several moves). -/
def mark (l : List (Option Bytes)) : Op → List (Option Bytes)
  | .dflt | .overCaller _ | .child _ | .copyNew _ => l ++ [none]
  | .overVector b => l ++ [some b]
  | .moveNew src => l.set src none ++ [(l[src]?).join]
  | .copyTo dst src => if dst = src then l else l.set dst none
  | .moveTo dst src => (l.set dst (l[src]?).join).set src none
  | .destroy i => l.set i none

def given (ops : List Op) (i : Nat) : Option Bytes := ((ops.foldl mark [])[i]?).join

structure Inv (s : State) (l : List (Option Bytes)) : Prop where
  len : l.length = s.objs.length
  ok : ∀ i b, (l[i]?).join = some b → ∃ n, s.obj i = some ⟨some n, .block n⟩ ∧ s.cells[n]? = some b

theorem join_append {α : Type} {l : List (Option α)} {y : Option α} {i : Nat} {x : α}
    (h : ((l ++ [y])[i]?).join = some x) : (i < l.length ∧ (l[i]?).join = some x) ∨ (i = l.length ∧ y = some x) := by
  by_cases hi : i < l.length
  · rw [List.getElem?_append_left hi] at h; exact .inl ⟨hi, h⟩
  · have : i = l.length := by
      obtain ⟨h1, -⟩ := join_some h
      simp at h1; omega
    subst this
    simp at h
    exact .inr ⟨rfl, h⟩

theorem join_append_left {α : Type} {l : List (Option α)} {y : Option α} {i : Nat} (h : i < l.length) :
    ((l ++ [y])[i]?).join = (l[i]?).join := by rw [List.getElem?_append_left h]

theorem join_append_last {α : Type} {l : List (Option α)} {y : Option α} {i : Nat} (h : i = l.length) :
    ((l ++ [y])[i]?).join = y := by subst h; simp

theorem join_set {α : Type} {l : List (Option α)} {y : Option α} {i k : Nat} (h : k < l.length) :
    ((l.set k y)[i]?).join = if i = k then y else (l[i]?).join := by
  by_cases e : i = k
  · subst e; simp [h]
  · simp [e, List.getElem?_set_ne (Ne.symm e)]

theorem step_inv {s t : State} {l : List (Option Bytes)} {o : Op} (h : step s o = some t) (hi : Inv s l) :
    Inv t (mark l o) := by
  have hl := hi.len
  cases o with
  | dflt =>
    simp only [step, Option.some.injEq] at h; subst h
    refine ⟨by simp [mark, hl], fun i b g => ?_⟩
    rcases join_append g with ⟨hlt, g⟩ | ⟨-, g⟩
    · obtain ⟨n, h1, h2⟩ := hi.ok i b g
      exact ⟨n, by rw [← h1]; exact join_append_left (by omega), h2⟩
    · cases g
  | overCaller c =>
    simp only [step, Option.some.injEq] at h; subst h
    refine ⟨by simp [mark, hl], fun i b g => ?_⟩
    rcases join_append g with ⟨hlt, g⟩ | ⟨-, g⟩
    · obtain ⟨n, h1, h2⟩ := hi.ok i b g
      exact ⟨n, by rw [← h1]; exact join_append_left (by omega), h2⟩
    · cases g
  | overVector c =>
    simp only [step, Option.some.injEq] at h; subst h
    refine ⟨by simp [mark, hl], fun i b g => ?_⟩
    rcases join_append g with ⟨hlt, g⟩ | ⟨e, g⟩
    · obtain ⟨n, h1, h2⟩ := hi.ok i b g
      exact ⟨n, by rw [← h1]; exact join_append_left (by omega), by
        show (s.cells ++ [c])[n]? = _
        rw [List.getElem?_append_left (List.getElem?_eq_some_iff.1 h2).1]; exact h2⟩
    · cases g
      exact ⟨s.cells.length, join_append_last (by omega), by simp⟩
  | child src =>
    simp only [step, Option.map_eq_some_iff] at h
    obtain ⟨r, -, rfl⟩ := h
    refine ⟨by simp [mark, hl], fun i b g => ?_⟩
    rcases join_append g with ⟨hlt, g⟩ | ⟨-, g⟩
    · obtain ⟨n, h1, h2⟩ := hi.ok i b g
      exact ⟨n, by rw [← h1]; exact join_append_left (by omega), h2⟩
    · cases g
  | copyNew src =>
    simp only [step, Option.map_eq_some_iff] at h
    obtain ⟨r, -, rfl⟩ := h
    refine ⟨by simp [mark, hl], fun i b g => ?_⟩
    rcases join_append g with ⟨hlt, g⟩ | ⟨-, g⟩
    · obtain ⟨n, h1, h2⟩ := hi.ok i b g
      exact ⟨n, by rw [← h1]; exact join_append_left (by omega), copyCells_get h2⟩
    · cases g
  | moveNew src =>
    simp only [step, Option.map_eq_some_iff] at h
    obtain ⟨r, g0, rfl⟩ := h
    obtain ⟨hs, e⟩ := join_some g0
    refine ⟨by simp [mark, hl], fun i b g => ?_⟩
    rcases join_append g with ⟨hlt, g⟩ | ⟨e2, g⟩
    · rw [join_set (by omega)] at g
      split at g
      · cases g
      · rename_i ne
        obtain ⟨n, h1, h2⟩ := hi.ok i b g
        refine ⟨n, ?_, h2⟩
        rw [← h1]
        refine (join_append_left (by simpa [hl] using hlt)).trans ?_
        rw [join_set hs, if_neg ne]; rfl
    · obtain ⟨n, h1, h2⟩ := hi.ok src b g
      refine ⟨n, ?_, h2⟩
      rw [g0, Option.some.injEq] at h1
      rw [← h1]
      exact join_append_last (by simpa [hl] using e2)
  | copyTo dst src =>
    simp only [step] at h
    split at h
    · rename_i e
      simp only [Option.map_eq_some_iff] at h
      obtain ⟨r, -, rfl⟩ := h
      simp only [mark, if_pos e]
      exact hi
    · rename_i ne
      split at h
      · rename_i d r g1 g2
        simp only [Option.some.injEq] at h; subst h
        obtain ⟨hs, e⟩ := join_some g1
        simp only [mark, if_neg ne]
        refine ⟨by simp [hl], fun i b g => ?_⟩
        rw [join_set (by omega)] at g
        split at g
        · cases g
        · rename_i ne
          obtain ⟨n, h1, h2⟩ := hi.ok i b g
          refine ⟨n, ?_, copyCells_get h2⟩
          rw [← h1]
          refine (join_set hs).trans ?_
          rw [if_neg ne]; rfl
      · simp at h
  | moveTo dst src =>
    simp only [step] at h
    split at h
    · simp at h
    rename_i ne
    split at h
    · rename_i d r g1 g2
      simp only [Option.some.injEq] at h; subst h
      obtain ⟨h1, e1⟩ := join_some g1
      obtain ⟨h2, e2⟩ := join_some g2
      simp only [mark]
      refine ⟨by simp [hl], fun i b g => ?_⟩
      rw [join_set (by simp; omega)] at g
      split at g
      · cases g
      rename_i n1
      rw [join_set (by omega)] at g
      split at g
      · rename_i e
        obtain ⟨n, k1, k2⟩ := hi.ok src b g
        refine ⟨n, ?_, k2⟩
        rw [g2, Option.some.injEq] at k1
        rw [← k1]
        refine (join_set (by simpa using h2)).trans ?_
        rw [if_neg n1, join_set h1, if_pos e]
      · rename_i n2
        obtain ⟨n, k1, k2⟩ := hi.ok i b g
        refine ⟨n, ?_, k2⟩
        rw [← k1]
        refine (join_set (by simpa using h2)).trans ?_
        rw [if_neg n1, join_set h1, if_neg n2]; rfl
    · simp at h
  | destroy i =>
    simp only [step, Option.map_eq_some_iff] at h
    obtain ⟨r, g0, rfl⟩ := h
    obtain ⟨hs, e⟩ := join_some g0
    refine ⟨by simp [mark, hl], fun j b g => ?_⟩
    simp only [mark] at g
    rw [join_set (by omega)] at g
    split at g
    · cases g
    · rename_i ne
      obtain ⟨n, h1, h2⟩ := hi.ok j b g
      refine ⟨n, ?_, h2⟩
      rw [← h1]
      refine (join_set hs).trans ?_
      rw [if_neg ne]; rfl

theorem run_inv : ∀ (ops : List Op) {s t : State} {l : List (Option Bytes)}, run s ops = some t → Inv s l →
    Inv t (ops.foldl mark l)
  | [], s, t, l, h, hi => by simp only [run, Option.some.injEq] at h; subst h; exact hi
  | o :: os, s, t, l, h, hi => by
    simp only [run, Option.bind_eq_some_iff] at h
    obtain ⟨u, h1, h2⟩ := h
    exact run_inv os h2 (step_inv h1 hi)

/-- **C47** When a reader can be read: as long as the owner of the memory it points to is alive. -/
theorem c47_usable_iff (ops : List Op) {s : State} (h : run {} ops = some s) {i n : Nat} {r : Reader}
    (_ : s.obj i = some r) (hv : r.view = .block n) (hn : n < s.cells.length) :
    (s.read r = .ok s.cells[n] ↔ ∃ j q, s.obj j = some q ∧ q.own = some n) ∧
    ((¬∃ j q, s.obj j = some q ∧ q.own = some n) → s.read r = .ub) := by
  have hb := c47_balance ops h n hn
  have key : n ∉ s.freed ↔ ∃ j q, s.obj j = some q ∧ q.own = some n := by
    constructor
    · intro hf
      have : s.freed.count n = 0 := List.count_eq_zero.2 hf
      have : 0 < s.objs.countP (owns n) := by unfold State.owners at hb; omega
      obtain ⟨y, hy, ho⟩ := List.countP_pos_iff.1 this
      obtain ⟨j, hj, e⟩ := List.getElem_of_mem hy
      cases y with
      | none => cases ho
      | some q =>
        exact ⟨j, q, by unfold State.obj; rw [List.getElem?_eq_some_iff.2 ⟨hj, e⟩]; rfl, by simpa [owns] using ho⟩
    · rintro ⟨j, q, hj, ho⟩ hf
      obtain ⟨hi, e⟩ := join_some hj
      have : 0 < s.objs.countP (owns n) := List.countP_pos_iff.2 ⟨_, List.getElem_mem hi, by rw [e]; simp [owns, ho]⟩
      have := List.count_pos_iff.2 hf
      unfold State.owners at hb
      omega
  have hc : s.cells[n]? = some s.cells[n] := List.getElem?_eq_some_iff.2 ⟨hn, rfl⟩
  refine ⟨⟨fun hr => key.1 fun hf => ?_, fun hj => ?_⟩, fun hj => ?_⟩
  · simp [State.read, hv, hf] at hr
  · simp only [State.read, hv]
    rw [if_neg (key.2 hj)]
    split
    · rename_i b e; rw [hc] at e; cases e; rfl
    · rename_i e; rw [hc] at e; cases e
  · simp only [State.read, hv]
    rw [if_pos (Decidable.byContradiction fun hf => hj (key.1 hf))]

/-- **C47** A reader made from a vector, and every reader such a reader was moved to over any number of moves, reads the
bytes of that vector, whatever happens to the other readers (moved-from ones and their copies included). -/
theorem c47_moved_partial (ops : List Op) {s : State} (h : run {} ops = some s) {i : Nat} {b : Bytes}
    (hg : given ops i = some b) : ∃ r, s.obj i = some r ∧ s.read r = .ok b := by
  have hi : Inv s (ops.foldl mark []) := run_inv ops h ⟨rfl, fun i b g => by simp at g⟩
  obtain ⟨n, h1, h2⟩ := hi.ok i b hg
  obtain ⟨hn, e⟩ := List.getElem?_eq_some_iff.1 h2
  refine ⟨_, h1, ?_⟩
  rw [((c47_usable_iff ops h h1 rfl hn).1).2 ⟨i, _, h1, rfl⟩, e]

/-- A vector reader is copied, moved twice, its former places are destroyed or assigned. -/
example : ∃ s, run {} [.overVector [1, 2], .copyNew 0, .moveNew 0, .overVector [3], .moveTo 3 2, .destroy 0, .destroy 1,
      .destroy 2] = some s ∧
    given [.overVector [1, 2], .copyNew 0, .moveNew 0, .overVector [3], .moveTo 3 2, .destroy 0, .destroy 1,
      .destroy 2] 3 = some [1, 2] :=
  ⟨_, rfl, by decide +kernel⟩

/-- **C47** does not hold of copies: a copy has its own bytes but keeps pointing to those of the original, and cannot be
read once the original is destroyed. -/
theorem c47_copied_refuted : ∃ ops s r, run {} ops = some s ∧ s.obj 1 = some r ∧
    (∃ n, r.own = some n ∧ n ∉ s.freed ∧ s.cells[n]? = some [0x2a]) ∧ s.read r = .ub :=
  ⟨[.overVector [0x2a], .copyNew 0, .destroy 0], ⟨[none, some ⟨some 1, .block 0⟩], [[0x2a], [0x2a]], [0]⟩,
    ⟨some 1, .block 0⟩, by decide +kernel, by decide +kernel, ⟨1, by decide +kernel⟩, by decide +kernel⟩

/-! ## C48 JSON documents -/

def jowns (d : Nat) : Option JReader → Bool
  | some r => r.owns && r.doc == some d
  | none => false

def JState.owners (s : JState) (d : Nat) : Nat := s.objs.countP (jowns d)

def JBal (s : JState) : Prop := ∀ d, s.freed.count d + s.owners d = if d < s.docs then 1 else 0

theorem jrelease_count (freed : List Nat) (r : JReader) (d : Nat) :
    (r.release freed).count d = freed.count d + bn (jowns d (some r)) := by
  obtain ⟨doc, o⟩ := r
  cases o with
  | false => simp [JReader.release, jowns, bn]
  | true =>
    cases doc with
    | none => simp [JReader.release, jowns, bn]
    | some m =>
      simp only [JReader.release, jowns, if_true, List.count_append, List.count_singleton, bn]
      by_cases e : m = d <;> simp [e]

theorem jstep_bal {s t : JState} {o : JOp} (h : jstep s o = some t) (hb : JBal s) : JBal t := by
  intro n
  have hn := hb n
  cases o with
  | parse b =>
    cases b with
    | false => simp only [jstep, Option.some.injEq] at h; subst h; simpa [JState.owners, jowns] using hn
    | true =>
      simp only [jstep, Option.some.injEq] at h; subst h
      have k := countP_snoc (jowns n) s.objs (some ⟨some s.docs, true⟩)
      simp only [jowns, Bool.true_and, bn_some] at k
      simp only [JState.owners, new_count] at hn ⊢
      omega
  | view src =>
    simp only [jstep, Option.map_eq_some_iff] at h
    obtain ⟨r, -, rfl⟩ := h
    cases r.doc <;> simpa [JState.owners, jowns] using hn
  | moveNew src =>
    simp only [jstep, Option.map_eq_some_iff] at h
    obtain ⟨r, g, rfl⟩ := h
    obtain ⟨hi, e⟩ := join_some g
    have := countP_set' (jowns n) s.objs src (some ⟨none, false⟩) hi
    rw [e] at this
    simp only [JState.owners, List.countP_append, List.countP_singleton] at hn ⊢
    simp only [bn, show jowns n (some ⟨none, false⟩) = false from rfl] at this
    simp only [Bool.false_eq_true, if_false] at this
    omega
  | moveTo dst src =>
    simp only [jstep] at h
    split at h
    · simp only [Option.map_eq_some_iff] at h
      obtain ⟨r, -, rfl⟩ := h
      exact hn
    rename_i ne
    split at h
    · rename_i d r g1 g2
      simp only [Option.some.injEq] at h; subst h
      obtain ⟨h1, e1⟩ := join_some g1
      obtain ⟨h2, e2⟩ := join_some g2
      have k1 := countP_set' (jowns n) s.objs dst (some r) h1
      have h2' : src < (s.objs.set dst (some r)).length := by simpa using h2
      have k2 := countP_set' (jowns n) (s.objs.set dst (some r)) src (some ⟨none, false⟩) h2'
      rw [List.getElem_set_ne ne, e2] at k2
      rw [e1] at k1
      have k3 := jrelease_count s.freed d n
      simp only [JState.owners, show bn (jowns n (some ⟨none, false⟩)) = 0 from rfl] at hn k1 k2 k3 ⊢
      omega
    · simp at h
  | destroy i =>
    simp only [jstep, Option.map_eq_some_iff] at h
    obtain ⟨r, g, rfl⟩ := h
    obtain ⟨hi, e⟩ := join_some g
    have k1 := countP_set' (jowns n) s.objs i none hi
    rw [e] at k1
    have k3 := jrelease_count s.freed r n
    simp only [JState.owners, show bn (jowns n none) = 0 from rfl] at hn k1 k3 ⊢
    omega

theorem jrun_bal : ∀ (ops : List JOp) {s t : JState}, jrun s ops = some t → JBal s → JBal t
  | [], s, t, h, hb => by simp only [jrun, Option.some.injEq] at h; subst h; exact hb
  | o :: os, s, t, h, hb => by
    simp only [jrun, Option.bind_eq_some_iff] at h
    obtain ⟨u, h1, h2⟩ := h
    exact jrun_bal os h2 (jstep_bal h1 hb)

/-- **C48** For every history of JSON readers, each parsed document either has been freed exactly once or has exactly one
live owner. -/
theorem c48_json_balance (ops : List JOp) {s : JState} (h : jrun {} ops = some s) {d : Nat} (hd : d < s.docs) :
    s.freed.count d + s.owners d = 1 := by
  have := jrun_bal ops h (fun n => by simp [JState.owners]) d
  rwa [if_pos hd] at this

/-- **C48** No live owning reader refers to a freed document, and only parsed documents are freed. -/
theorem c48_json_alive (ops : List JOp) {s : JState} (h : jrun {} ops = some s) :
    (∀ i r d, s.obj i = some r → r.owns = true → r.doc = some d → d < s.docs ∧ d ∉ s.freed) ∧
    (∀ d ∈ s.freed, d < s.docs ∧ s.freed.count d = 1) := by
  have hb := jrun_bal ops h (s := {}) (fun n => by simp [JState.owners])
  refine ⟨fun i r d hi ho hd => ?_, fun d hf => ?_⟩
  · obtain ⟨hl, e⟩ := join_some hi
    have : 0 < s.objs.countP (jowns d) := List.countP_pos_iff.2 ⟨_, List.getElem_mem hl, by rw [e]; simp [jowns, ho, hd]⟩
    have k := hb d
    unfold JState.owners at k
    split at k
    · refine ⟨by assumption, fun hf => ?_⟩
      have := List.count_pos_iff.2 hf
      omega
    · omega
  · have k := hb d
    have := List.count_pos_iff.2 hf
    split at k
    · exact ⟨by assumption, by omega⟩
    · omega

/-- **C48** When all readers are gone, every document has been freed exactly once. -/
theorem c48_json_no_leak (ops : List JOp) {s : JState} (h : jrun {} ops = some s) (hn : ∀ i, s.obj i = none) {d : Nat}
    (hd : d < s.docs) : s.freed.count d = 1 := by
  have hb := c48_json_balance ops h hd
  have : s.owners d = 0 := by
    unfold JState.owners
    rw [List.countP_eq_zero]
    intro y hy
    obtain ⟨i, hi, e⟩ := List.getElem_of_mem hy
    have := hn i
    unfold JState.obj at this
    rw [List.getElem?_eq_some_iff.2 ⟨hi, e⟩] at this
    have : y = none := this
    rw [this]; simp [jowns]
  omega

/-- Two documents, a failed parse, views, moves in both directions, self-assignment, everything destroyed. -/
example : ∃ s, jrun {} [.parse true, .parse false, .parse true, .view 0, .moveNew 0, .moveTo 2 4, .moveTo 2 2, .view 0,
      .moveTo 3 2, .destroy 0, .destroy 2, .destroy 3, .destroy 4] = some s ∧ s.freed = [1, 0] ∧ s.docs = 2 ∧
      s.objs = List.replicate 6 none :=
  ⟨_, rfl, by decide +kernel⟩

/-- **C48** says nothing about views: `operator[]` of an owning reader yields a reader that does not keep the document
alive. -/
theorem c48_json_views_dangle : ∃ ops s r, jrun {} ops = some s ∧ s.obj 1 = some r ∧ r.doc = some 0 ∧ 0 ∈ s.freed :=
  ⟨[.parse true, .view 0, .destroy 0], ⟨[none, some ⟨some 0, false⟩], 1, [0]⟩, ⟨some 0, false⟩, by decide +kernel,
    by decide +kernel, rfl, by decide +kernel⟩

end Zer.Life
