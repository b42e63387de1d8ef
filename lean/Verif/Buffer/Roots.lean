import Verif.Base

/-!
# What root serializers own

`json::RootSerializer` (json.hpp:236-273) holds a raw pointer to its document; it declares no copy or move constructor,
assignment or destructor. `MsgPackRootSerializer` (msgpack.hpp:496-516) holds a `msgpack_sbuffer` by value and frees its
memory in the destructor; copying is member-wise, and since a destructor is declared there is no move constructor, so that
moving copies as well.
-/

namespace Zer.Roots

/-- What a program does with root serializers; operations on objects that do not exist are skipped. `copy` stands for
copy and move construction, `assign` for copy and move assignment. `write` is a writer call that uses the document or the
buffer. -/
inductive Op where
  | new
  | copy (src : Nat)
  | assign (dst src : Nat)
  | write (i : Nat)
  | finish (i : Nat)
  | destroy (i : Nat)
  deriving DecidableEq, Repr

/-- Neither copied nor moved. -/
def Op.plain : Op → Bool
  | .copy _ => false
  | .assign _ _ => false
  | _ => true

/-! ## JSON -/

namespace Json

/-- Objects by creation (`none`: destroyed) with their `doc` pointer, number of documents made, documents freed. -/
structure State where
  objs : List (Option (Option Nat)) := []
  docs : Nat := 0
  freed : List Nat := []
  deriving DecidableEq, Repr

def State.obj (s : State) (i : Nat) : Option (Option Nat) := (s.objs[i]?).join

/-- One operation. `finish` writes the document and frees it, json.hpp:258-270; without document it raises. -/
def step (s : State) : Op → Res State
  -- json.hpp:248-250
  | .new => .ok { s with objs := s.objs ++ [some (some s.docs)], docs := s.docs + 1 }
  | .copy j => match s.obj j with
    | none => .ok s
    | some p => .ok { s with objs := s.objs ++ [some p] }
  | .assign i j => match s.obj i, s.obj j with
    | some _, some p => .ok { s with objs := s.objs.set i (some p) }
    | _, _ => .ok s
  | .write i => match s.obj i with
    | some (some d) => if d ∈ s.freed then .ub else .ok s
    | _ => .ok s
  | .finish i => match s.obj i with
    | some (some d) => if d ∈ s.freed then .ub else .ok { s with objs := s.objs.set i (some none), freed := s.freed ++ [d] }
    | _ => .ok s
  -- no destructor
  | .destroy i => .ok { s with objs := s.objs.set i none }

def run : State → List Op → Res State
  | s, [] => .ok s
  | s, o :: os => step s o >>= fun s' => run s' os

/-- Without copies: object `i` made document `i`. -/
structure Inv (s : State) : Prop where
  docs : s.docs = s.objs.length
  owns : ∀ i p, s.obj i = some p → (p = some i ∧ i ∉ s.freed) ∨ (p = none ∧ i ∈ s.freed)
  nodup : s.freed.Nodup
  range : ∀ d ∈ s.freed, d < s.docs

theorem obj_append {s : State} {x : Option (Option Nat)} {d : Nat} {i : Nat} {p : Option Nat}
    (h : State.obj { s with objs := s.objs ++ [x], docs := d } i = some p) :
    s.obj i = some p ∨ (i = s.objs.length ∧ x = some p) := by
  simp only [State.obj] at h ⊢
  by_cases hi : i < s.objs.length
  · left; rwa [List.getElem?_append_left hi] at h
  · right
    rw [List.getElem?_append_right (by omega)] at h
    cases hk : i - s.objs.length with
    | zero => rw [hk] at h; simp at h; exact ⟨by omega, h⟩
    | succ k => rw [hk] at h; simp at h

theorem obj_set {s : State} {x : Option (Option Nat)} {f : List Nat} {j i : Nat} {p : Option Nat}
    (h : State.obj { s with objs := s.objs.set j x, freed := f } i = some p) :
    (i ≠ j ∧ s.obj i = some p) ∨ (i = j ∧ x = some p) := by
  simp only [State.obj] at h ⊢
  by_cases hi : i = j
  · subst hi
    right
    rw [List.getElem?_set] at h
    simp at h
    split at h
    · exact ⟨rfl, by simpa using h⟩
    · simp at h
  · left
    rw [List.getElem?_set_ne (by omega)] at h
    exact ⟨hi, h⟩

theorem obj_lt {s : State} {i : Nat} {p : Option Nat} (h : s.obj i = some p) : i < s.objs.length := by
  simp only [State.obj] at h
  by_cases hi : i < s.objs.length
  · exact hi
  · rw [List.getElem?_eq_none (by omega)] at h; cases h

theorem Inv.step {s : State} (hI : Inv s) {o : Op} (ho : o.plain = true) : ∃ s', step s o = .ok s' ∧ Inv s' ∧ (∀ d ∈ s'.freed, d ∈ s.freed ∨ o = .finish d) := by
  cases o with
  | copy => cases ho
  | assign => cases ho
  | new =>
    refine ⟨_, rfl, ⟨by simp [hI.docs], fun i p h => ?_, hI.nodup, fun d hd => Nat.lt_succ_of_lt (hI.range d hd)⟩, fun d hd => .inl hd⟩
    rcases obj_append h with h | ⟨h1, h2⟩
    · exact hI.owns i p h
    · cases h2
      refine .inl ⟨by rw [h1, hI.docs], fun hf => ?_⟩
      have := hI.range i hf
      rw [h1, hI.docs] at this
      omega
  | write i =>
    simp only [Json.step]
    split
    · rename_i d hd
      rcases hI.owns i _ hd with ⟨h1, h2⟩ | ⟨h1, _⟩
      · cases h1
        rw [if_neg h2]
        exact ⟨s, rfl, hI, fun d hd => .inl hd⟩
      · cases h1
    · exact ⟨s, rfl, hI, fun d hd => .inl hd⟩
  | finish i =>
    simp only [Json.step]
    split
    · rename_i d hd
      rcases hI.owns i _ hd with ⟨h1, h2⟩ | ⟨h1, _⟩
      · cases h1
        rw [if_neg h2]
        refine ⟨_, rfl, ⟨by simp [hI.docs], fun j p h => ?_, ?_, ?_⟩, ?_⟩
        · rcases obj_set h with ⟨h3, h4⟩ | ⟨h3, h4⟩
          · rcases hI.owns j p h4 with ⟨h5, h6⟩ | ⟨h5, h6⟩
            · exact .inl ⟨h5, by simp [h6]; omega⟩
            · exact .inr ⟨h5, by simp [h6]⟩
          · cases h4; subst h3; exact .inr ⟨rfl, by simp⟩
        · exact List.nodup_append.2 ⟨hI.nodup, by simp, fun a ha b hb => by simp at hb; subst hb; exact fun e => h2 (e ▸ ha)⟩
        · intro e he
          rcases List.mem_append.1 he with he | he
          · exact hI.range e he
          · simp at he; subst he; rw [hI.docs]; exact obj_lt hd
        · intro e he
          rcases List.mem_append.1 he with he | he
          · exact .inl he
          · simp at he; subst he; exact .inr rfl
      · cases h1
    · exact ⟨s, rfl, hI, fun d hd => .inl hd⟩
  | destroy i =>
    refine ⟨_, rfl, ⟨by simp [hI.docs], fun j p h => ?_, hI.nodup, hI.range⟩, fun d hd => .inl hd⟩
    rcases obj_set h with ⟨h3, h4⟩ | ⟨h3, h4⟩
    · exact hI.owns j p h4
    · cases h4

theorem Inv.init : Inv {} := ⟨rfl, fun i p h => by simp [State.obj] at h, by simp, by simp⟩

theorem Inv.run {s : State} (hI : Inv s) : ∀ {os : List Op}, (∀ o ∈ os, o.plain = true) →
    ∃ s', run s os = .ok s' ∧ Inv s' ∧ ∀ d ∈ s'.freed, d ∈ s.freed ∨ .finish d ∈ os := by
  intro os
  induction os generalizing s with
  | nil => intro _; exact ⟨s, rfl, hI, fun d hd => .inl hd⟩
  | cons o os ih =>
    intro h
    obtain ⟨s1, h1, h2, h3⟩ := hI.step (h o List.mem_cons_self)
    obtain ⟨s2, h4, h5, h6⟩ := ih h2 (fun o ho => h o (List.mem_cons_of_mem _ ho))
    refine ⟨s2, by simp [Json.run, h1, h4], h5, fun d hd => ?_⟩
    rcases h6 d hd with h | h
    · rcases h3 d h with h | h
      · exact .inl h
      · exact .inr (by rw [h]; exact List.mem_cons_self)
    · exact .inr (List.mem_cons_of_mem _ h)

end Json

/-! ## MessagePack -/

namespace MsgPack

/-- `sbuf.data`, and the object whose `sbuf` the packer writes to (`pk.data`). -/
structure Obj where
  data : Option Nat
  target : Nat
  deriving DecidableEq, Repr

/-- Objects by creation, number of memory blocks, blocks freed by destructors, blocks handed out. -/
structure State where
  objs : List (Option Obj) := []
  blocks : Nat := 0
  freed : List Nat := []
  handed : List Nat := []
  deriving DecidableEq, Repr

def State.obj (s : State) (i : Nat) : Option Obj := (s.objs[i]?).join

/-- The block is gone: `realloc`, `free` or handing it out again is undefined. -/
def State.gone (s : State) (n : Nat) : Bool := s.freed.contains n || s.handed.contains n

/-- One operation. `write` goes through the packer's pointer and allocates with the first byte; growing with `realloc`
keeps the identity of the block. -/
def step (s : State) : Op → Res State
  -- msgpack.hpp:501-504
  | .new => .ok { s with objs := s.objs ++ [some ⟨none, s.objs.length⟩] }
  | .copy j => match s.obj j with
    | none => .ok s
    | some o => .ok { s with objs := s.objs ++ [some o] }
  | .assign i j => match s.obj i, s.obj j with
    | some _, some o => .ok { s with objs := s.objs.set i (some o) }
    | _, _ => .ok s
  | .write i => match s.obj i with
    | none => .ok s
    | some o => match s.obj o.target with
      | none => .ub
      | some t => match t.data with
        | none => .ok { s with objs := s.objs.set o.target (some { t with data := some s.blocks }), blocks := s.blocks + 1 }
        | some n => if s.gone n then .ub else .ok s
  -- msgpack.hpp:508-515
  | .finish i => match s.obj i with
    | some ⟨some n, t⟩ => if s.gone n then .ub
      else .ok { s with objs := s.objs.set i (some ⟨none, t⟩), handed := s.handed ++ [n] }
    | _ => .ok s
  -- msgpack.hpp:505, `free(sbuf.data)`
  | .destroy i => match s.obj i with
    | some ⟨some n, _⟩ => if s.gone n then .ub else .ok { s with objs := s.objs.set i none, freed := s.freed ++ [n] }
    | some ⟨none, _⟩ => .ok { s with objs := s.objs.set i none }
    | none => .ok s

def run : State → List Op → Res State
  | s, [] => .ok s
  | s, o :: os => step s o >>= fun s' => run s' os

/-- Without copies every block is held by exactly one object, or was freed or handed out once. -/
structure Inv (s : State) : Prop where
  self : ∀ i o, s.obj i = some o → o.target = i
  held : ∀ i n t, s.obj i = some ⟨some n, t⟩ → n < s.blocks ∧ n ∉ s.freed ++ s.handed
  one : ∀ i j n t u, s.obj i = some ⟨some n, t⟩ → s.obj j = some ⟨some n, u⟩ → i = j
  all : ∀ n, n < s.blocks → n ∈ s.freed ++ s.handed ∨ ∃ i t, s.obj i = some ⟨some n, t⟩
  nodup : (s.freed ++ s.handed).Nodup
  range : ∀ n ∈ s.freed ++ s.handed, n < s.blocks

theorem gone_iff {s : State} {n : Nat} : s.gone n = true ↔ n ∈ s.freed ++ s.handed := by
  simp [State.gone]

theorem obj_set {s : State} {x : Option Obj} {b : Nat} {f g : List Nat} {j i : Nat} (hj : j < s.objs.length) :
    State.obj { objs := s.objs.set j x, blocks := b, freed := f, handed := g } i = if i = j then x else s.obj i := by
  simp only [State.obj, List.getElem?_set]
  split
  · rename_i h; subst h; simp [hj]
  · rename_i h; rw [if_neg (fun e => h e.symm)]

theorem obj_append {s : State} {x : Option Obj} {i : Nat} :
    State.obj { s with objs := s.objs ++ [x] } i = if i = s.objs.length then x else s.obj i := by
  simp only [State.obj]
  split
  · rename_i h; subst h; simp
  · rename_i h
    by_cases hi : i < s.objs.length
    · rw [List.getElem?_append_left hi]
    · rw [List.getElem?_eq_none (by simp; omega), List.getElem?_eq_none (by omega)]

theorem obj_lt {s : State} {i : Nat} {p : Obj} (h : s.obj i = some p) : i < s.objs.length := by
  simp only [State.obj] at h
  by_cases hi : i < s.objs.length
  · exact hi
  · rw [List.getElem?_eq_none (by omega)] at h; cases h

theorem Inv.step {s : State} (hI : Inv s) {o : Op} (ho : o.plain = true) : ∃ s', step s o = .ok s' ∧ Inv s' := by
  cases o with
  | copy => cases ho
  | assign => cases ho
  | new =>
    refine ⟨_, rfl, ?_, ?_, ?_, ?_, hI.nodup, hI.range⟩
    · intro i o h
      rw [obj_append] at h
      split at h
      · cases h; rename_i h; exact h.symm
      · exact hI.self i o h
    · intro i n t h
      rw [obj_append] at h
      split at h
      · cases h
      · exact hI.held i n t h
    · intro i j n t u h1 h2
      rw [obj_append] at h1 h2
      split at h1
      · cases h1
      · split at h2
        · cases h2
        · exact hI.one i j n t u h1 h2
    · intro n hn
      rcases hI.all n hn with h | ⟨i, t, h⟩
      · exact .inl h
      · refine .inr ⟨i, t, ?_⟩
        rw [obj_append, if_neg (Nat.ne_of_lt (obj_lt h))]
        exact h
  | write i =>
    simp only [MsgPack.step]
    cases hi : s.obj i with
    | none => exact ⟨s, rfl, hI⟩
    | some o =>
      have ht := hI.self i o hi
      simp only [ht, hi]
      cases hd : o.data with
      | some n =>
        have ho : o = ⟨some n, i⟩ := by cases o; simp at ht hd; simp [ht, hd]
        rw [ho] at hi
        have := (hI.held i n i hi).2
        simp only
        rw [if_neg (by rw [gone_iff]; exact this)]
        exact ⟨s, rfl, hI⟩
      | none =>
        have hl := obj_lt hi
        have hkey : ∀ j n t, (if j = i then some (⟨some s.blocks, i⟩ : Obj) else s.obj j) = some ⟨some n, t⟩ →
            (j = i ∧ n = s.blocks) ∨ (j ≠ i ∧ s.obj j = some ⟨some n, t⟩) := by
          intro j n t h
          split at h
          · cases h; rename_i h; exact .inl ⟨h, rfl⟩
          · rename_i hne; exact .inr ⟨hne, h⟩
        refine ⟨_, rfl, ?_, ?_, ?_, ?_, hI.nodup, ?_⟩
        · intro j x h
          rw [obj_set hl] at h
          split at h
          · rename_i hj; cases h; simp [hj]
          · exact hI.self j x h
        · intro j n t h
          rw [obj_set hl] at h
          rcases hkey j n t h with ⟨_, rfl⟩ | ⟨_, h⟩
          · exact ⟨Nat.lt_succ_self _, fun hm => Nat.lt_irrefl _ (hI.range _ hm)⟩
          · exact ⟨Nat.lt_succ_of_lt (hI.held j n t h).1, (hI.held j n t h).2⟩
        · intro j k n t u h1 h2
          rw [obj_set hl] at h1 h2
          rcases hkey j n t h1 with ⟨e1, e2⟩ | ⟨_, h1⟩ <;> rcases hkey k n u h2 with ⟨e3, e4⟩ | ⟨_, h2⟩
          · rw [e1, e3]
          · have := (hI.held k n u h2).1; omega
          · have := (hI.held j n t h1).1; omega
          · exact hI.one j k n t u h1 h2
        · intro n hn
          by_cases hn' : n = s.blocks
          · refine .inr ⟨i, i, ?_⟩
            rw [obj_set hl, if_pos rfl, hn']
          · rcases hI.all n (by simp at hn; omega) with h | ⟨j, t, h⟩
            · exact .inl h
            · refine .inr ⟨j, t, ?_⟩
              rw [obj_set hl, if_neg]
              · exact h
              · intro e
                rw [e, hi] at h
                cases h
                cases hd
        · intro n hn
          exact Nat.lt_succ_of_lt (hI.range n hn)
  | finish i =>
    simp only [MsgPack.step]
    cases hi : s.obj i with
    | none => exact ⟨s, rfl, hI⟩
    | some o =>
      obtain ⟨d, t⟩ := o
      cases d with
      | none => exact ⟨s, rfl, hI⟩
      | some n =>
        have hh := hI.held i n t hi
        have hl := obj_lt hi
        simp only
        rw [if_neg (by rw [gone_iff]; exact hh.2)]
        have hkey : ∀ j m u, (if j = i then some (⟨none, t⟩ : Obj) else s.obj j) = some ⟨some m, u⟩ → j ≠ i ∧ s.obj j = some ⟨some m, u⟩ := by
          intro j m u h
          split at h
          · cases h
          · rename_i hne; exact ⟨hne, h⟩
        have hmem : ∀ m, m ∈ s.freed ++ (s.handed ++ [n]) ↔ m ∈ s.freed ++ s.handed ∨ m = n := by
          intro m; simp [or_assoc]
        refine ⟨_, rfl, ?_, ?_, ?_, ?_, ?_, ?_⟩
        · intro j x h
          rw [obj_set hl] at h
          split at h
          · rename_i hj; cases h; rw [hj]; exact hI.self i ⟨some n, t⟩ hi
          · exact hI.self j x h
        · intro j m u h
          rw [obj_set hl] at h
          obtain ⟨h1, h2⟩ := hkey j m u h
          refine ⟨(hI.held j m u h2).1, ?_⟩
          rw [hmem]
          rintro (h | rfl)
          · exact (hI.held j m u h2).2 h
          · exact h1 (hI.one j i m u t h2 hi)
        · intro j k m u w h1 h2
          rw [obj_set hl] at h1 h2
          exact hI.one j k m u w (hkey j m u h1).2 (hkey k m w h2).2
        · intro m hm
          rw [hmem]
          by_cases he : m = n
          · exact .inl (.inr he)
          · rcases hI.all m hm with h | ⟨j, u, h⟩
            · exact .inl (.inl h)
            · refine .inr ⟨j, u, ?_⟩
              rw [obj_set hl, if_neg]
              · exact h
              · intro e
                rw [e, hi] at h
                cases h
                exact he rfl
        · have : s.freed ++ (s.handed ++ [n]) = (s.freed ++ s.handed) ++ [n] := by simp
          show (s.freed ++ (s.handed ++ [n])).Nodup
          rw [this]
          exact List.nodup_append.2 ⟨hI.nodup, by simp, fun a ha b hb => by simp at hb; subst hb; exact fun e => hh.2 (e ▸ ha)⟩
        · intro m hm
          rcases (hmem m).1 hm with h | rfl
          · exact hI.range m h
          · exact hh.1
  | destroy i =>
    simp only [MsgPack.step]
    cases hi : s.obj i with
    | none => exact ⟨s, rfl, hI⟩
    | some o =>
      obtain ⟨d, t⟩ := o
      have hl := obj_lt hi
      have hkey : ∀ j (x : Obj), (if j = i then none else s.obj j) = some x → j ≠ i ∧ s.obj j = some x := by
        intro j x h
        split at h
        · cases h
        · rename_i hne; exact ⟨hne, h⟩
      cases d with
      | none =>
        refine ⟨_, rfl, ?_, ?_, ?_, ?_, hI.nodup, hI.range⟩
        · intro j x h
          rw [obj_set hl] at h
          exact hI.self j x (hkey j x h).2
        · intro j n u h
          rw [obj_set hl] at h
          exact hI.held j n u (hkey j _ h).2
        · intro j k n u w h1 h2
          rw [obj_set hl] at h1 h2
          exact hI.one j k n u w (hkey j _ h1).2 (hkey k _ h2).2
        · intro n hn
          rcases hI.all n hn with h | ⟨j, u, h⟩
          · exact .inl h
          · refine .inr ⟨j, u, ?_⟩
            rw [obj_set hl, if_neg]
            · exact h
            · intro e; rw [e, hi] at h; cases h
      | some n =>
        have hh := hI.held i n t hi
        simp only
        rw [if_neg (by rw [gone_iff]; exact hh.2)]
        have hmem : ∀ m, m ∈ (s.freed ++ [n]) ++ s.handed ↔ m ∈ s.freed ++ s.handed ∨ m = n := by
          intro m; simp; grind
        refine ⟨_, rfl, ?_, ?_, ?_, ?_, ?_, ?_⟩
        · intro j x h
          rw [obj_set hl] at h
          exact hI.self j x (hkey j x h).2
        · intro j m u h
          rw [obj_set hl] at h
          obtain ⟨h1, h2⟩ := hkey j _ h
          refine ⟨(hI.held j m u h2).1, ?_⟩
          rw [hmem]
          rintro (h | rfl)
          · exact (hI.held j m u h2).2 h
          · exact h1 (hI.one j i m u t h2 hi)
        · intro j k m u w h1 h2
          rw [obj_set hl] at h1 h2
          exact hI.one j k m u w (hkey j _ h1).2 (hkey k _ h2).2
        · intro m hm
          rw [hmem]
          by_cases he : m = n
          · exact .inl (.inr he)
          · rcases hI.all m hm with h | ⟨j, u, h⟩
            · exact .inl (.inl h)
            · refine .inr ⟨j, u, ?_⟩
              rw [obj_set hl, if_neg]
              · exact h
              · intro e
                rw [e, hi] at h
                cases h
                exact he rfl
        · show ((s.freed ++ [n]) ++ s.handed).Nodup
          have hp : ((s.freed ++ [n]) ++ s.handed).Perm ((s.freed ++ s.handed) ++ [n]) := by
            rw [List.append_assoc, List.append_assoc]
            exact List.Perm.append_left _ List.perm_append_comm
          rw [hp.nodup_iff]
          exact List.nodup_append.2 ⟨hI.nodup, by simp, fun a ha b hb => by simp at hb; subst hb; exact fun e => hh.2 (e ▸ ha)⟩
        · intro m hm
          rcases (hmem m).1 hm with h | rfl
          · exact hI.range m h
          · exact hh.1

theorem Inv.init : Inv {} := by
  refine ⟨?_, ?_, ?_, ?_, by simp, by simp⟩ <;> intros <;> simp_all [State.obj]

theorem Inv.run {s : State} (hI : Inv s) : ∀ {os : List Op}, (∀ o ∈ os, o.plain = true) → ∃ s', run s os = .ok s' ∧ Inv s' := by
  intro os
  induction os generalizing s with
  | nil => intro _; exact ⟨s, rfl, hI⟩
  | cons o os ih =>
    intro h
    obtain ⟨s1, h1, h2⟩ := hI.step (h o List.mem_cons_self)
    obtain ⟨s2, h4, h5⟩ := ih h2 (fun o ho => h o (List.mem_cons_of_mem _ ho))
    exact ⟨s2, by simp [MsgPack.run, h1, h4], h5⟩

end MsgPack

end Zer.Roots
