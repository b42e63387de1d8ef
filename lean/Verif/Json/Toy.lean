import Verif.Json.Model

/-!
# JSON: the law of the text layer can be met

A text layer (not JSON syntax) that satisfies `Text.Law`, to show that the theorems assuming the law
are not vacuous: documents are written in prefix notation, numbers in unary.
-/

namespace Zer.Json

mutual
/-- Prefix notation. -/
def code : Val → List Nat
  | .null => [0]
  | .bool b => [1, b.toNat]
  | .int i => [2, i.toUInt64.toNat]
  | .uint n => [3, n.toNat]
  | .dbl d => [4, d.toNat]
  | .str s => 5 :: s.length :: s.map UInt8.toNat
  | .blob s => 6 :: s.length :: s.map UInt8.toNat
  | .arr xs => 7 :: xs.length :: codeList xs
  | .map ms => 8 :: ms.length :: codeEntries ms
def codeList : List Val → List Nat
  | [] => []
  | x :: xs => code x ++ codeList xs
def codeEntries : List (Bytes × Val) → List Nat
  | [] => []
  | (k, v) :: ms => k.length :: (k.map UInt8.toNat ++ (code v ++ codeEntries ms))
end

theorem str_inj : ∀ {s t : Bytes} {r r' : List Nat}, s.length = t.length →
    s.map UInt8.toNat ++ r = t.map UInt8.toNat ++ r' → s = t ∧ r = r'
  | [], [], _, _, _, h => ⟨rfl, h⟩
  | _ :: _, [], _, _, h, _ => by simp at h
  | [], _ :: _, _, _, h, _ => by simp at h
  | a :: s, b :: t, r, r', h, e => by
    simp only [List.map_cons, List.cons_append, List.cons.injEq] at e
    obtain ⟨rfl, h2⟩ := str_inj (by simpa using h) e.2
    exact ⟨by rw [UInt8.toNat_inj.1 e.1], h2⟩

theorem code_inj : ∀ v {w : Val} {r r' : List Nat}, code v ++ r = code w ++ r' → v = w ∧ r = r' := by
  intro v
  induction v using Val.ind with
  | null => intro w r r' h; cases w <;> simp_all [code]
  | bool b =>
    intro w r r' h
    cases w <;> simp [code] at h ⊢
    rename_i c
    refine ⟨?_, h.2⟩
    cases b <;> cases c <;> simp_all
  | int i =>
    intro w r r' h
    cases w <;> simp [code] at h ⊢
    rename_i j
    have := UInt64.toNat_inj.1 h.1
    obtain ⟨a⟩ := i
    obtain ⟨b⟩ := j
    exact ⟨by congr, h.2⟩
  | uint i =>
    intro w r r' h
    cases w <;> simp [code] at h ⊢
    exact ⟨UInt64.toNat_inj.1 h.1, h.2⟩
  | dbl i =>
    intro w r r' h
    cases w <;> simp [code] at h ⊢
    exact ⟨UInt64.toNat_inj.1 h.1, h.2⟩
  | str s =>
    intro w r r' h
    cases w <;> simp only [code, List.cons_append, List.cons.injEq] at h <;> try omega
    obtain ⟨rfl, h'⟩ := str_inj h.2.1 h.2.2
    exact ⟨rfl, h'⟩
  | blob s =>
    intro w r r' h
    cases w <;> simp only [code, List.cons_append, List.cons.injEq] at h <;> try omega
    obtain ⟨rfl, h'⟩ := str_inj h.2.1 h.2.2
    exact ⟨rfl, h'⟩
  | arr xs ih =>
    intro w r r' h
    cases w <;> simp only [code, List.cons_append, List.cons.injEq] at h <;> try omega
    rename_i ys
    obtain ⟨_, hl, h⟩ := h
    have : xs = ys ∧ r = r' := by
      induction xs generalizing ys with
      | nil =>
        obtain rfl := List.length_eq_zero_iff.1 hl.symm
        exact ⟨rfl, h⟩
      | cons x xs ih2 =>
        match ys, hl with
        | y :: ys, hl =>
          simp only [codeList, List.append_assoc] at h
          obtain ⟨rfl, h1⟩ := ih x (List.mem_cons_self ..) h
          obtain ⟨rfl, h2⟩ := ih2 (fun x hx => ih x (List.mem_cons_of_mem _ hx)) ys (by simpa using hl) h1
          exact ⟨rfl, h2⟩
    rw [this.1]; exact ⟨rfl, this.2⟩
  | map ms ih =>
    intro w r r' h
    cases w <;> simp only [code, List.cons_append, List.cons.injEq] at h <;> try omega
    rename_i ys
    obtain ⟨_, hl, h⟩ := h
    have : ms = ys ∧ r = r' := by
      induction ms generalizing ys with
      | nil =>
        obtain rfl := List.length_eq_zero_iff.1 hl.symm
        exact ⟨rfl, h⟩
      | cons x xs ih2 =>
        match ys, hl with
        | (k, y) :: ys, hl =>
          obtain ⟨k', x⟩ := x
          simp only [codeEntries, List.append_assoc, List.cons_append, List.cons.injEq] at h
          obtain ⟨rfl, h1⟩ := str_inj h.1 h.2
          obtain ⟨rfl, h2⟩ := ih (k', x) (List.mem_cons_self ..) h1
          obtain ⟨rfl, h3⟩ := ih2 (fun x hx => ih x (List.mem_cons_of_mem _ hx)) ys (by simpa using hl) h2
          exact ⟨rfl, h3⟩
    rw [this.1]; exact ⟨rfl, this.2⟩

/-- Unary numbers. -/
def unary : List Nat → Bytes
  | [] => []
  | n :: ns => List.replicate n 1 ++ 0 :: unary ns

theorem unary_inj : ∀ {a b : List Nat}, unary a = unary b → a = b
  | [], [], _ => rfl
  | [], n :: ns, h => by simp [unary] at h
  | n :: ns, [], h => by simp [unary] at h
  | m :: a, n :: b, h => by
    have : m = n ∧ unary a = unary b := by
      simp only [unary] at h
      clear unary_inj
      induction m generalizing n with
      | zero => cases n <;> simp_all [List.replicate_succ]
      | succ m ih =>
        cases n with
        | zero => simp [List.replicate_succ] at h
        | succ n =>
          simp only [List.replicate_succ, List.cons_append, List.cons.injEq, true_and] at h
          obtain ⟨rfl, h1⟩ := ih n h
          exact ⟨rfl, h1⟩
    rw [this.1, unary_inj this.2]

open Classical in
/-- The toy text layer; only ASCII counts as UTF-8. -/
noncomputable def toy : Text where
  utf8 s := s.all (· < 0x80)
  print d := if Printable ⟨fun _ => none, fun _ => none, fun s => s.all (· < 0x80)⟩ d then
    some (unary (code d.canon)) else none
  parse b := if h : ∃ d, unary (code d) = b then some (choose h) else none

theorem toy_law : toy.Law where
  written d h := by
    refine ⟨unary (code d.canon), if_pos h, ?_⟩
    have hex : ∃ e, unary (code e) = unary (code d.canon) := ⟨_, rfl⟩
    have := Classical.choose_spec hex
    have := unary_inj this
    have := (code_inj _ (w := d.canon) (r := []) (r' := []) (by rw [this])).1
    simp only [toy, dif_pos hex]
    rw [this]
  refused d h := if_neg h
  ascii s h := by simpa [toy] using h

end Zer.Json
