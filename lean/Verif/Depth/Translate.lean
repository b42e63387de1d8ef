import Verif.Depth.MsgPack
import Verif.Cbor.Model

/-!
# How deep `write_value` recurses

The budget of `writeValue` is the number of nested calls of `write_value` (translate.hpp:33-72).
-/

namespace Zer

variable {ρ σ : Type}

/-- A writer that accepts every call. -/
def Writer.Accepts (W : Writer σ) : Prop := ∀ s e, ∃ s', W.step s e = .ok s'

/-- The result of a call that needs `d` levels when there are `f`. -/
def Within (d f : Nat) (x : Res σ) : Prop := (d ≤ f → ∃ s, x = .ok s) ∧ (¬ d ≤ f → x = .diverge)

theorem Val.depthList_le {xs : List Val} {f : Nat} : Val.depthList xs ≤ f ↔ ∀ x ∈ xs, x.depth ≤ f := by
  induction xs with
  | nil => simp [Val.depthList]
  | cons x xs ih =>
    simp only [Val.depthList, List.mem_cons, forall_eq_or_imp, ← ih]; omega

theorem Val.depthEntries_le {ms : List (Bytes × Val)} {f : Nat} : Val.depthEntries ms ≤ f ↔ ∀ m ∈ ms, m.2.depth ≤ f := by
  induction ms with
  | nil => simp [Val.depthEntries]
  | cons m ms ih =>
    obtain ⟨k, v⟩ := m
    simp only [Val.depthEntries, List.mem_cons, forall_eq_or_imp, ← ih]; omega

theorem writeElems_within {R : Reader ρ} {rec : ρ → σ → Res σ} {r : ρ} {child : Nat → ρ} {d : Nat → Nat} {f : Nat} :
    ∀ (n i : Nat) (s : σ), (∀ j, i ≤ j → j < i + n → R.getIdx r j = .ok (child j)) →
    (∀ j, i ≤ j → j < i + n → ∀ s, Within (d j) f (rec (child j) s)) →
    ((∀ j, i ≤ j → j < i + n → d j ≤ f) → ∃ s', writeElems R rec r n i s = .ok s') ∧
    ((∃ j, i ≤ j ∧ j < i + n ∧ ¬ d j ≤ f) → writeElems R rec r n i s = .diverge)
  | 0, i, s, _, _ => ⟨fun _ => ⟨s, rfl⟩, fun h => by obtain ⟨j, h1, h2, _⟩ := h; omega⟩
  | n + 1, i, s, h1, h2 => by
    simp only [writeElems]
    rw [h1 i (by omega) (by omega)]
    simp only [Res.ok_bind]
    have hw := h2 i (by omega) (by omega) s
    by_cases hd : d i ≤ f
    · obtain ⟨s', hs'⟩ := hw.1 hd
      rw [hs']
      simp only [Res.ok_bind]
      obtain ⟨g1, g2⟩ := writeElems_within n (i + 1) s' (fun j a b => h1 j (by omega) (by omega))
        (fun j a b => h2 j (by omega) (by omega))
      refine ⟨fun h => g1 fun j a b => h j (by omega) (by omega), fun h => g2 ?_⟩
      obtain ⟨j, a, b, c⟩ := h
      by_cases e : j = i
      · subst e; exact absurd hd c
      · exact ⟨j, by omega, by omega, c⟩
    · rw [hw.2 hd]
      exact ⟨fun h => absurd (h i (by omega) (by omega)) hd, fun _ => rfl⟩

theorem writeEntries_within {R : Reader ρ} {W : Writer σ} (hW : W.Accepts) {rec : ρ → σ → Res σ} {r : ρ} {child : Bytes → ρ}
    {d : Bytes → Nat} {f : Nat} : ∀ (ks : List Bytes) (s : σ), (∀ k ∈ ks, R.getKey r k = .ok (child k)) →
    (∀ k ∈ ks, ∀ s, Within (d k) f (rec (child k) s)) →
    ((∀ k ∈ ks, d k ≤ f) → ∃ s', writeEntries R W rec r ks s = .ok s') ∧
    ((∃ k ∈ ks, ¬ d k ≤ f) → writeEntries R W rec r ks s = .diverge)
  | [], s, _, _ => ⟨fun _ => ⟨s, rfl⟩, fun h => by obtain ⟨k, h1, _⟩ := h; cases h1⟩
  | k :: ks, s, h1, h2 => by
    obtain ⟨s1, hs1⟩ := hW s (.key k)
    simp only [writeEntries]
    rw [hs1, h1 k (by simp)]
    simp only [Res.ok_bind]
    have hw := h2 k (by simp) s1
    by_cases hd : d k ≤ f
    · obtain ⟨s', hs'⟩ := hw.1 hd
      rw [hs']
      simp only [Res.ok_bind]
      obtain ⟨g1, g2⟩ := writeEntries_within hW ks s' (fun j a => h1 j (by simp [a])) (fun j a => h2 j (by simp [a]))
      refine ⟨fun h => g1 fun j a => h j (by simp [a]), fun h => g2 ?_⟩
      obtain ⟨j, a, c⟩ := h
      rcases List.mem_cons.1 a with rfl | a
      · exact absurd hd c
      · exact ⟨j, a, c⟩
    · rw [hw.2 hd]
      exact ⟨fun h => absurd (h k (by simp)) hd, fun _ => rfl⟩

/-- `write_value` of a position that presents `v` needs exactly as many nested calls as `v` has levels, not counting
values under repeated keys. -/
theorem writeValue_within {p : Prop} {R : Reader ρ} {W : Writer σ} (hW : W.Accepts) :
    ∀ (v : Val) (r : ρ), R.AgreesW p r v → ∀ (f : Nat) (s : σ), Within v.firstWins.depth f (writeValue R W f r s) := by
  have one : ∀ {f : Nat} {x : Res σ}, (∃ s, x = .ok s) → Within 1 (f + 1) x :=
    fun h => ⟨fun _ => h, fun h => absurd (by omega) h⟩
  have zero : ∀ {d : Nat} {r : ρ} {s : σ}, 1 ≤ d → Within d 0 (writeValue R W 0 r s) :=
    fun h => ⟨fun h' => by omega, fun _ => rfl⟩
  intro v
  induction v using Val.ind with
  | null =>
    intro r h f s
    cases h with | null hs =>
    obtain ⟨h1, _⟩ := hs
    cases f with
    | zero => exact zero (Nat.le_refl 1)
    | succ f => exact one (by simpa [writeValue, h1] using hW s .null)
  | bool b =>
    intro r h f s
    cases h with | bool hs hb =>
    obtain ⟨h1, h2, _⟩ := hs
    cases f with
    | zero => exact zero (Nat.le_refl 1)
    | succ f => exact one (by simpa [writeValue, h1, h2, hb] using hW s (.bool b))
  | int i =>
    intro r h f s
    cases h with | int hs hstrict =>
    obtain ⟨⟨h1, h2, ⟨ib, ub, h3, h4, hor⟩, _⟩, hi, hu⟩ := hs
    cases f with
    | zero => exact zero (Nat.le_refl 1)
    | succ f =>
      cases ib with
      | true =>
        obtain ⟨x, hx, hxe⟩ := hi h3
        exact one (by simpa [writeValue, h1, h2, h3, hx] using hW s (.int x))
      | false =>
        simp only [Bool.false_or] at hor
        subst hor
        obtain ⟨y, hy, hye⟩ := hu h4
        exact one (by simpa [writeValue, h1, h2, h3, h4, hy] using hW s (.uint y))
  | uint n =>
    intro r h f s
    cases h with | uint hs hstrict =>
    obtain ⟨⟨h1, h2, ⟨ib, ub, h3, h4, hor⟩, _⟩, hi, hu⟩ := hs
    cases f with
    | zero => exact zero (Nat.le_refl 1)
    | succ f =>
      cases ib with
      | true =>
        obtain ⟨x, hx, hxe⟩ := hi h3
        exact one (by simpa [writeValue, h1, h2, h3, hx] using hW s (.int x))
      | false =>
        simp only [Bool.false_or] at hor
        subst hor
        obtain ⟨y, hy, hye⟩ := hu h4
        exact one (by simpa [writeValue, h1, h2, h3, h4, hy] using hW s (.uint y))
  | dbl d =>
    intro r h f s
    cases h with | dbl hs hb =>
    obtain ⟨h1, h2, ⟨ib, ub, h3, h4, hor⟩, h5, _⟩ := hs
    simp only [Bool.or_eq_false_iff] at hor
    obtain ⟨rfl, rfl⟩ := hor
    cases f with
    | zero => exact zero (Nat.le_refl 1)
    | succ f => exact one (by simpa [writeValue, h1, h2, h3, h4, h5, hb] using hW s (.dbl d))
  | str x =>
    intro r h f s
    cases h with | str hs _ hb =>
    obtain ⟨h1, h2, ⟨ib, ub, h3, h4, hor⟩, h5, h6, _⟩ := hs
    simp only [Bool.or_eq_false_iff] at hor
    obtain ⟨rfl, rfl⟩ := hor
    cases f with
    | zero => exact zero (Nat.le_refl 1)
    | succ f => exact one (by simpa [writeValue, h1, h2, h3, h4, h5, h6, hb] using hW s (.str x))
  | blob x =>
    intro r h f s
    cases h with | blob hs hb _ =>
    obtain ⟨h1, h2, ⟨ib, ub, h3, h4, hor⟩, h5, h6, h7, _⟩ := hs
    simp only [Bool.or_eq_false_iff] at hor
    obtain ⟨rfl, rfl⟩ := hor
    cases f with
    | zero => exact zero (Nat.le_refl 1)
    | succ f => exact one (by simpa [writeValue, h1, h2, h3, h4, h5, h6, h7, hb] using hW s (.blob x))
  | arr xs ih =>
    intro r h f s
    cases h with | arr child hs hn hg _ hc =>
    obtain ⟨h1, h2, ⟨ib, ub, h3, h4, hor⟩, h5, h6, h7, h8, h9⟩ := hs
    simp only [Bool.or_eq_false_iff] at hor
    obtain ⟨rfl, rfl⟩ := hor
    cases f with
    | zero => exact zero (Val.one_le_depth _)
    | succ f =>
      obtain ⟨s1, hs1⟩ := hW s (.beginArr xs.length)
      simp only [writeValue, h1, h2, h3, h4, h5, h6, h7, h8, h9, hn, Res.ok_bind,
        Bool.false_eq_true, if_false, if_true, hs1]
      obtain ⟨g1, g2⟩ := writeElems_within (R := R) (rec := writeValue R W f) (r := r) (child := child)
        (d := fun j => ((xs[j]?).getD .null).firstWins.depth) (f := f) xs.length 0 s1
        (fun j _ hj => hg j (by omega))
        (fun j _ hj s => by
          have hj' : j < xs.length := by omega
          rw [List.getElem?_eq_getElem hj', Option.getD_some]
          exact ih xs[j] (List.getElem_mem _) (child j) (hc j hj') f s)
      have e : (Val.arr xs).firstWins.depth = Val.depthList (xs.map Val.firstWins) + 1 := by
        rw [Val.firstWins_arr]; rfl
      rw [e]
      refine ⟨fun h => ?_, fun h => ?_⟩
      · obtain ⟨s2, hs2⟩ := g1 fun j _ hj => by
          have hj' : j < xs.length := by omega
          rw [List.getElem?_eq_getElem hj', Option.getD_some]
          exact Val.depthList_le.1 (Nat.le_of_succ_le_succ h) _ (List.mem_map_of_mem (List.getElem_mem _))
        rw [hs2]
        exact hW s2 .endArr
      · have hx : ¬ ∀ x ∈ xs.map Val.firstWins, x.depth ≤ f := fun hx => h (by have := Val.depthList_le.2 hx; omega)
        rw [g2]
        · rfl
        · apply Classical.byContradiction
          intro hno
          apply hx
          intro x hxm
          obtain ⟨y, hy, rfl⟩ := List.mem_map.1 hxm
          obtain ⟨j, hj, rfl⟩ := List.mem_iff_getElem.1 hy
          apply Classical.byContradiction
          intro hnd
          exact hno ⟨j, by omega, by omega, by
            rw [List.getElem?_eq_getElem hj, Option.getD_some]; exact hnd⟩
  | map ms ih =>
    intro r h f s
    cases h with | map child hs hk _ hg _ hc =>
    obtain ⟨h1, h2, ⟨ib, ub, h3, h4, hor⟩, h5, h6, h7, h8, _⟩ := hs
    simp only [Bool.or_eq_false_iff] at hor
    obtain ⟨rfl, rfl⟩ := hor
    cases f with
    | zero => exact zero (Val.one_le_depth _)
    | succ f =>
      obtain ⟨s1, hs1⟩ := hW s (.beginMap (ms.map Prod.fst).length)
      simp only [writeValue, h1, h2, h3, h4, h5, h6, h7, h8, hk, Res.ok_bind,
        Bool.false_eq_true, if_false, if_true, hs1]
      obtain ⟨g1, g2⟩ := writeEntries_within (R := R) hW (rec := writeValue R W f) (r := r) (child := child)
        (d := fun k => ((firstVal ms k).getD .null).firstWins.depth) (f := f) (ms.map Prod.fst) s1
        (fun k hk' => hg k hk')
        (fun k hk' s => by
          obtain ⟨v, hv⟩ := firstVal_isSome.1 hk'
          rw [hv, Option.getD_some]
          exact ih (k, v) (firstVal_mem hv) (child k) (hc k v hv) f s)
      have e : (Val.map ms).firstWins.depth =
          Val.depthEntries ((ms.map Prod.fst).map fun k => (k, ((firstVal ms k).getD .null).firstWins)) + 1 := by
        rw [Val.firstWins_map]; rfl
      rw [e]
      refine ⟨fun h => ?_, fun h => ?_⟩
      · obtain ⟨s2, hs2⟩ := g1 fun k hk' =>
          Val.depthEntries_le.1 (Nat.le_of_succ_le_succ h) (k, ((firstVal ms k).getD .null).firstWins)
            (List.mem_map_of_mem (f := fun k => (k, ((firstVal ms k).getD .null).firstWins)) hk')
        rw [hs2]
        exact hW s2 .endMap
      · rw [g2]
        · rfl
        · apply Classical.byContradiction
          intro hno
          apply h
          refine Nat.succ_le_succ (Val.depthEntries_le.2 fun m hm => ?_)
          obtain ⟨k, hk', rfl⟩ := List.mem_map.1 hm
          apply Classical.byContradiction
          intro hnd
          exact hno ⟨k, hk', hnd⟩

end Zer

namespace Zer.Cbor

/-! ## Writing CBOR: the encoder stops before the recursion gets deep -/

theorem bump_length (st : List Open) : (bump st).length = st.length := by cases st <;> rfl

/-- What a call does to the encoder's stack. -/
def level : Ev → Int
  | .beginArr _ | .beginMap _ => 1
  | .endArr | .endMap => -1
  | _ => 0

theorem step_level {utf8 : Bytes → Bool} {m : Nat} {s s' : WS} {e : Ev} (h : (writer utf8 m).step s e = .ok s') :
    (s'.stack.length : Int) = s.stack.length + level e := by
  replace h : step utf8 m s e = .ok s' := h
  cases e <;> simp only [step, scalar, openC, closeC, textBytes] at h <;>
    (try (injection h with h; subst h; simp [bump_length, level]; done))
  case str t =>
    split at h
    · simp only [Res.ok_bind] at h; injection h with h; subst h; simp [bump_length, level]
    · cases h
  case key t =>
    split at h
    · simp only [Res.ok_bind] at h; injection h with h; subst h; simp [bump_length, level]
    · cases h
  case beginArr n =>
    split at h
    · cases h
    · injection h with h; subst h; simp [level]
  case beginMap n =>
    split at h
    · cases h
    · injection h with h; subst h; simp [level]
  case endArr =>
    split at h
    · cases h
    · rename_i o os hst
      generalize (if o.isObj = true then o.count / 2 else o.count) = c at h
      split at h
      · injection h with h; subst h; simp [bump_length, level, hst]; omega
      · cases h
  case endMap =>
    split at h
    · cases h
    · rename_i o os hst
      generalize (if o.isObj = true then o.count / 2 else o.count) = c at h
      split at h
      · injection h with h; subst h; simp [bump_length, level, hst]; omega
      · cases h

theorem open_full {utf8 : Bytes → Bool} {m : Nat} {s : WS} (h : m ≤ s.stack.length) (n : Nat) :
    (writer utf8 m).step s (.beginArr n) = .err .runtime ∧ (writer utf8 m).step s (.beginMap n) = .err .runtime := by
  constructor <;> simp only [writer, step, openC] <;> rw [if_pos (by omega)]

variable {ρ : Type} {R : Reader ρ} {utf8 : Bytes → Bool} {m : Nat}

theorem writeElems_level {rec : ρ → WS → Res WS} {r : ρ} {L : Nat}
    (hrec : ∀ c s s', s.stack.length = L → rec c s = .ok s' → s'.stack.length = L) :
    ∀ (n i : Nat) (s s' : WS), s.stack.length = L → writeElems R rec r n i s = .ok s' → s'.stack.length = L
  | 0, i, s, s', hs, h => by simp only [writeElems, Res.pure_eq, Res.ok.injEq] at h; subst h; exact hs
  | n + 1, i, s, s', hs, h => by
    simp only [writeElems] at h
    obtain ⟨c, _, h⟩ := Res.bind_eq_ok.1 h
    obtain ⟨s1, h1, h⟩ := Res.bind_eq_ok.1 h
    exact writeElems_level hrec n _ s1 s' (hrec c s s1 hs h1) h

theorem writeEntries_level {rec : ρ → WS → Res WS} {r : ρ} {L : Nat}
    (hrec : ∀ c s s', s.stack.length = L → rec c s = .ok s' → s'.stack.length = L) :
    ∀ (ks : List Bytes) (s s' : WS), s.stack.length = L →
    writeEntries R (writer utf8 m) rec r ks s = .ok s' → s'.stack.length = L
  | [], s, s', hs, h => by simp only [writeEntries, Res.pure_eq, Res.ok.injEq] at h; subst h; exact hs
  | k :: ks, s, s', hs, h => by
    simp only [writeEntries] at h
    obtain ⟨s0, h0, h⟩ := Res.bind_eq_ok.1 h
    obtain ⟨c, _, h⟩ := Res.bind_eq_ok.1 h
    obtain ⟨s1, h1, h⟩ := Res.bind_eq_ok.1 h
    have e0 := step_level h0
    simp only [level] at e0
    exact writeEntries_level hrec ks s1 s' (hrec c s0 s1 (by omega) h1) h

theorem writeValue_level : ∀ (f : Nat) (r : ρ) (s s' : WS), writeValue R (writer utf8 m) f r s = .ok s' →
    s'.stack.length = s.stack.length
  | 0, _, _, _, h => by cases h
  | f + 1, r, s, s', h => by
    have flat : ∀ {α : Type} {x : Res α} {g : α → Ev}, (∀ a, level (g a) = 0) →
        (x >>= fun a => (writer utf8 m).step s (g a)) = .ok s' → s'.stack.length = s.stack.length := by
      intro α x g hg h
      obtain ⟨a, _, h⟩ := Res.bind_eq_ok.1 h
      have := step_level h
      rw [hg] at this; omega
    have nested : ∀ {g : WS → Res WS} {e e' : Ev}, level e = 1 → level e' = -1 →
        (∀ s1 s2, s1.stack.length = s.stack.length + 1 → g s1 = .ok s2 → s2.stack.length = s.stack.length + 1) →
        ((writer utf8 m).step s e >>= fun s1 => g s1 >>= fun s2 => (writer utf8 m).step s2 e') = .ok s' →
        s'.stack.length = s.stack.length := by
      intro g e e' he he' hg h
      obtain ⟨s1, h1, h⟩ := Res.bind_eq_ok.1 h
      obtain ⟨s2, h2, h⟩ := Res.bind_eq_ok.1 h
      have e1 := step_level h1
      have e3 := step_level h
      rw [he] at e1; rw [he'] at e3
      have := hg s1 s2 (by omega) h2
      omega
    simp only [writeValue] at h
    obtain ⟨b1, _, h⟩ := Res.bind_eq_ok.1 h
    split at h
    · have := step_level h; simp only [level] at this; omega
    obtain ⟨b2, _, h⟩ := Res.bind_eq_ok.1 h
    split at h
    · exact flat (fun _ => rfl) h
    obtain ⟨b3, _, h⟩ := Res.bind_eq_ok.1 h
    split at h
    · exact flat (fun _ => rfl) h
    obtain ⟨b4, _, h⟩ := Res.bind_eq_ok.1 h
    split at h
    · exact flat (fun _ => rfl) h
    obtain ⟨b5, _, h⟩ := Res.bind_eq_ok.1 h
    split at h
    · exact flat (fun _ => rfl) h
    obtain ⟨b6, _, h⟩ := Res.bind_eq_ok.1 h
    split at h
    · exact flat (fun _ => rfl) h
    obtain ⟨b7, _, h⟩ := Res.bind_eq_ok.1 h
    split at h
    · exact flat (fun _ => rfl) h
    obtain ⟨b8, _, h⟩ := Res.bind_eq_ok.1 h
    split at h
    · obtain ⟨ks, _, h⟩ := Res.bind_eq_ok.1 h
      exact nested rfl rfl (fun s1 s2 hs1 hg => writeEntries_level
        (fun c s s' hs h => by rw [writeValue_level f c s s' h, hs]) ks s1 s2 hs1 hg) h
    obtain ⟨b9, _, h⟩ := Res.bind_eq_ok.1 h
    split at h
    · obtain ⟨n, _, h⟩ := Res.bind_eq_ok.1 h
      exact nested rfl rfl (fun s1 s2 hs1 hg => writeElems_level
        (fun c s s' hs h => by rw [writeValue_level f c s s' h, hs]) n 0 s1 s2 hs1 hg) h
    · cases h

theorem bind_congr_ok {α β : Type} {x : Res α} {k k' : α → Res β} (h : ∀ a, x = .ok a → k a = k' a) :
    (x >>= k) = (x >>= k') := by
  cases x with
  | ok a => exact h a rfl
  | err e => rfl
  | ub => rfl
  | diverge => rfl

theorem writeElems_same {rec rec' : ρ → WS → Res WS} {r : ρ} {L : Nat}
    (hrec : ∀ c s s', s.stack.length = L → rec c s = .ok s' → s'.stack.length = L)
    (he : ∀ c s, s.stack.length = L → rec c s = rec' c s) :
    ∀ (n i : Nat) (s : WS), s.stack.length = L → writeElems R rec r n i s = writeElems R rec' r n i s
  | 0, _, _, _ => rfl
  | n + 1, i, s, hs => by
    simp only [writeElems]
    refine bind_congr_ok fun c _ => ?_
    rw [← he c s hs]
    exact bind_congr_ok fun s1 h1 => writeElems_same hrec he n _ s1 (hrec c s s1 hs h1)

theorem writeEntries_same {rec rec' : ρ → WS → Res WS} {r : ρ} {L : Nat}
    (hrec : ∀ c s s', s.stack.length = L → rec c s = .ok s' → s'.stack.length = L)
    (he : ∀ c s, s.stack.length = L → rec c s = rec' c s) :
    ∀ (ks : List Bytes) (s : WS), s.stack.length = L →
    writeEntries R (writer utf8 m) rec r ks s = writeEntries R (writer utf8 m) rec' r ks s
  | [], _, _ => rfl
  | k :: ks, s, hs => by
    simp only [writeEntries]
    refine bind_congr_ok fun s0 h0 => bind_congr_ok fun c _ => ?_
    have e0 := step_level h0
    simp only [level] at e0
    rw [← he c s0 (by omega)]
    exact bind_congr_ok fun s1 h1 => writeEntries_same hrec he ks s1 (hrec c s0 s1 (by omega) h1)

/-- With `m` levels allowed by the encoder, no more than `m + 1` nested calls of `write_value` are ever made, whatever is
read: more room makes no difference. -/
theorem writeValue_shallow : ∀ (f g : Nat) (r : ρ) (s : WS), m + 1 - s.stack.length ≤ f → m + 1 - s.stack.length ≤ g →
    1 ≤ f → 1 ≤ g →
    writeValue R (writer utf8 m) f r s = writeValue R (writer utf8 m) g r s
  | f + 1, g + 1, r, s, hf, hg, _, _ => by
    have nested : ∀ {a a' : WS → Res WS} {e e' : Ev}, (level e = 1) → (m ≤ s.stack.length → (writer utf8 m).step s e = .err .runtime) →
        (s.stack.length < m → ∀ s1, s1.stack.length = s.stack.length + 1 → a s1 = a' s1) →
        ((writer utf8 m).step s e >>= fun s1 => a s1 >>= fun s2 => (writer utf8 m).step s2 e') =
        ((writer utf8 m).step s e >>= fun s1 => a' s1 >>= fun s2 => (writer utf8 m).step s2 e') := by
      intro a a' e e' he hfull ha
      by_cases hm : m ≤ s.stack.length
      · rw [hfull hm]; rfl
      · refine bind_congr_ok fun s1 h1 => ?_
        have e1 := step_level h1
        rw [he] at e1
        rw [ha (by omega) s1 (by omega)]
    simp only [writeValue]
    refine bind_congr_ok fun b1 _ => ?_
    split
    · rfl
    refine bind_congr_ok fun b2 _ => ?_
    split
    · rfl
    refine bind_congr_ok fun b3 _ => ?_
    split
    · rfl
    refine bind_congr_ok fun b4 _ => ?_
    split
    · rfl
    refine bind_congr_ok fun b5 _ => ?_
    split
    · rfl
    refine bind_congr_ok fun b6 _ => ?_
    split
    · rfl
    refine bind_congr_ok fun b7 _ => ?_
    split
    · rfl
    refine bind_congr_ok fun b8 _ => ?_
    split
    · refine bind_congr_ok fun ks _ => nested rfl (fun h => (open_full h _).2) fun hlt s1 hs1 => ?_
      exact writeEntries_same (fun c s s' hs h => by rw [writeValue_level f c s s' h, hs])
        (fun c s2 hs2 => writeValue_shallow f g c s2 (by omega) (by omega) (by omega) (by omega)) ks s1 hs1
    refine bind_congr_ok fun b9 _ => ?_
    split
    · refine bind_congr_ok fun n _ => nested rfl (fun h => (open_full h _).1) fun hlt s1 hs1 => ?_
      exact writeElems_same (fun c s s' hs h => by rw [writeValue_level f c s s' h, hs])
        (fun c s2 hs2 => writeValue_shallow f g c s2 (by omega) (by omega) (by omega) (by omega)) n 0 s1 hs1
    · rfl

theorem writeElems_returns_cbor {I : ρ → Prop} (T : R.Total I) (hI : ∀ r i c, I r → R.getIdx r i = .ok c → I c)
    {rec : ρ → WS → Res WS} {r : ρ} (hr : I r) {L : Nat}
    (hrec : ∀ c s s', s.stack.length = L → rec c s = .ok s' → s'.stack.length = L)
    (h : ∀ c s, I c → s.stack.length = L → Returns (rec c s)) :
    ∀ n i s, s.stack.length = L → Returns (writeElems R rec r n i s)
  | 0, _, _, _ => returns_pure _
  | n + 1, i, s, hs => .bind (T.getIdx _ _ hr) fun c hc => .bind (h c s (hI r i c hr hc) hs) fun s1 h1 =>
      writeElems_returns_cbor T hI hr hrec h n (i + 1) s1 (hrec c s s1 hs h1)

theorem writeEntries_returns_cbor (hS : ∀ s e, Returns ((writer utf8 m).step s e)) {I : ρ → Prop} (T : R.Total I)
    (hK : ∀ r k c, I r → R.getKey r k = .ok c → I c)
    {rec : ρ → WS → Res WS} {r : ρ} (hr : I r) {ks0 : List Bytes} (hk0 : R.mapKeys r = .ok ks0) {L : Nat}
    (hrec : ∀ c s s', s.stack.length = L → rec c s = .ok s' → s'.stack.length = L)
    (h : ∀ c s, I c → s.stack.length = L → Returns (rec c s)) :
    ∀ ks s, s.stack.length = L → Returns (writeEntries R (writer utf8 m) rec r ks s)
  | [], _, _ => returns_pure _
  | k :: ks, s, hs => .bind (hS _ _) fun s0 h0 => .bind (T.getKey _ _ _ hr hk0) fun c hc => by
      have e0 := step_level h0
      simp only [level] at e0
      exact .bind (h c s0 (hK r k c hr hc) (by omega)) fun s1 h1 =>
        writeEntries_returns_cbor hS T hK hr hk0 hrec h ks s1 (hrec c s0 s1 (by omega) h1)

/-- Writing CBOR ends, whatever is read: the encoder stops the recursion. -/
theorem writeValue_returns_cbor (hS : ∀ s e, Returns ((writer utf8 m).step s e)) {I : ρ → Prop} (T : R.Total I)
    (hI : ∀ r i c, I r → R.getIdx r i = .ok c → I c) (hK : ∀ r k c, I r → R.getKey r k = .ok c → I c) :
    ∀ (f : Nat) (r : ρ) (s : WS), I r → m + 1 - s.stack.length ≤ f → 1 ≤ f → Returns (writeValue R (writer utf8 m) f r s)
  | f + 1, r, s, hr, hf, _ => by
    have nested : ∀ {a : WS → Res WS} {e e' : Ev}, (level e = 1) → (m ≤ s.stack.length → (writer utf8 m).step s e = .err .runtime) →
        (s.stack.length < m → ∀ s1, s1.stack.length = s.stack.length + 1 → Returns (a s1)) →
        Returns ((writer utf8 m).step s e >>= fun s1 => a s1 >>= fun s2 => (writer utf8 m).step s2 e') := by
      intro a e e' he hfull ha
      by_cases hm : m ≤ s.stack.length
      · rw [hfull hm]; exact fun h => by cases h
      · refine .bind (hS _ _) fun s1 h1 => .bind ?_ fun _ _ => hS _ _
        have e1 := step_level h1
        rw [he] at e1
        exact ha (by omega) s1 (by omega)
    unfold writeValue
    refine .bind (T.isNull r hr) fun b _ => ?_
    split
    · exact hS _ _
    refine .bind (T.isBool r hr) fun b _ => ?_
    split
    · exact .bind (T.asBool r hr) fun _ _ => hS _ _
    refine .bind (T.isInt r hr) fun b _ => ?_
    split
    · exact .bind (T.asInt64 r hr) fun _ _ => hS _ _
    refine .bind (T.isUInt r hr) fun b _ => ?_
    split
    · exact .bind (T.asUInt64 r hr) fun _ _ => hS _ _
    refine .bind (T.isFloat r hr) fun b _ => ?_
    split
    · exact .bind (T.asDouble r hr) fun _ _ => hS _ _
    refine .bind (T.isString r hr) fun b _ => ?_
    split
    · exact .bind (T.asStringView r hr) fun _ _ => hS _ _
    refine .bind (T.isBlob r hr) fun b _ => ?_
    split
    · exact .bind (T.asBlob r hr) fun _ _ => hS _ _
    refine .bind (T.isMap r hr) fun b _ => ?_
    split
    · refine .bind (T.mapKeys r hr) fun ks hks => nested rfl (fun h => (open_full h _).2) fun hlt s1 hs1 => ?_
      exact writeEntries_returns_cbor hS T hK hr hks (fun c s s' hs h => by rw [writeValue_level f c s s' h, hs])
        (fun c s2 hc hs2 => writeValue_returns_cbor hS T hI hK f c s2 hc (by omega) (by omega)) ks s1 hs1
    refine .bind (T.isArray r hr) fun b _ => ?_
    split
    · refine .bind (T.arraySize r hr) fun n _ => nested rfl (fun h => (open_full h _).1) fun hlt s1 hs1 => ?_
      exact writeElems_returns_cbor T hI hr (fun c s s' hs h => by rw [writeValue_level f c s s' h, hs])
        (fun c s2 hc hs2 => writeValue_returns_cbor hS T hI hK f c s2 hc (by omega) (by omega)) n 0 s1 hs1
    · exact returns_err _

end Zer.Cbor
