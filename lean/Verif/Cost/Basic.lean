import Verif.Amplify

/-!
# Counting steps

`Cnt` is an outcome together with a number of steps. The functions below and in `Verif/Cost/` are the functions of the models
with calls of `tick` at the places that are counted; forgetting the count gives the original functions back.
-/

namespace Zer

/-- An outcome and the number of steps it took. -/
structure Cnt (α : Type) where
  cost : Nat
  res : Res α

namespace Cnt
variable {α β : Type}

/-- Sequencing: steps add up; after the first outcome that is not a normal return there are no more. -/
protected def bind (x : Cnt α) (k : α → Cnt β) : Cnt β :=
  match x.res with
  | .ok a => ⟨x.cost + (k a).cost, (k a).res⟩
  | .err e => ⟨x.cost, .err e⟩
  | .ub => ⟨x.cost, .ub⟩
  | .diverge => ⟨x.cost, .diverge⟩

instance : Monad Cnt where
  pure a := ⟨0, .ok a⟩
  bind := Cnt.bind

/-- A call that is not counted. -/
def lift (x : Res α) : Cnt α := ⟨0, x⟩

instance : MonadLift Res Cnt := ⟨lift⟩

/-- One step. -/
def tick : Cnt Unit := ⟨1, .ok ()⟩

@[simp] theorem pure_res (a : α) : (pure a : Cnt α).res = .ok a := rfl
@[simp] theorem pure_cost (a : α) : (pure a : Cnt α).cost = 0 := rfl
@[simp] theorem lift_res (x : Res α) : (lift x).res = x := rfl
@[simp] theorem lift_cost (x : Res α) : (lift x).cost = 0 := rfl
@[simp] theorem monadLift_eq (x : Res α) : (liftM x : Cnt α) = lift x := rfl
@[simp] theorem lift_ok (a : α) : lift (.ok a) = (pure a : Cnt α) := rfl
@[simp] theorem tick_res : tick.res = .ok () := rfl
@[simp] theorem tick_cost : tick.cost = 1 := rfl

@[simp] theorem bind_res (x : Cnt α) (k : α → Cnt β) : (x >>= k).res = x.res >>= fun a => (k a).res := by
  show (Cnt.bind x k).res = _
  unfold Cnt.bind
  cases x.res <;> rfl

theorem bind_ok_cost {x : Cnt α} {k : α → Cnt β} {a : α} (h : x.res = .ok a) : (x >>= k).cost = x.cost + (k a).cost := by
  show (Cnt.bind x k).cost = _
  unfold Cnt.bind
  rw [h]

theorem bind_cost_of {x : Cnt α} {k : α → Cnt β} (h : ∀ a, x.res ≠ .ok a) : (x >>= k).cost = x.cost := by
  show (Cnt.bind x k).cost = _
  unfold Cnt.bind
  cases hx : x.res with
  | ok a => exact absurd hx (h a)
  | _ => rfl

instance : LawfulMonad Cnt := LawfulMonad.mk' _
  (id_map := fun ⟨c, x⟩ => by cases x <;> rfl)
  (pure_bind := fun a k => by
    show Cnt.bind ⟨0, .ok a⟩ k = k a
    simp [Cnt.bind])
  (bind_assoc := fun ⟨c, x⟩ k l => by
    cases x with
    | ok a =>
      show Cnt.bind (Cnt.bind ⟨c, .ok a⟩ k) l = Cnt.bind ⟨c, .ok a⟩ fun a => Cnt.bind (k a) l
      simp only [Cnt.bind]
      cases (k a).res <;> simp [Nat.add_assoc]
    | _ => rfl)

@[simp] theorem tick_bind_cost (k : Unit → Cnt β) : (tick >>= k).cost = 1 + (k ()).cost := bind_ok_cost rfl

@[simp] theorem lift_ok_bind (a : α) (k : α → Cnt β) : (lift (.ok a) >>= k) = k a := pure_bind a k

/-- The steps of a sequence are bounded by bounds of its parts. -/
theorem bind_le {x : Cnt α} {k : α → Cnt β} {m n : Nat} (hx : x.cost ≤ m) (hk : ∀ a, x.res = .ok a → (k a).cost ≤ n) :
    (x >>= k).cost ≤ m + n := by
  cases h : x.res with
  | ok a => rw [bind_ok_cost h]; have := hk a h; omega
  | _ => rw [bind_cost_of (by rw [h]; intro a; exact fun h => by cases h)]; omega

/-- Outcomes that are not counted cost nothing. -/
theorem lift_bind_le {x : Res α} {k : α → Cnt β} {n : Nat} (hk : ∀ a, x = .ok a → (k a).cost ≤ n) : (lift x >>= k).cost ≤ n := by
  have := bind_le (x := lift x) (m := 0) (Nat.le_refl _) hk
  omega

theorem ite_res {c : Prop} [Decidable c] {x y : Cnt α} : (if c then x else y).res = if c then x.res else y.res := by
  split <;> rfl

theorem ite_cost_le {c : Prop} [Decidable c] {x y : Cnt α} {n : Nat} (hx : c → x.cost ≤ n) (hy : ¬ c → y.cost ≤ n) :
    (if c then x else y).cost ≤ n := by
  split
  · exact hx ‹_›
  · exact hy ‹_›

end Cnt

/-! ## Translations -/

variable {ρ σ : Type}

/-- The operations of a reader that take more than a constant number of steps, with their steps. -/
structure Costs (ρ : Type) where
  mapKeys : ρ → Cnt (List Bytes)
  getKey : ρ → Bytes → Cnt ρ
  arraySize : ρ → Cnt Nat
  getIdx : ρ → Nat → Cnt ρ

/-- The counted operations return what those of the reader return. -/
structure Costs.Of (C : Costs ρ) (R : Reader ρ) : Prop where
  mapKeys : ∀ r, (C.mapKeys r).res = R.mapKeys r
  getKey : ∀ r k, (C.getKey r k).res = R.getKey r k
  arraySize : ∀ r, (C.arraySize r).res = R.arraySize r
  getIdx : ∀ r i, (C.getIdx r i).res = R.getIdx r i

/-- `writeEntries` with the steps of the lookups, translate.hpp:54-57. -/
def writeEntriesC (C : Costs ρ) (W : Writer σ) (rec : ρ → σ → Cnt σ) (r : ρ) : List Bytes → σ → Cnt σ
  | [], s => pure s
  | k :: ks, s => do
    let s1 ← W.step s (.key k)
    let c ← C.getKey r k
    let s2 ← rec c s1
    writeEntriesC C W rec r ks s2

/-- `writeElems` with the steps of the lookups, translate.hpp:65. -/
def writeElemsC (C : Costs ρ) (rec : ρ → σ → Cnt σ) (r : ρ) : Nat → Nat → σ → Cnt σ
  | 0, _, s => pure s
  | n + 1, i, s => do
    let c ← C.getIdx r i
    let s' ← rec c s
    writeElemsC C rec r n (i + 1) s'

/-- `write_value` with the steps of the lookups, translate.hpp:33-72. The keys of a map are traversed twice (lines 51 and 54). -/
def writeValueC (R : Reader ρ) (C : Costs ρ) (W : Writer σ) : Nat → ρ → σ → Cnt σ
  | 0, _, _ => Cnt.lift .diverge
  | f + 1, r, s => do
    if ← R.isNull r then W.step s .null
    else if ← R.isBool r then do let b ← R.asBool r; W.step s (.bool b)
    else if ← R.isInt r then do let i ← R.asInt64 r; W.step s (.int i)
    else if ← R.isUInt r then do let n ← R.asUInt64 r; W.step s (.uint n)
    else if ← R.isFloat r then do let d ← R.asDouble r; W.step s (.dbl d)
    else if ← R.isString r then do let x ← R.asStringView r; W.step s (.str x)
    else if ← R.isBlob r then do let x ← R.asBlob r; W.step s (.blob x)
    else if ← R.isMap r then do
      let ks ← C.mapKeys r
      let s ← W.step s (.beginMap ks.length)
      let ks ← C.mapKeys r
      let s ← writeEntriesC C W (writeValueC R C W f) r ks s
      W.step s .endMap
    else if ← R.isArray r then do
      let n ← C.arraySize r
      let s ← W.step s (.beginArr n)
      let s ← writeElemsC C (writeValueC R C W f) r n 0 s
      W.step s .endArr
    else Cnt.lift (.err .runtime)

theorem writeEntriesC_res {R : Reader ρ} {C : Costs ρ} (hC : C.Of R) {W : Writer σ} {rec : ρ → σ → Cnt σ} {r : ρ} : ∀ ks s,
    (writeEntriesC C W rec r ks s).res = writeEntries R W (fun r s => (rec r s).res) r ks s
  | [], s => rfl
  | k :: ks, s => by
    simp only [writeEntriesC, writeEntries, Cnt.bind_res, Cnt.monadLift_eq, Cnt.lift_res, hC.getKey, writeEntriesC_res hC ks]

theorem writeElemsC_res {R : Reader ρ} {C : Costs ρ} (hC : C.Of R) {rec : ρ → σ → Cnt σ} {r : ρ} : ∀ n i s,
    (writeElemsC C rec r n i s).res = writeElems R (fun r s => (rec r s).res) r n i s
  | 0, _, _ => rfl
  | n + 1, i, s => by
    simp only [writeElemsC, writeElems, Cnt.bind_res, hC.getIdx, writeElemsC_res hC n]

/-- Counting changes nothing. -/
theorem writeValueC_res {R : Reader ρ} {C : Costs ρ} (hC : C.Of R) {W : Writer σ} : ∀ f r s,
    (writeValueC R C W f r s).res = writeValue R W f r s
  | 0, _, _ => rfl
  | f + 1, r, s => by
    have ih : (fun r s => (writeValueC R C W f r s).res) = writeValue R W f := by
      funext r s; exact writeValueC_res hC f r s
    have twice : ∀ (x : Res (List Bytes)) (g : List Bytes → Res σ) (h : List Bytes → σ → Res σ),
        (x >>= fun a => g a >>= fun s => x >>= fun b => h b s) = x >>= fun a => g a >>= fun s => h a s := by
      intro x g h
      cases x with
      | ok a => rfl
      | _ => rfl
    simp only [writeValueC, writeValue, Cnt.bind_res, Cnt.ite_res, Cnt.monadLift_eq, Cnt.lift_res, hC.mapKeys, hC.arraySize,
      writeEntriesC_res hC, writeElemsC_res hC, ih, twice]

/-! ## Bounds -/

namespace Cnt
variable {α β : Type}

theorem lift_bind_ok {x : Res α} {k : α → Cnt β} {b : β} (h : (lift x >>= k).res = .ok b) :
    ∃ a, x = .ok a ∧ (k a).res = .ok b ∧ (lift x >>= k).cost = (k a).cost := by
  rw [bind_res, lift_res] at h
  obtain ⟨a, ha, h⟩ := Res.bind_eq_ok.1 h
  exact ⟨a, ha, h, by rw [ha, lift_ok_bind]⟩

theorem bind_ok {x : Cnt α} {k : α → Cnt β} {b : β} (h : (x >>= k).res = .ok b) :
    ∃ a, x.res = .ok a ∧ (k a).res = .ok b ∧ (x >>= k).cost = x.cost + (k a).cost := by
  rw [bind_res] at h
  obtain ⟨a, ha, h⟩ := Res.bind_eq_ok.1 h
  exact ⟨a, ha, h, bind_ok_cost ha⟩

end Cnt

/-- Positions, closed under looking into containers, where every lookup takes at most `D` steps and listing the keys `3 * D`. -/
structure Costs.Within (R : Reader ρ) (C : Costs ρ) (P : ρ → Prop) (D : Nat) : Prop where
  mapKeys : ∀ r, P r → R.isBlob r = .ok false → R.isMap r = .ok true → (C.mapKeys r).cost ≤ 3 * D
  getKey : ∀ r k, P r → R.isBlob r = .ok false → R.isMap r = .ok true → (C.getKey r k).cost ≤ D ∧ ∀ c, (C.getKey r k).res = .ok c → P c
  arraySize : ∀ r, P r → R.isBlob r = .ok false → R.isArray r = .ok true → (C.arraySize r).cost ≤ D
  getIdx : ∀ r i, P r → R.isBlob r = .ok false → R.isArray r = .ok true → (C.getIdx r i).cost ≤ D ∧ ∀ c, (C.getIdx r i).res = .ok c → P c

theorem writeEntriesC_within {C : Costs ρ} {P : ρ → Prop} {D : Nat} {rec : ρ → Nat → Cnt Nat} {r : ρ}
    (hg : ∀ k, (C.getKey r k).cost ≤ D ∧ ∀ c, (C.getKey r k).res = .ok c → P c)
    (hr : ∀ c s s', P c → (rec c s).res = .ok s' → ∃ e, s' = s + e ∧ (rec c s).cost + D ≤ 4 * (D * e)) : ∀ ks s s',
    (writeEntriesC C counter rec r ks s).res = .ok s' → ∃ e, s' = s + e ∧ (writeEntriesC C counter rec r ks s).cost ≤ 4 * (D * e)
  | [], s, s', h => by
    injection h with h
    exact ⟨0, h.symm, Nat.zero_le _⟩
  | k :: ks, s, s', h => by
    obtain ⟨s1, h1, h, e1⟩ := Cnt.lift_bind_ok h
    obtain ⟨c, h2, h, e2⟩ := Cnt.bind_ok h
    obtain ⟨s2, h3, h, e3⟩ := Cnt.bind_ok h
    injection h1 with h1
    obtain ⟨g1, g2⟩ := hg k
    obtain ⟨e, i1, i2⟩ := hr c s1 s2 (g2 c h2) h3
    obtain ⟨e', j1, j2⟩ := writeEntriesC_within hg hr ks s2 s' h
    refine ⟨1 + e + e', by omega, ?_⟩
    have q : D * (1 + e + e') = D + D * e + D * e' := by rw [Nat.mul_add, Nat.mul_add, Nat.mul_one]
    have e1' : (writeEntriesC C counter rec r (k :: ks) s).cost = _ := e1
    rw [e1', e2, e3, q]
    omega

theorem writeElemsC_within {C : Costs ρ} {P : ρ → Prop} {D : Nat} {rec : ρ → Nat → Cnt Nat} {r : ρ}
    (hg : ∀ i, (C.getIdx r i).cost ≤ D ∧ ∀ c, (C.getIdx r i).res = .ok c → P c)
    (hr : ∀ c s s', P c → (rec c s).res = .ok s' → ∃ e, s' = s + e ∧ (rec c s).cost + D ≤ 4 * (D * e)) : ∀ n i s s',
    (writeElemsC C rec r n i s).res = .ok s' → ∃ e, s' = s + e ∧ (writeElemsC C rec r n i s).cost ≤ 4 * (D * e)
  | 0, _, s, s', h => by
    injection h with h
    exact ⟨0, h.symm, Nat.zero_le _⟩
  | n + 1, i, s, s', h => by
    obtain ⟨c, h2, h, e2⟩ := Cnt.bind_ok h
    obtain ⟨s2, h3, h, e3⟩ := Cnt.bind_ok h
    obtain ⟨g1, g2⟩ := hg i
    obtain ⟨e, i1, i2⟩ := hr c s s2 (g2 c h2) h3
    obtain ⟨e', j1, j2⟩ := writeElemsC_within hg hr n (i + 1) s2 s' h
    refine ⟨e + e', by omega, ?_⟩
    have q : D * (e + e') = D * e + D * e' := Nat.mul_add ..
    have e2' : (writeElemsC C rec r (n + 1) i s).cost = _ := e2
    rw [e2', e3, q]
    omega

/-- The steps of a translation: `4 * D` for every call of the writer. -/
theorem writeValueC_within {R : Reader ρ} {C : Costs ρ} {P : ρ → Prop} {D : Nat} (hC : Costs.Within R C P D) : ∀ f r s s', P r →
    (writeValueC R C counter f r s).res = .ok s' → ∃ e, s' = s + e ∧ (writeValueC R C counter f r s).cost + D ≤ 4 * (D * e)
  | 0, _, _, _, _, h => by cases h
  | f + 1, r, s, s', hP, h => by
    have one : ∀ {x : Cnt Nat} {e : Ev}, x = Cnt.lift (counter.step s e) → x.res = .ok s' → ∃ e, s' = s + e ∧ x.cost + D ≤ 4 * (D * e) := by
      intro x e hx h
      subst hx
      injection h with h
      exact ⟨1, h.symm, by simp; omega⟩
    have ih := fun c s s' hc => writeValueC_within hC f c s s' hc
    rw [writeValueC] at h ⊢
    simp only [Cnt.monadLift_eq] at h ⊢
    obtain ⟨b1, h1, h, e1⟩ := Cnt.lift_bind_ok h
    rw [e1]
    split at h
    · rw [if_pos ‹_›]; exact one rfl h
    rw [if_neg ‹_›]
    obtain ⟨b2, h2, h, e2⟩ := Cnt.lift_bind_ok h
    rw [e2]
    split at h
    · rw [if_pos ‹_›]; obtain ⟨_, _, h, e⟩ := Cnt.lift_bind_ok h; rw [e]; exact one rfl h
    rw [if_neg ‹_›]
    obtain ⟨b3, h3, h, e3⟩ := Cnt.lift_bind_ok h
    rw [e3]
    split at h
    · rw [if_pos ‹_›]; obtain ⟨_, _, h, e⟩ := Cnt.lift_bind_ok h; rw [e]; exact one rfl h
    rw [if_neg ‹_›]
    obtain ⟨b4, h4, h, e4⟩ := Cnt.lift_bind_ok h
    rw [e4]
    split at h
    · rw [if_pos ‹_›]; obtain ⟨_, _, h, e⟩ := Cnt.lift_bind_ok h; rw [e]; exact one rfl h
    rw [if_neg ‹_›]
    obtain ⟨b5, h5, h, e5⟩ := Cnt.lift_bind_ok h
    rw [e5]
    split at h
    · rw [if_pos ‹_›]; obtain ⟨_, _, h, e⟩ := Cnt.lift_bind_ok h; rw [e]; exact one rfl h
    rw [if_neg ‹_›]
    obtain ⟨b6, h6, h, e6⟩ := Cnt.lift_bind_ok h
    rw [e6]
    split at h
    · rw [if_pos ‹_›]; obtain ⟨_, _, h, e⟩ := Cnt.lift_bind_ok h; rw [e]; exact one rfl h
    rw [if_neg ‹_›]
    obtain ⟨b7, h7, h, e7⟩ := Cnt.lift_bind_ok h
    rw [e7]
    split at h
    · rw [if_pos ‹_›]; obtain ⟨_, _, h, e⟩ := Cnt.lift_bind_ok h; rw [e]; exact one rfl h
    rw [if_neg ‹_›]
    have hb : R.isBlob r = .ok false := by rw [h7, Bool.eq_false_iff.2 ‹¬ b7 = true›]
    obtain ⟨b8, h8, h, e8⟩ := Cnt.lift_bind_ok h
    rw [e8]
    split at h
    · rw [if_pos ‹_›]
      have hm : R.isMap r = .ok true := by rw [h8, ‹b8 = true›]
      obtain ⟨ks, k1, h, f1⟩ := Cnt.bind_ok h
      obtain ⟨t1, k2, h, f2⟩ := Cnt.lift_bind_ok h
      obtain ⟨ks', k3, h, f3⟩ := Cnt.bind_ok h
      obtain ⟨t2, k4, h, f4⟩ := Cnt.bind_ok h
      rw [f1, f2, f3, f4]
      injection k2 with k2
      injection h with h
      obtain ⟨e, m1, m2⟩ := writeEntriesC_within (fun k => hC.getKey r k hP hb hm) ih ks' t1 t2 k4
      have := hC.mapKeys r hP hb hm
      refine ⟨e + 2, by omega, ?_⟩
      have q : D * (e + 2) = D * e + D * 2 := Nat.mul_add ..
      rw [q, Cnt.lift_cost]
      omega
    rw [if_neg ‹_›]
    obtain ⟨b9, h9, h, e9⟩ := Cnt.lift_bind_ok h
    rw [e9]
    split at h
    · rw [if_pos ‹_›]
      have hm : R.isArray r = .ok true := by rw [h9, ‹b9 = true›]
      obtain ⟨n, k1, h, f1⟩ := Cnt.bind_ok h
      obtain ⟨t1, k2, h, f2⟩ := Cnt.lift_bind_ok h
      obtain ⟨t2, k4, h, f4⟩ := Cnt.bind_ok h
      rw [f1, f2, f4]
      injection k2 with k2
      injection h with h
      obtain ⟨e, m1, m2⟩ := writeElemsC_within (fun k => hC.getIdx r k hP hb hm) ih n 0 t1 t2 k4
      have := hC.arraySize r hP hb hm
      refine ⟨e + 2, by omega, ?_⟩
      have q : D * (e + 2) = D * e + D * 2 := Nat.mul_add ..
      rw [q, Cnt.lift_cost]
      omega
    · cases h

end Zer
