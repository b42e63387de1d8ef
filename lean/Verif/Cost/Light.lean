import Verif.Cost.Basic

/-!
# Translations from formats with tables

Bounds for readers that find elements by their index without steps and list keys with one step each.
-/

namespace Zer

variable {ρ σ : Type}

/-- Positions, closed under looking into containers, where listing keys takes a step for each of them, finding one of them at
most `D` steps, and elements none. -/
structure Costs.Light (C : Costs ρ) (P : ρ → Prop) (D : Nat) : Prop where
  mapKeys : ∀ r ks, P r → (C.mapKeys r).res = .ok ks → (C.mapKeys r).cost ≤ ks.length
  getKey : ∀ r ks k, P r → (C.mapKeys r).res = .ok ks → (C.getKey r k).cost ≤ D ∧ ∀ c, (C.getKey r k).res = .ok c → P c
  arraySize : ∀ r, P r → (C.arraySize r).cost = 0
  getIdx : ∀ r i, P r → (C.getIdx r i).cost = 0 ∧ ∀ c, (C.getIdx r i).res = .ok c → P c

theorem writeEntriesC_light {C : Costs ρ} {P : ρ → Prop} {D : Nat} {rec : ρ → Nat → Cnt Nat} {r : ρ}
    (hg : ∀ k, (C.getKey r k).cost ≤ D ∧ ∀ c, (C.getKey r k).res = .ok c → P c)
    (hr : ∀ c s s', P c → (rec c s).res = .ok s' → ∃ e, s' = s + e ∧ (rec c s).cost ≤ (D + 2) * e) : ∀ ks s s',
    (writeEntriesC C counter rec r ks s).res = .ok s' →
      ∃ e, s' = s + e ∧ (writeEntriesC C counter rec r ks s).cost + 2 * ks.length ≤ (D + 2) * e
  | [], s, s', h => by
    injection h with h
    exact ⟨0, h.symm, Nat.le_refl _⟩
  | k :: ks, s, s', h => by
    obtain ⟨s1, h1, h, e1⟩ := Cnt.lift_bind_ok h
    obtain ⟨c, h2, h, e2⟩ := Cnt.bind_ok h
    obtain ⟨s2, h3, h, e3⟩ := Cnt.bind_ok h
    injection h1 with h1
    obtain ⟨g1, g2⟩ := hg k
    obtain ⟨e, i1, i2⟩ := hr c s1 s2 (g2 c h2) h3
    obtain ⟨e', j1, j2⟩ := writeEntriesC_light hg hr ks s2 s' h
    refine ⟨1 + e + e', by omega, ?_⟩
    have q : (D + 2) * (1 + e + e') = (D + 2) + (D + 2) * e + (D + 2) * e' := by rw [Nat.mul_add, Nat.mul_add, Nat.mul_one]
    have e1' : (writeEntriesC C counter rec r (k :: ks) s).cost = _ := e1
    rw [e1', e2, e3, q, List.length_cons]
    omega

theorem writeElemsC_light {C : Costs ρ} {P : ρ → Prop} {D : Nat} {rec : ρ → Nat → Cnt Nat} {r : ρ}
    (hg : ∀ i, (C.getIdx r i).cost = 0 ∧ ∀ c, (C.getIdx r i).res = .ok c → P c)
    (hr : ∀ c s s', P c → (rec c s).res = .ok s' → ∃ e, s' = s + e ∧ (rec c s).cost ≤ (D + 2) * e) : ∀ n i s s',
    (writeElemsC C rec r n i s).res = .ok s' → ∃ e, s' = s + e ∧ (writeElemsC C rec r n i s).cost ≤ (D + 2) * e
  | 0, _, s, s', h => by
    injection h with h
    exact ⟨0, h.symm, Nat.zero_le _⟩
  | n + 1, i, s, s', h => by
    obtain ⟨c, h2, h, e2⟩ := Cnt.bind_ok h
    obtain ⟨s2, h3, h, e3⟩ := Cnt.bind_ok h
    obtain ⟨g1, g2⟩ := hg i
    obtain ⟨e, i1, i2⟩ := hr c s s2 (g2 c h2) h3
    obtain ⟨e', j1, j2⟩ := writeElemsC_light hg hr n (i + 1) s2 s' h
    refine ⟨e + e', by omega, ?_⟩
    have q : (D + 2) * (e + e') = (D + 2) * e + (D + 2) * e' := Nat.mul_add ..
    have e2' : (writeElemsC C rec r (n + 1) i s).cost = _ := e2
    rw [e2', e3, q]
    omega

/-- The steps of a translation: `D + 2` for every call of the writer. -/
theorem writeValueC_light {R : Reader ρ} {C : Costs ρ} {P : ρ → Prop} {D : Nat} (hC : C.Light P D) : ∀ f r s s', P r →
    (writeValueC R C counter f r s).res = .ok s' → ∃ e, s' = s + e ∧ (writeValueC R C counter f r s).cost ≤ (D + 2) * e
  | 0, _, _, _, _, h => by cases h
  | f + 1, r, s, s', hP, h => by
    have one : ∀ {x : Cnt Nat} {e : Ev}, x = Cnt.lift (counter.step s e) → x.res = .ok s' → ∃ e, s' = s + e ∧ x.cost ≤ (D + 2) * e := by
      intro x e hx h
      subst hx
      injection h with h
      exact ⟨1, h.symm, Nat.zero_le _⟩
    have ih := fun c s s' hc => writeValueC_light (R := R) hC f c s s' hc
    rw [writeValueC] at h ⊢
    simp only [Cnt.monadLift_eq] at h ⊢
    obtain ⟨b1, h1, h, e1⟩ := Cnt.lift_bind_ok h
    rw [e1]
    split at h
    · rw [if_pos ‹_›]; exact one rfl h
    rw [if_neg ‹_›]
    obtain ⟨b2, h2, h, e2⟩ := Cnt.lift_bind_ok h
    rw [e2]
    split at h
    · rw [if_pos ‹_›]; obtain ⟨_, _, h, e⟩ := Cnt.lift_bind_ok h; rw [e]; exact one rfl h
    rw [if_neg ‹_›]
    obtain ⟨b3, h3, h, e3⟩ := Cnt.lift_bind_ok h
    rw [e3]
    split at h
    · rw [if_pos ‹_›]; obtain ⟨_, _, h, e⟩ := Cnt.lift_bind_ok h; rw [e]; exact one rfl h
    rw [if_neg ‹_›]
    obtain ⟨b4, h4, h, e4⟩ := Cnt.lift_bind_ok h
    rw [e4]
    split at h
    · rw [if_pos ‹_›]; obtain ⟨_, _, h, e⟩ := Cnt.lift_bind_ok h; rw [e]; exact one rfl h
    rw [if_neg ‹_›]
    obtain ⟨b5, h5, h, e5⟩ := Cnt.lift_bind_ok h
    rw [e5]
    split at h
    · rw [if_pos ‹_›]; obtain ⟨_, _, h, e⟩ := Cnt.lift_bind_ok h; rw [e]; exact one rfl h
    rw [if_neg ‹_›]
    obtain ⟨b6, h6, h, e6⟩ := Cnt.lift_bind_ok h
    rw [e6]
    split at h
    · rw [if_pos ‹_›]; obtain ⟨_, _, h, e⟩ := Cnt.lift_bind_ok h; rw [e]; exact one rfl h
    rw [if_neg ‹_›]
    obtain ⟨b7, h7, h, e7⟩ := Cnt.lift_bind_ok h
    rw [e7]
    split at h
    · rw [if_pos ‹_›]; obtain ⟨_, _, h, e⟩ := Cnt.lift_bind_ok h; rw [e]; exact one rfl h
    rw [if_neg ‹_›]
    obtain ⟨b8, h8, h, e8⟩ := Cnt.lift_bind_ok h
    rw [e8]
    split at h
    · rw [if_pos ‹_›]
      obtain ⟨ks, k1, h, f1⟩ := Cnt.bind_ok h
      obtain ⟨t1, k2, h, f2⟩ := Cnt.lift_bind_ok h
      obtain ⟨ks', k3, h, f3⟩ := Cnt.bind_ok h
      obtain ⟨t2, k4, h, f4⟩ := Cnt.bind_ok h
      rw [f1, f2, f3, f4]
      injection k2 with k2
      injection h with h
      obtain rfl : ks = ks' := by rw [k1] at k3; injection k3
      obtain ⟨e, m1, m2⟩ := writeEntriesC_light (fun k => hC.getKey r ks k hP k1) ih ks t1 t2 k4
      have := hC.mapKeys r ks hP k1
      refine ⟨e + 2, by omega, ?_⟩
      have q : (D + 2) * (e + 2) = (D + 2) * e + (D + 2) * 2 := Nat.mul_add ..
      rw [q, Cnt.lift_cost]
      omega
    rw [if_neg ‹_›]
    obtain ⟨b9, h9, h, e9⟩ := Cnt.lift_bind_ok h
    rw [e9]
    split at h
    · rw [if_pos ‹_›]
      obtain ⟨n, k1, h, f1⟩ := Cnt.bind_ok h
      obtain ⟨t1, k2, h, f2⟩ := Cnt.lift_bind_ok h
      obtain ⟨t2, k4, h, f4⟩ := Cnt.bind_ok h
      rw [f1, f2, f4]
      injection k2 with k2
      injection h with h
      obtain ⟨e, m1, m2⟩ := writeElemsC_light (fun k => hC.getIdx r k hP) ih n 0 t1 t2 k4
      have := hC.arraySize r hP
      refine ⟨e + 2, by omega, ?_⟩
      have q : (D + 2) * (e + 2) = (D + 2) * e + (D + 2) * 2 := Nat.mul_add ..
      rw [q, Cnt.lift_cost]
      omega
    · cases h

/-- Entries whose keys take more and more steps to find take a quadratic number of steps. -/
theorem writeEntriesC_ge {C : Costs ρ} {W : Writer σ} {rec : ρ → σ → Cnt σ} {r : ρ} : ∀ (ks : List Bytes) (c : Nat) {s s' : σ},
    (∀ i (h : i < ks.length), c + i + 1 ≤ (C.getKey r ks[i]).cost) → (writeEntriesC C W rec r ks s).res = .ok s' →
      ks.length * (2 * c + ks.length + 1) ≤ 2 * (writeEntriesC C W rec r ks s).cost
  | [], _, _, _, _, _ => by simp
  | k :: ks, c, s, s', hg, h => by
    obtain ⟨s1, h1, h, e1⟩ := Cnt.lift_bind_ok h
    obtain ⟨x, h2, h, e2⟩ := Cnt.bind_ok h
    obtain ⟨s2, h3, h, e3⟩ := Cnt.bind_ok h
    have ih := writeEntriesC_ge ks (c + 1) (fun i hi => by
      have := hg (i + 1) (by simpa using hi)
      simp only [List.getElem_cons_succ] at this
      omega) h
    have h0 := hg 0 (by simp)
    simp only [List.getElem_cons_zero] at h0
    have e1' : (writeEntriesC C W rec r (k :: ks) s).cost = _ := e1
    rw [e1', e2, e3, List.length_cons]
    generalize (writeEntriesC C W rec r ks s2).cost = Y at ih ⊢
    generalize ks.length = m at ih ⊢
    have q : (m + 1) * (2 * c + (m + 1) + 1) = m * (2 * (c + 1) + m + 1) + 2 * (c + 1) := by
      simp only [Nat.mul_add, Nat.add_mul, Nat.mul_one, Nat.one_mul]; omega
    omega

end Zer
