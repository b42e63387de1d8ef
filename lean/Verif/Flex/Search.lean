import Verif.Flex.Doc

/-!
# Flex: the binary search over keys
-/

namespace Zer.Flex

/-- The decision of the loop body is the lexicographic comparison of unsigned bytes. -/
theorem order_spec : ∀ a b : Bytes, (order a b = .lt ↔ a < b) ∧ (order a b = .gt ↔ b < a) ∧
    (order a b = .eq ↔ a = b)
  | [], [] => by decide
  | [], b :: bs => by simp [order, compare]
  | a :: as, [] => by simp [order, compare]
  | a :: as, b :: bs => by
    have ih := order_spec as bs
    have hn : (if (a :: as).length < (b :: bs).length then (a :: as).length else (b :: bs).length) =
        (if as.length < bs.length then as.length else bs.length) + 1 := by
      simp only [List.length_cons]; split <;> split <;> omega
    have hc : order (a :: as) (b :: bs) = if a < b then .lt else if b < a then .gt else order as bs := by
      unfold order
      simp only [hn, compare]
      by_cases h1 : a < b
      · simp [h1]
      · by_cases h2 : b < a
        · simp [h1, h2]
        · simp [h1, h2]
    rw [hc]
    by_cases h1 : a < b
    · have h2 : ¬ b < a := fun h => absurd (UInt8.lt_trans h1 h) (UInt8.lt_irrefl _)
      have h3 : ¬ a = b := fun e => absurd (e ▸ h1) (UInt8.lt_irrefl _)
      simp [h1, h2, h3, List.cons_lt_cons_iff, Ne.symm h3, eq_comm]
    · by_cases h2 : b < a
      · have h3 : ¬ a = b := fun e => absurd (e ▸ h2) (UInt8.lt_irrefl _)
        simp [h1, h2, h3, List.cons_lt_cons_iff]
      · have h3 : a = b := UInt8.le_antisymm (UInt8.not_lt.1 h2) (UInt8.not_lt.1 h1)
        subst h3
        simpa [h1, List.cons_lt_cons_iff] using ih

theorem bytes_lt_of_le_of_lt {a b c : Bytes} (h1 : a ≤ b) (h2 : b < c) : a < c :=
  List.lt_of_le_of_lt h1 h2

theorem bytes_lt_of_lt_of_le {a b c : Bytes} (h1 : a < b) (h2 : b ≤ c) : a < c := by
  rcases List.le_iff_lt_or_eq.1 h2 with h | rfl
  · exact List.lt_trans h1 h
  · exact h1

/-- In sorted keys the loop stops at an occurrence of the key, or there is none. -/
theorem search_spec {keys : List Bytes} (hs : keys.Pairwise (· ≤ ·)) (key : Bytes) :
    ∀ (n lo hi : Nat), hi - lo = n → hi ≤ keys.length →
    (∀ i (h : i < keys.length), i < lo → keys[i] < key) →
    (∀ i (h : i < keys.length), hi ≤ i → key < keys[i]) →
    (∃ mid, ∃ h : mid < keys.length, search keys key lo hi = some mid ∧ keys[mid] = key) ∨
      (search keys key lo hi = none ∧ key ∉ keys) := by
  intro n
  induction n using Nat.strongRecOn with
  | ind n ih =>
    intro lo hi hn hhi hlo hup
    rw [search]
    by_cases h : lo < hi
    · rw [dif_pos h]
      have hm : (lo + hi) / 2 < keys.length := by omega
      have e : keys[(lo + hi) / 2]?.getD [] = keys[(lo + hi) / 2] := by simp [hm]
      simp only [e]
      have hle : ∀ i j (hi : i < keys.length) (hj : j < keys.length), i ≤ j → keys[i] ≤ keys[j] := by
        intro i j hi hj hij
        rcases Nat.lt_or_eq_of_le hij with hlt | rfl
        · exact List.pairwise_iff_getElem.1 hs i j hi hj hlt
        · exact List.le_refl _
      obtain ⟨o1, o2, o3⟩ := order_spec keys[(lo + hi) / 2] key
      cases ho : order keys[(lo + hi) / 2] key with
      | lt =>
        refine ih _ ?_ ((lo + hi) / 2 + 1) hi rfl hhi ?_ hup
        · omega
        · intro i hi' hlt
          exact bytes_lt_of_le_of_lt (hle i _ hi' hm (by omega)) (o1.1 ho)
      | gt =>
        refine ih _ ?_ lo ((lo + hi) / 2) rfl (by omega) hlo ?_
        · omega
        · intro i hi' hle'
          exact bytes_lt_of_lt_of_le (o2.1 ho) (hle _ i hm hi' hle')
      | eq => exact .inl ⟨_, hm, rfl, o3.1 ho⟩
    · rw [dif_neg h]
      refine .inr ⟨rfl, fun hk => ?_⟩
      obtain ⟨i, hi', e⟩ := List.getElem_of_mem hk
      by_cases hl : i < lo
      · exact absurd (e ▸ hlo i hi' hl) (List.lt_irrefl _)
      · exact absurd (e ▸ hup i hi' (by omega)) (List.lt_irrefl _)

theorem search_all {keys : List Bytes} (hs : keys.Pairwise (· ≤ ·)) (key : Bytes) :
    (∃ mid, ∃ h : mid < keys.length, search keys key 0 keys.length = some mid ∧ keys[mid] = key) ∨
      (search keys key 0 keys.length = none ∧ key ∉ keys) :=
  search_spec hs key _ 0 keys.length rfl (Nat.le_refl _) (fun _ _ h => by omega)
    (fun _ _ h => by omega)

/-- Whatever the order of the keys: the loop stops inside the range, and only at the key. -/
theorem search_sound {keys : List Bytes} {key : Bytes} :
    ∀ (n lo hi : Nat), hi - lo = n → hi ≤ keys.length → ∀ mid, search keys key lo hi = some mid →
    ∃ h : mid < keys.length, keys[mid] = key := by
  intro n
  induction n using Nat.strongRecOn with
  | ind n ih =>
    intro lo hi hn hhi mid
    rw [search]
    by_cases h : lo < hi
    · rw [dif_pos h]
      have hm : (lo + hi) / 2 < keys.length := by omega
      have e : keys[(lo + hi) / 2]?.getD [] = keys[(lo + hi) / 2] := by simp [hm]
      simp only [e]
      cases ho : order keys[(lo + hi) / 2] key with
      | lt => exact ih _ (by omega) _ _ rfl hhi mid
      | gt => exact ih _ (by omega) _ _ rfl (by omega) mid
      | eq =>
        intro h'
        injection h' with h'
        subst h'
        exact ⟨hm, (order_spec _ _).2.2.1 ho⟩
    · rw [dif_neg h]
      intro h'; cases h'

end Zer.Flex
