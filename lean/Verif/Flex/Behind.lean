import Verif.Props.Flex
import Verif.Flex.Key
import Verif.Sound
import Verif.Reach

/-!
# Flex: the byte behind a string

`RootSerializer::string` (flex.hpp:57) hands a `std::string_view` to flexbuffers `String(str, len)`, which copies `len + 1`
bytes. `write_value` passes what the source's `asStringView()` returned (translate.hpp:39), a view into the source buffer.
-/

namespace Zer

variable {ρ σ : Type}

/-- The reader, where whoever asks for a view of a string goes on to read the byte behind it. `behind` is that byte, undefined
outside the allocation. -/
def Reader.peeking (R : Reader ρ) (behind : ρ → Res UInt8) : Reader ρ :=
  { R with asStringView := fun r => do
      let s ← R.asStringView r
      let c ← behind r
      pure (s ++ [c]) }

/-- Positions that `write_value` comes to, from `r`. -/
inductive Reader.Visits (R : Reader ρ) (r : ρ) : ρ → Prop where
  | refl : Visits R r r
  | elem {d c : ρ} {xs : List Val} {i : Nat} : Visits R r d → R.Agrees d (.arr xs) → i < xs.length → R.getIdx d i = .ok c →
      Visits R r c
  | entry {d c : ρ} {ms : List (Bytes × Val)} {k : Bytes} : Visits R r d → R.Agrees d (.map ms) → k ∈ ms.map Prod.fst →
      R.getKey d k = .ok c → Visits R r c

theorem Reader.Visits.trans {R : Reader ρ} {a b c : ρ} (h : R.Visits a b) (h' : R.Visits b c) : R.Visits a c := by
  induction h' with
  | refl => exact h
  | elem _ h1 h2 h3 ih => exact .elem ih h1 h2 h3
  | entry _ h1 h2 h3 ih => exact .entry ih h1 h2 h3

/-- A visited position presents a value. -/
theorem Reader.Visits.agrees {R : Reader ρ} {r c : ρ} {v : Val} (hv : R.Agrees r v) (h : R.Visits r c) : ∃ w, R.Agrees c w := by
  induction h with
  | refl => exact ⟨v, hv⟩
  | elem _ h1 h2 h3 _ =>
    cases h1 with
    | arr child _ _ k3 _ k5 =>
      rw [k3 _ h2] at h3
      injection h3 with h3; subst h3
      exact ⟨_, k5 _ h2⟩
  | entry _ h1 h2 h3 _ =>
    cases h1 with
    | map child _ _ _ k4 _ k6 =>
      rw [k4 _ h2] at h3
      injection h3 with h3; subst h3
      obtain ⟨w, hw⟩ := firstVal_isSome.1 h2
      exact ⟨w, k6 _ _ hw⟩

/-- Steps of one writer are followed by those of another: strings with any byte more behind them, other calls as they are. -/
structure Follow (W : Writer σ) {τ : Type} (W' : Writer τ) (Q : σ → τ → Prop) : Prop where
  str : ∀ {s s' t x} (c : UInt8), Q s t → W.step s (.str x) = .ok s' → ∃ t', W'.step t (.str (x ++ [c])) = .ok t' ∧ Q s' t'
  other : ∀ {s s' t e}, (∀ x, e ≠ .str x) → Q s t → W.step s e = .ok s' → ∃ t', W'.step t e = .ok t' ∧ Q s' t'

theorem writeElems_follow {τ : Type} {R R' : Reader ρ} {Q : σ → τ → Prop} {rec : ρ → σ → Res σ} {rec' : ρ → τ → Res τ} {r : ρ}
    {P N : ρ → Prop} (hg : ∀ i, R'.getIdx r i = R.getIdx r i) : ∀ {n i : Nat} {s s' : σ} {t : τ}
    (_ : ∀ c j s s' t, i ≤ j → j < i + n → R.getIdx r j = .ok c → Q s t → rec c s = .ok s' →
      (∃ t', rec' c t = .ok t' ∧ Q s' t' ∧ P c) ∨ (rec' c t = .ub ∧ N c)),
    Q s t → writeElems R rec r n i s = .ok s' →
    (∃ t', writeElems R' rec' r n i t = .ok t' ∧ Q s' t' ∧ ∀ j c, i ≤ j → j < i + n → R.getIdx r j = .ok c → P c) ∨
    (writeElems R' rec' r n i t = .ub ∧ ∃ j c, i ≤ j ∧ j < i + n ∧ R.getIdx r j = .ok c ∧ N c) := by
  intro n
  induction n with
  | zero => intro i s s' t _ q h; injection h with h; subst h; exact .inl ⟨t, rfl, q, fun j c _ _ => by omega⟩
  | succ n ih =>
    intro i s s' t hrec q h
    obtain ⟨c, h1, h⟩ := Res.bind_eq_ok.1 h
    obtain ⟨s1, h2, h⟩ := Res.bind_eq_ok.1 h
    rcases hrec c i s s1 t (by omega) (by omega) h1 q h2 with ⟨t1, h3, q1, p1⟩ | ⟨h3, n1⟩
    · rcases ih (fun c j s s' t a b => hrec c j s s' t (by omega) (by omega)) q1 h with ⟨t2, h4, q2, p2⟩ | ⟨h4, j, d, a, b, e, n2⟩
      · refine .inl ⟨t2, ?_, q2, fun j d a b e => ?_⟩
        · simp only [writeElems, hg, h1, h3, Res.ok_bind]
          exact h4
        · by_cases hj : j = i
          · subst hj; rw [h1] at e; injection e with e; subst e; exact p1
          · exact p2 j d (by omega) (by omega) e
      · refine .inr ⟨?_, j, d, by omega, by omega, e, n2⟩
        simp only [writeElems, hg, h1, h3, Res.ok_bind]
        exact h4
    · refine .inr ⟨?_, i, c, by omega, by omega, h1, n1⟩
      simp only [writeElems, hg, h1, h3, Res.ok_bind, Res.ub_bind]

theorem writeEntries_follow {τ : Type} {R R' : Reader ρ} {W : Writer σ} {W' : Writer τ} {Q : σ → τ → Prop} (F : Follow W W' Q)
    {rec : ρ → σ → Res σ} {rec' : ρ → τ → Res τ} {r : ρ} {P N : ρ → Prop}
    (hg : ∀ k, R'.getKey r k = R.getKey r k) : ∀ {ks : List Bytes} {s s' : σ} {t : τ}
    (_ : ∀ c k s s' t, k ∈ ks → R.getKey r k = .ok c → Q s t → rec c s = .ok s' →
      (∃ t', rec' c t = .ok t' ∧ Q s' t' ∧ P c) ∨ (rec' c t = .ub ∧ N c)),
    Q s t → writeEntries R W rec r ks s = .ok s' →
    (∃ t', writeEntries R' W' rec' r ks t = .ok t' ∧ Q s' t' ∧ ∀ k c, k ∈ ks → R.getKey r k = .ok c → P c) ∨
    (writeEntries R' W' rec' r ks t = .ub ∧ ∃ k c, k ∈ ks ∧ R.getKey r k = .ok c ∧ N c) := by
  intro ks
  induction ks with
  | nil => intro s s' t _ q h; injection h with h; subst h; exact .inl ⟨t, rfl, q, fun k c h => by cases h⟩
  | cons k ks ih =>
    intro s s' t hrec q h
    obtain ⟨s0, h0, h⟩ := Res.bind_eq_ok.1 h
    obtain ⟨c, h1, h⟩ := Res.bind_eq_ok.1 h
    obtain ⟨s1, h2, h⟩ := Res.bind_eq_ok.1 h
    obtain ⟨t0, h5, q0⟩ := F.other (fun x e => by cases e) q h0
    rcases hrec c k s0 s1 t0 (by simp) h1 q0 h2 with ⟨t1, h3, q1, p1⟩ | ⟨h3, n1⟩
    · rcases ih (fun c j s s' t a => hrec c j s s' t (List.mem_cons_of_mem _ a)) q1 h with ⟨t2, h4, q2, p2⟩ | ⟨h4, j, d, a, e, n2⟩
      · refine .inl ⟨t2, ?_, q2, fun j d a e => ?_⟩
        · simp only [writeEntries, hg, h1, h3, h5, Res.ok_bind]
          exact h4
        · rcases List.mem_cons.1 a with rfl | a
          · rw [h1] at e; injection e with e; subst e; exact p1
          · exact p2 j d a e
      · refine .inr ⟨?_, j, d, List.mem_cons_of_mem _ a, e, n2⟩
        simp only [writeEntries, hg, h1, h3, h5, Res.ok_bind]
        exact h4
    · refine .inr ⟨?_, k, c, by simp, h1, n1⟩
      simp only [writeEntries, hg, h1, h3, h5, Res.ok_bind, Res.ub_bind]

/-- Every string that is visited has a byte behind it. -/
def Reader.AllBehind (R : Reader ρ) (behind : ρ → Res UInt8) (r : ρ) : Prop :=
  ∀ c x, R.Visits r c → R.Agrees c (.str x) → ∃ b, behind c = .ok b

/-- The first step of a way. -/
theorem Reader.Visits.head {R : Reader ρ} {r c : ρ} (h : R.Visits r c) : c = r ∨
    (∃ xs i d, R.Agrees r (.arr xs) ∧ i < xs.length ∧ R.getIdx r i = .ok d ∧ R.Visits d c) ∨
    (∃ ms k d, R.Agrees r (.map ms) ∧ k ∈ ms.map Prod.fst ∧ R.getKey r k = .ok d ∧ R.Visits d c) := by
  induction h with
  | refl => exact .inl rfl
  | elem _ h1 h2 h3 ih =>
    rcases ih with rfl | ⟨xs, i, d, a, b, e, g⟩ | ⟨ms, k, d, a, b, e, g⟩
    · exact .inr (.inl ⟨_, _, _, h1, h2, h3, .refl⟩)
    · exact .inr (.inl ⟨_, _, _, a, b, e, .elem g h1 h2 h3⟩)
    · exact .inr (.inr ⟨_, _, _, a, b, e, .elem g h1 h2 h3⟩)
  | entry _ h1 h2 h3 ih =>
    rcases ih with rfl | ⟨xs, i, d, a, b, e, g⟩ | ⟨ms, k, d, a, b, e, g⟩
    · exact .inr (.inr ⟨_, _, _, h1, h2, h3, .refl⟩)
    · exact .inr (.inl ⟨_, _, _, a, b, e, .entry g h1 h2 h3⟩)
    · exact .inr (.inr ⟨_, _, _, a, b, e, .entry g h1 h2 h3⟩)

/-- The second writer follows the first through a whole translation if there is a byte behind every string; otherwise the
translation reads outside an allocation. -/
theorem writeValue_follow {τ : Type} {R : Reader ρ} {W : Writer σ} {W' : Writer τ} {Q : σ → τ → Prop} (F : Follow W W' Q)
    {behind : ρ → Res UInt8} (B : ∀ c, behind c = .ub ∨ ∃ b, behind c = .ok b) : ∀ {f : Nat} {r : ρ} {v : Val} {s s' : σ} {t : τ},
    R.Agrees r v → Q s t → writeValue R W f r s = .ok s' →
    (∃ t', writeValue (R.peeking behind) W' f r t = .ok t' ∧ Q s' t' ∧ R.AllBehind behind r) ∨
    (writeValue (R.peeking behind) W' f r t = .ub ∧ ∃ c x, R.Visits r c ∧ R.Agrees c (.str x) ∧ behind c = .ub) := by
  intro f
  induction f with
  | zero => intro r v s s' t _ _ h; cases h
  | succ f ih =>
    intro r v s s' t hv q h
    have leaf : v.kind ≠ 4 → v.kind ≠ 6 → v.kind ≠ 7 → R.AllBehind behind r := by
      intro n1 n2 n3 c x hc hx
      rcases hc.head with rfl | ⟨xs, i, d, a, _⟩ | ⟨ms, k, d, a, _⟩
      · exact (n1 (hv.kind_unique hx)).elim
      · exact (n3 (hv.kind_unique a)).elim
      · exact (n2 (hv.kind_unique a)).elim
    have plain : ∀ {e s'}, v.kind ≠ 4 → v.kind ≠ 6 → v.kind ≠ 7 → (∀ x, e ≠ .str x) → W.step s e = .ok s' →
        (∃ t', W'.step t e = .ok t' ∧ Q s' t' ∧ R.AllBehind behind r) ∨
        (W'.step t e = .ub ∧ ∃ c x, R.Visits r c ∧ R.Agrees c (.str x) ∧ behind c = .ub) := by
      intro e s' n1 n2 n3 he h
      obtain ⟨t', h1, h2⟩ := F.other he q h
      exact .inl ⟨t', h1, h2, leaf n1 n2 n3⟩
    have hv' := hv
    cases hv with
    | null hs =>
      obtain ⟨h1, _⟩ := hs
      simp only [writeValue, h1, Res.ok_bind, if_true, Bool.false_eq_true, if_false] at h
      simp only [writeValue, Reader.peeking, h1, Res.ok_bind, if_true, Bool.false_eq_true, if_false]
      exact plain (by simp [Val.kind]) (by simp [Val.kind]) (by simp [Val.kind]) (fun x e => by cases e) h
    | bool hs hx =>
      obtain ⟨h1, h2, _⟩ := hs
      simp only [writeValue, h1, h2, hx, Res.ok_bind, if_true, Bool.false_eq_true, if_false] at h
      simp only [writeValue, Reader.peeking, h1, h2, hx, Res.ok_bind, if_true, Bool.false_eq_true, if_false]
      exact plain (by simp [Val.kind]) (by simp [Val.kind]) (by simp [Val.kind]) (fun x e => by cases e) h
    | int hs _ =>
      obtain ⟨⟨h1, h2, ⟨i, u, h3, h4, h5⟩, _⟩, k1, k2⟩ := hs
      cases i with
      | true =>
        obtain ⟨x, hx, _⟩ := k1 h3
        simp only [writeValue, h1, h2, h3, hx, Res.ok_bind, if_true, Bool.false_eq_true, if_false] at h
        simp only [writeValue, Reader.peeking, h1, h2, h3, hx, Res.ok_bind, if_true, Bool.false_eq_true, if_false]
        exact plain (by simp [Val.kind]) (by simp [Val.kind]) (by simp [Val.kind]) (fun x e => by cases e) h
      | false =>
        cases u with
        | false => cases h5
        | true =>
          obtain ⟨x, hx, _⟩ := k2 h4
          simp only [writeValue, h1, h2, h3, h4, hx, Res.ok_bind, if_true, Bool.false_eq_true, if_false] at h
          simp only [writeValue, Reader.peeking, h1, h2, h3, h4, hx, Res.ok_bind, if_true, Bool.false_eq_true, if_false]
          exact plain (by simp [Val.kind]) (by simp [Val.kind]) (by simp [Val.kind]) (fun x e => by cases e) h
    | uint hs _ =>
      obtain ⟨⟨h1, h2, ⟨i, u, h3, h4, h5⟩, _⟩, k1, k2⟩ := hs
      cases i with
      | true =>
        obtain ⟨x, hx, _⟩ := k1 h3
        simp only [writeValue, h1, h2, h3, hx, Res.ok_bind, if_true, Bool.false_eq_true, if_false] at h
        simp only [writeValue, Reader.peeking, h1, h2, h3, hx, Res.ok_bind, if_true, Bool.false_eq_true, if_false]
        exact plain (by simp [Val.kind]) (by simp [Val.kind]) (by simp [Val.kind]) (fun x e => by cases e) h
      | false =>
        cases u with
        | false => cases h5
        | true =>
          obtain ⟨x, hx, _⟩ := k2 h4
          simp only [writeValue, h1, h2, h3, h4, hx, Res.ok_bind, if_true, Bool.false_eq_true, if_false] at h
          simp only [writeValue, Reader.peeking, h1, h2, h3, h4, hx, Res.ok_bind, if_true, Bool.false_eq_true, if_false]
          exact plain (by simp [Val.kind]) (by simp [Val.kind]) (by simp [Val.kind]) (fun x e => by cases e) h
    | dbl hs hx =>
      obtain ⟨h1, h2, ⟨i, u, h3, h4, h5⟩, h6, _⟩ := hs
      simp only [Bool.or_eq_false_iff] at h5
      obtain ⟨rfl, rfl⟩ := h5
      simp only [writeValue, h1, h2, h3, h4, h6, hx, Res.ok_bind, if_true, Bool.false_eq_true, if_false] at h
      simp only [writeValue, Reader.peeking, h1, h2, h3, h4, h6, hx, Res.ok_bind, if_true, Bool.false_eq_true, if_false]
      exact plain (by simp [Val.kind]) (by simp [Val.kind]) (by simp [Val.kind]) (fun x e => by cases e) h
    | str hs hx hy =>
      rename_i x
      obtain ⟨h1, h2, ⟨i, u, h3, h4, h5⟩, h6, h7, _⟩ := hs
      simp only [Bool.or_eq_false_iff] at h5
      obtain ⟨rfl, rfl⟩ := h5
      simp only [writeValue, h1, h2, h3, h4, h6, h7, hy, Res.ok_bind, if_true, Bool.false_eq_true, if_false] at h
      rcases B r with hb | ⟨b, hb⟩
      · refine .inr ⟨?_, r, x, .refl, hv', hb⟩
        simp only [writeValue, Reader.peeking, h1, h2, h3, h4, h6, h7, hy, hb, Res.ub_bind, Res.ok_bind, if_true, Bool.false_eq_true, if_false]
      · obtain ⟨t', j, q'⟩ := F.str b q h
        refine .inl ⟨t', ?_, q', ?_⟩
        · simp only [writeValue, Reader.peeking, h1, h2, h3, h4, h6, h7, hy, hb, Res.pure_eq, Res.ok_bind, if_true, Bool.false_eq_true, if_false]
          exact j
        · intro c y hc hx
          rcases hc.head with rfl | ⟨xs, i, d, a, _⟩ | ⟨ms, k, d, a, _⟩
          · exact ⟨b, hb⟩
          · have := hv'.kind_unique a; simp [Val.kind] at this
          · have := hv'.kind_unique a; simp [Val.kind] at this
    | blob hs hx _ =>
      obtain ⟨h1, h2, ⟨i, u, h3, h4, h5⟩, h6, h7, h8, _⟩ := hs
      simp only [Bool.or_eq_false_iff] at h5
      obtain ⟨rfl, rfl⟩ := h5
      simp only [writeValue, h1, h2, h3, h4, h6, h7, h8, hx, Res.ok_bind, if_true, Bool.false_eq_true, if_false] at h
      simp only [writeValue, Reader.peeking, h1, h2, h3, h4, h6, h7, h8, hx, Res.ok_bind, if_true, Bool.false_eq_true, if_false]
      exact plain (by simp [Val.kind]) (by simp [Val.kind]) (by simp [Val.kind]) (fun x e => by cases e) h
    | arr child hs hn hc ho hk =>
      rename_i xs
      obtain ⟨h1, h2, ⟨i, u, h3, h4, h5⟩, h6, h7, h8, h9, h10⟩ := hs
      simp only [Bool.or_eq_false_iff] at h5
      obtain ⟨rfl, rfl⟩ := h5
      simp only [writeValue, h1, h2, h3, h4, h6, h7, h8, h9, h10, hn, Res.ok_bind, if_true, Bool.false_eq_true, if_false] at h
      obtain ⟨s1, k1, h⟩ := Res.bind_eq_ok.1 h
      obtain ⟨s2, k2, h⟩ := Res.bind_eq_ok.1 h
      obtain ⟨t1, j1, q1⟩ := F.other (fun x e => by cases e) q k1
      have E : writeValue (R.peeking behind) W' (f + 1) r t =
          (writeElems (R.peeking behind) (writeValue (R.peeking behind) W' f) r xs.length 0 t1 >>= fun s => W'.step s .endArr) := by
        simp only [writeValue, Reader.peeking, h1, h2, h3, h4, h6, h7, h8, h9, h10, hn, j1, Res.ok_bind, if_true, Bool.false_eq_true, if_false]
      rw [E]
      rcases writeElems_follow (R := R) (R' := R.peeking behind) (rec := writeValue R W f) (r := r) (n := xs.length) (i := 0)
        (rec' := writeValue (R.peeking behind) W' f) (P := R.AllBehind behind)
        (N := fun d => ∃ c x, R.Visits d c ∧ R.Agrees c (.str x) ∧ behind c = .ub)
        (fun _ => rfl) (fun c j s s' t _ hj hcj q h => by
          have e := hc j (by omega)
          rw [e] at hcj
          injection hcj with hcj
          subst hcj
          exact ih (hk j (by omega)) q h) q1 k2 with ⟨t2, j2, q2, p2⟩ | ⟨j2, j, d, _, b, e, c, x, g1, g2, g3⟩
      · obtain ⟨t3, j3, q3⟩ := F.other (fun x e => by cases e) q2 h
        refine .inl ⟨t3, by rw [j2]; exact j3, q3, fun c x hc hx => ?_⟩
        rcases hc.head with rfl | ⟨ys, i, d, a, b, e, g⟩ | ⟨ms, k, d, a, _⟩
        · have := hv'.kind_unique hx; simp [Val.kind] at this
        · have hl : ys.length = xs.length := by
            cases a with | arr _ _ hn' => rw [hn] at hn'; injection hn' with hn'; exact hn'.symm
          exact p2 i d (by omega) (by omega) e c x g hx
        · have := hv'.kind_unique a; simp [Val.kind] at this
      · exact .inr ⟨by rw [j2]; rfl, c, x, .trans (.elem .refl hv' (by omega) e) g1, g2, g3⟩
    | map child hs hn hc hg ho hk =>
      rename_i ms
      obtain ⟨h1, h2, ⟨i, u, h3, h4, h5⟩, h6, h7, h8, h9, h10⟩ := hs
      simp only [Bool.or_eq_false_iff] at h5
      obtain ⟨rfl, rfl⟩ := h5
      simp only [writeValue, h1, h2, h3, h4, h6, h7, h8, h9, hn, Res.ok_bind, if_true, Bool.false_eq_true, if_false] at h
      obtain ⟨s1, k1, h⟩ := Res.bind_eq_ok.1 h
      obtain ⟨s2, k2, h⟩ := Res.bind_eq_ok.1 h
      obtain ⟨t1, j1, q1⟩ := F.other (fun x e => by cases e) q k1
      have E : writeValue (R.peeking behind) W' (f + 1) r t =
          (writeEntries (R.peeking behind) W' (writeValue (R.peeking behind) W' f) r (ms.map Prod.fst) t1 >>= fun s => W'.step s .endMap) := by
        simp only [writeValue, Reader.peeking, h1, h2, h3, h4, h6, h7, h8, h9, hn, j1, Res.ok_bind, if_true, Bool.false_eq_true, if_false]
      rw [E]
      rcases writeEntries_follow (R := R) (R' := R.peeking behind) F (rec := writeValue R W f) (r := r) (ks := ms.map Prod.fst)
        (rec' := writeValue (R.peeking behind) W' f) (P := R.AllBehind behind)
        (N := fun d => ∃ c x, R.Visits d c ∧ R.Agrees c (.str x) ∧ behind c = .ub)
        (fun _ => rfl) (fun c k s s' t hj hcj q h => by
          have e := hg k hj
          rw [e] at hcj
          injection hcj with hcj
          subst hcj
          obtain ⟨w, hw⟩ := firstVal_isSome.1 hj
          exact ih (hk k w hw) q h) q1 k2 with ⟨t2, j2, q2, p2⟩ | ⟨j2, k, d, b, e, c, x, g1, g2, g3⟩
      · obtain ⟨t3, j3, q3⟩ := F.other (fun x e => by cases e) q2 h
        refine .inl ⟨t3, by rw [j2]; exact j3, q3, fun c x hc hx => ?_⟩
        rcases hc.head with rfl | ⟨ys, i, d, a, _⟩ | ⟨ms', k, d, a, b, e, g⟩
        · have := hv'.kind_unique hx; simp [Val.kind] at this
        · have := hv'.kind_unique a; simp [Val.kind] at this
        · have hl : ms'.map Prod.fst = ms.map Prod.fst := by
            cases a with | map _ _ hn' => rw [hn] at hn'; injection hn' with hn'; exact hn'.symm
          exact p2 k d (hl ▸ b) e c x g hx
      · exact .inr ⟨by rw [j2]; rfl, c, x, .trans (.entry .refl hv' b e) g1, g2, g3⟩

end Zer

namespace Zer.Flex

variable {L : Lib}

/-- A step of the writer, where strings come with the byte behind them (`Reader.peeking`): `String(str, len)` copies it in
place of a terminating NUL. Keys are copied to a `std::string` by `write_value` (translate.hpp:55) and end with a NUL. -/
def stepT (L : Lib) (dbg : Bool) (s : RS) : Ev → Res RS
  | .str t => strView s t (t.length - 1)
  | e => step L dbg s e

/-- `translate<Flex>(src)`, translate.hpp:77-100, where the memory behind the strings of the source is `behind`. -/
def translateView (L : Lib) (dbg : Bool) {ρ : Type} (R : Reader ρ) (behind : ρ → Res UInt8) (fuel : Nat) (r : ρ) : Res Ref := do
  let s ← writeValue (R.peeking behind) ⟨stepT L dbg⟩ fuel r {}
  let b ← finish dbg s
  opn b

/-- Trees as a writer. -/
def treeWriter : Writer Tree := ⟨fun t e => match t.step e with
  | some t' => .ok t'
  | none => .err .logic⟩

theorem treeWriter_step {t t' : Tree} {e : Ev} : treeWriter.step t e = .ok t' ↔ t.step e = some t' := by
  simp only [treeWriter]
  cases t.step e <;> simp

theorem treeWriter_run : ∀ {es : List Ev} {t t' : Tree}, t.run es = some t' → treeWriter.run t es = .ok t'
  | [], t, t', h => by simp only [Tree.run] at h; injection h with h; subst h; rfl
  | e :: es, t, t', h => by
    simp only [Tree.run, Option.bind_eq_bind, Option.bind_eq_some_iff] at h
    obtain ⟨t1, h1, h2⟩ := h
    rw [Writer.run_cons, treeWriter_step.2 h1]
    exact treeWriter_run h2

theorem strView_behind (s : RS) (x : Bytes) (c : UInt8) :
    strView s (x ++ [c]) ((x ++ [c]).length - 1) = .ok (pushBlob s (createBlob s.buf 5 x [c])) := by
  simp [strView]

theorem follow (H : L.Law) (dbg : Bool) : Follow treeWriter ⟨stepT L dbg⟩ (Rel False L) where
  str := by
    intro t t' s x c q h
    rw [treeWriter_step] at h
    refine ⟨_, strView_behind s x c, pushBlob_rel q h (good_str _ _ _ fun h => h.elim) ?_⟩
    simp only [weigh, List.length_cons, List.length_nil]; omega
  other := by
    intro t t' s e he q h
    rw [treeWriter_step] at h
    have : stepT L dbg s e = step L dbg s e := by
      cases e with
      | str x => exact (he x rfl).elim
      | _ => rfl
    show ∃ t', stepT L dbg s e = _ ∧ _
    rw [this]
    exact step_rel H q h

/-- What a translation into Flex does with the bytes behind the strings of its source: it succeeds, with the document of the
source, if they are there, and reads outside an allocation if one is not. -/
theorem translateView_holds (H : L.Law) (dbg : Bool) {ρ : Type} {R : Reader ρ} {behind : ρ → Res UInt8}
    (B : ∀ c, behind c = .ub ∨ ∃ b, behind c = .ok b) {p : Prop} {r : ρ} {v : Val}
    (h : R.AgreesW p r v) (hF : Fits v.firstWins) {f : Nat} (hf : v.depth ≤ f) :
    (R.AllBehind behind r ∧ ∃ v' r', v'.Same v.firstWins ∧ (p → v' = v.firstWins) ∧ translateView L dbg R behind f r = .ok r' ∧
      Holds r' (toDoc L v')) ∨
    ((∃ c x, R.Visits r c ∧ R.Agrees c (.str x) ∧ behind c = .ub) ∧ translateView L dbg R behind f r = .ub) := by
  obtain ⟨v', h1, h2, h3⟩ := writeValue_run v r h
  have he := Tree.eval_emit v'
  simp only [Tree.eval, Option.bind_eq_some_iff] at he
  obtain ⟨t, he, hfin⟩ := he
  have hw := h3 _ treeWriter f hf {}
  rw [treeWriter_run he] at hw
  rcases writeValue_follow (follow H dbg) B h.agrees rel_init hw with ⟨s, k1, k2, k3⟩ | ⟨k1, k2⟩
  · obtain ⟨b, j1, j2, j3⟩ := finish_rel (dbg := dbg) k2 hfin
    obtain ⟨r', j4, j5⟩ := j3 (Nat.lt_of_le_of_lt j2 (fits_same h1 hF))
    refine .inl ⟨k3, v', r', h1, h2, ?_, j5⟩
    simp only [translateView, k1, j1, Res.ok_bind]
    exact j4
  · refine .inr ⟨k2, ?_⟩
    simp only [translateView, k1, Res.ub_bind]

end Zer.Flex
