import Verif.Dyn.Calls

/-!
# Lifetimes of the arguments of builders

`zvec` and `zmap` keep `std::forward_as_tuple(...)` of their arguments (zbuilders.hpp:59, 94): a tuple
of references. An argument that is a temporary (a literal number, a `std::string("x")`, a nested builder
expression) is destroyed at the end of the full expression in which the builder was made.
-/

namespace Zer.Dyn

mutual
/-- A builder object. -/
inductive Bld where
  | zvec (args : List Ref)
  | zmap (args : List (Bytes × Ref))
/-- A reference held by a builder: to an object that is no builder, or to a builder; `temp` says that
the object is a temporary of the full expression that made the builder. -/
inductive Ref where
  | val (temp : Bool) (v : Src)
  | bld (temp : Bool) (b : Bld)
end

mutual
/-- `b(w)`, zbuilders.hpp:59-79, 94-121. `alive` says that the full expression that made the builder
has not ended; objects that are not temporaries are taken to be alive. -/
def Bld.call {σ : Type} (alive : Bool) (W : Writer σ) (s : σ) : Bld → Res σ
  | .zvec args => do
    let s ← W.step s (.beginArr args.length)
    let s ← Bld.callList alive W s args
    W.step s .endArr
  | .zmap args => do
    let s ← W.step s (.beginMap args.length)
    let s ← Bld.callEntries alive W s args
    W.step s .endMap
/-- Access to a destroyed object is undefined. -/
def Ref.call {σ : Type} (alive : Bool) (W : Writer σ) (s : σ) : Ref → Res σ
  | .val temp v => if temp && !alive then .ub else ser W s v
  | .bld temp b => if temp && !alive then .ub else b.call alive W s
def Bld.callList {σ : Type} (alive : Bool) (W : Writer σ) (s : σ) : List Ref → Res σ
  | [] => .ok s
  | r :: rs => r.call alive W s >>= fun s => Bld.callList alive W s rs
def Bld.callEntries {σ : Type} (alive : Bool) (W : Writer σ) (s : σ) : List (Bytes × Ref) → Res σ
  | [] => .ok s
  | (k, r) :: rs => do
    let s ← W.step s (.key k)
    let s ← r.call alive W s
    Bld.callEntries alive W s rs
end

mutual
/-- The expression that made the builder, as an argument of `serialize`. -/
def Bld.src : Bld → Src
  | .zvec args => .zvec (Bld.srcList args)
  | .zmap args => .zmap (Bld.srcEntries args)
def Ref.src : Ref → Src
  | .val _ v => v
  | .bld _ b => b.src
def Bld.srcList : List Ref → List Src
  | [] => []
  | r :: rs => r.src :: Bld.srcList rs
def Bld.srcEntries : List (Bytes × Ref) → List (Bytes × Src)
  | [] => []
  | (k, r) :: rs => (k, r.src) :: Bld.srcEntries rs
end

mutual
/-- Some temporary is among the arguments, at any depth. -/
def Bld.HasTemp : Bld → Prop
  | .zvec args => Bld.hasTempList args
  | .zmap args => Bld.hasTempEntries args
def Ref.HasTemp : Ref → Prop
  | .val temp _ => temp = true
  | .bld temp b => temp = true ∨ b.HasTemp
def Bld.hasTempList : List Ref → Prop
  | [] => False
  | r :: rs => r.HasTemp ∨ Bld.hasTempList rs
def Bld.hasTempEntries : List (Bytes × Ref) → Prop
  | [] => False
  | (_, r) :: rs => r.HasTemp ∨ Bld.hasTempEntries rs
end

theorem srcList_length : ∀ rs : List Ref, (Bld.srcList rs).length = rs.length
  | [] => rfl
  | _ :: rs => by simp [Bld.srcList, srcList_length rs]
theorem srcEntries_length : ∀ rs : List (Bytes × Ref), (Bld.srcEntries rs).length = rs.length
  | [] => rfl
  | (_, _) :: rs => by simp [Bld.srcEntries, srcEntries_length rs]

mutual
/-- While everything is alive, a builder does what `ser` does. -/
theorem Bld.call_eq {σ : Type} {alive : Bool} (W : Writer σ) (s : σ) : ∀ b : Bld,
    (alive = true ∨ ¬ b.HasTemp) → b.call alive W s = ser W s b.src
  | .zvec args, h => by
    simp only [Bld.call, Bld.src, ser, srcList_length]
    exact congrArg _ (funext fun s => by rw [Bld.callList_eq W s args h])
  | .zmap args, h => by
    simp only [Bld.call, Bld.src, ser, srcEntries_length]
    exact congrArg _ (funext fun s => by rw [Bld.callEntries_eq W s args h])
theorem Ref.call_eq {σ : Type} {alive : Bool} (W : Writer σ) (s : σ) : ∀ r : Ref,
    (alive = true ∨ ¬ r.HasTemp) → r.call alive W s = ser W s r.src
  | .val temp v, h => by
    have : (temp && !alive) = false := by
      rcases h with h | h
      · simp [h]
      · have : temp = false := by simpa [Ref.HasTemp] using h
        simp [this]
    simp only [Ref.call, this, Ref.src]; rfl
  | .bld temp b, h => by
    have : (temp && !alive) = false := by
      rcases h with h | h
      · simp [h]
      · have : temp = false := by
          cases temp
          · rfl
          · exact absurd (Or.inl rfl) h
        simp [this]
    simp only [Ref.call, this, Ref.src]
    exact Bld.call_eq W s b (h.imp id fun h hb => h (.inr hb))
theorem Bld.callList_eq {σ : Type} {alive : Bool} (W : Writer σ) (s : σ) : ∀ rs : List Ref,
    (alive = true ∨ ¬ Bld.hasTempList rs) → Bld.callList alive W s rs = serList W s (Bld.srcList rs)
  | [], _ => rfl
  | r :: rs, h => by
    simp only [Bld.callList, Bld.srcList, serList]
    rw [Ref.call_eq W s r (h.imp id fun h hb => h (.inl hb))]
    exact congrArg _ (funext fun s => Bld.callList_eq W s rs (h.imp id fun h hb => h (.inr hb)))
theorem Bld.callEntries_eq {σ : Type} {alive : Bool} (W : Writer σ) (s : σ) : ∀ rs : List (Bytes × Ref),
    (alive = true ∨ ¬ Bld.hasTempEntries rs) →
    Bld.callEntries alive W s rs = serEntries W s (Bld.srcEntries rs)
  | [], _ => rfl
  | (k, r) :: rs, h => by
    simp only [Bld.callEntries, Bld.srcEntries, serEntries]
    refine congrArg _ (funext fun s => ?_)
    rw [Ref.call_eq W s r (h.imp id fun h hb => h (.inl hb))]
    exact congrArg _ (funext fun s => Bld.callEntries_eq W s rs (h.imp id fun h hb => h (.inr hb)))
end

mutual
/-- After the full expression has ended, a call that meets a temporary does not return. -/
theorem Bld.call_dead {σ : Type} (W : Writer σ) (s : σ) : ∀ b : Bld, b.HasTemp → ∀ s', b.call false W s ≠ .ok s'
  | .zvec args, h, s', e => by
    simp only [Bld.call] at e
    obtain ⟨_, _, e⟩ := Res.bind_eq_ok.1 e
    obtain ⟨_, e, _⟩ := Res.bind_eq_ok.1 e
    exact Bld.callList_dead W _ args h _ e
  | .zmap args, h, s', e => by
    simp only [Bld.call] at e
    obtain ⟨_, _, e⟩ := Res.bind_eq_ok.1 e
    obtain ⟨_, e, _⟩ := Res.bind_eq_ok.1 e
    exact Bld.callEntries_dead W _ args h _ e
theorem Ref.call_dead {σ : Type} (W : Writer σ) (s : σ) : ∀ r : Ref, r.HasTemp → ∀ s', r.call false W s ≠ .ok s'
  | .val temp v, h, s', e => by
    have : temp = true := h
    subst this; simp [Ref.call] at e
  | .bld true b, h, s', e => by simp [Ref.call] at e
  | .bld false b, h, s', e => by
    rcases h with h | h
    · cases h
    · simp only [Ref.call, Bool.false_and] at e
      exact Bld.call_dead W s b h s' e
theorem Bld.callList_dead {σ : Type} (W : Writer σ) (s : σ) : ∀ rs : List Ref, Bld.hasTempList rs →
    ∀ s', Bld.callList false W s rs ≠ .ok s'
  | r :: rs, h, s', e => by
    simp only [Bld.callList] at e
    obtain ⟨s1, e1, e2⟩ := Res.bind_eq_ok.1 e
    rcases h with h | h
    · exact Ref.call_dead W s r h _ e1
    · exact Bld.callList_dead W s1 rs h _ e2
theorem Bld.callEntries_dead {σ : Type} (W : Writer σ) (s : σ) : ∀ rs : List (Bytes × Ref),
    Bld.hasTempEntries rs → ∀ s', Bld.callEntries false W s rs ≠ .ok s'
  | (_, r) :: rs, h, s', e => by
    simp only [Bld.callEntries] at e
    obtain ⟨s0, _, e⟩ := Res.bind_eq_ok.1 e
    obtain ⟨s1, e1, e2⟩ := Res.bind_eq_ok.1 e
    rcases h with h | h
    · exact Ref.call_dead W s0 r h _ e1
    · exact Bld.callEntries_dead W s1 rs h _ e2
end

end Zer.Dyn
