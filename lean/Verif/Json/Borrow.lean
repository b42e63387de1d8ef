import Verif.Json.Heap

/-!
# The heap model refines the tree model

The document of the heap model is the one `Json/Model.lean` builds from the calls, with the contents keys and blobs had
when they were passed and the contents strings have at `finish()`.
-/

namespace Zer.Json.Heap

section
variable (rd : Slice → Res Bytes) (N : List Node) (P : Nat → Prop)

mutual
/-- Node `i` and everything below are complete (`P`) and spell the value. -/
def Rep : Val → Nat → Prop
  | .null, i => P i ∧ N[i]? = some .null
  | .bool b, i => P i ∧ N[i]? = some (.bool b)
  | .int x, i => P i ∧ N[i]? = some (.int x)
  | .uint n, i => P i ∧ N[i]? = some (.uint n)
  | .dbl d, i => P i ∧ N[i]? = some (.dbl d)
  | .str s, i => P i ∧ (N[i]? = some (.own s) ∨ ∃ t, N[i]? = some (.ref t) ∧ rd t = .ok s)
  | .blob _, _ => False
  | .arr xs, i => P i ∧ ∃ ks, N[i]? = some (.arr ks) ∧ RepList i xs ks
  | .map ms, i => P i ∧ ∃ ks, N[i]? = some (.obj ks) ∧ RepEntries i ms ks
def RepList (i : Nat) : List Val → List Nat → Prop
  | [], ks => ks = []
  | x :: xs, ks => ∃ k ks', ks = k :: ks' ∧ i < k ∧ Rep x k ∧ RepList i xs ks'
def RepEntries (i : Nat) : List (Bytes × Val) → List (Bytes × Nat) → Prop
  | [], ks => ks = []
  | (n, x) :: xs, ks => ∃ k ks', ks = (n, k) :: ks' ∧ i < k ∧ Rep x k ∧ RepEntries i xs ks'
end

/-- The open containers, innermost first. `hole` is the key and the node of the container that is open inside. -/
def Stack (wrote : Bool) (ar : Option Val) (cr : Option Nat) : List Json.Ctx → List Ctx → Option (Bytes × Nat) → Prop
  | [], [], none => (ar = none ∧ cr = none) ∨ wrote = true ∧ ∃ v i, ar = some v ∧ cr = some i ∧ Rep rd N P v i
  | [], [], some (k, i) => wrote = true ∧ ar = none ∧ cr = some i ∧ k = []
  | a :: as, c :: cs, hole => a.isObj = c.isObj ∧ a.pending = c.pending ∧ ¬ P c.node ∧
      (∀ h, hole = some h → c.node < h.2 ∧ (a.isObj = false → h.1 = [])) ∧
      (if a.isObj then ∃ ks, N[c.node]? = some (.obj (ks ++ hole.toList)) ∧ RepEntries rd N P c.node a.ms ks
        else ∃ ks, N[c.node]? = some (.arr (ks ++ hole.toList.map Prod.snd)) ∧ RepList rd N P c.node a.xs ks) ∧
      Stack wrote ar cr as cs (some (a.key, c.node))
  | _, _, _ => False

end

variable {rd : Slice → Res Bytes} {N N' : List Node} {P P' : Nat → Prop}

mutual
theorem Rep.mono (h : ∀ i, P i → P' i ∧ N'[i]? = N[i]?) : ∀ {v : Val} {i : Nat}, Rep rd N P v i → Rep rd N' P' v i
  | .null, i, ⟨h1, h2⟩ => ⟨(h i h1).1, (h i h1).2 ▸ h2⟩
  | .bool _, i, ⟨h1, h2⟩ => ⟨(h i h1).1, (h i h1).2 ▸ h2⟩
  | .int _, i, ⟨h1, h2⟩ => ⟨(h i h1).1, (h i h1).2 ▸ h2⟩
  | .uint _, i, ⟨h1, h2⟩ => ⟨(h i h1).1, (h i h1).2 ▸ h2⟩
  | .dbl _, i, ⟨h1, h2⟩ => ⟨(h i h1).1, (h i h1).2 ▸ h2⟩
  | .str _, i, ⟨h1, h2⟩ => ⟨(h i h1).1, by rw [(h i h1).2]; exact h2⟩
  | .blob _, _, hb => hb.elim
  | .arr xs, i, ⟨h1, ks, h2, h3⟩ => ⟨(h i h1).1, ks, (h i h1).2 ▸ h2, RepList.mono h h3⟩
  | .map ms, i, ⟨h1, ks, h2, h3⟩ => ⟨(h i h1).1, ks, (h i h1).2 ▸ h2, RepEntries.mono h h3⟩
theorem RepList.mono (h : ∀ i, P i → P' i ∧ N'[i]? = N[i]?) : ∀ {xs : List Val} {i : Nat} {ks : List Nat},
    RepList rd N P i xs ks → RepList rd N' P' i xs ks
  | [], _, _, h1 => h1
  | x :: xs, _, _, ⟨k, ks', h1, h2, h3, h4⟩ => ⟨k, ks', h1, h2, Rep.mono h h3, RepList.mono h h4⟩
theorem RepEntries.mono (h : ∀ i, P i → P' i ∧ N'[i]? = N[i]?) : ∀ {xs : List (Bytes × Val)} {i : Nat} {ks : List (Bytes × Nat)},
    RepEntries rd N P i xs ks → RepEntries rd N' P' i xs ks
  | [], _, _, h1 => h1
  | (n, x) :: xs, _, _, ⟨k, ks', h1, h2, h3, h4⟩ => ⟨k, ks', h1, h2, Rep.mono h h3, RepEntries.mono h h4⟩
end

theorem RepList.snoc {v : Val} {k i : Nat} (hk : i < k) (hv : Rep rd N P v k) : ∀ {xs : List Val} {ks : List Nat},
    RepList rd N P i xs ks → RepList rd N P i (xs ++ [v]) (ks ++ [k])
  | [], ks, h => by cases h; exact ⟨k, [], rfl, hk, hv, rfl⟩
  | x :: xs, _, ⟨k', ks', h1, h2, h3, h4⟩ => by subst h1; exact ⟨k', _, rfl, h2, h3, RepList.snoc hk hv h4⟩

theorem RepEntries.snoc {v : Val} {n : Bytes} {k i : Nat} (hk : i < k) (hv : Rep rd N P v k) :
    ∀ {xs : List (Bytes × Val)} {ks : List (Bytes × Nat)}, RepEntries rd N P i xs ks →
      RepEntries rd N P i (xs ++ [(n, v)]) (ks ++ [(n, k)])
  | [], ks, h => by cases h; exact ⟨k, [], rfl, hk, hv, rfl⟩
  | (_, x) :: xs, _, ⟨k', ks', h1, h2, h3, h4⟩ => by subst h1; exact ⟨k', _, rfl, h2, h3, RepEntries.snoc hk hv h4⟩

/-! ## What is written -/

mutual
theorem Rep.tree : ∀ {v : Val} {i : Nat}, Rep rd N P v i → ∀ {f : Nat}, N.length ≤ f + i → Heap.tree rd N f i = .ok v
  | v, i, h, 0, hf => by
    have : N[i]? = none := by simp; omega
    cases v <;> simp [Rep, this] at h
  | .null, i, ⟨_, h⟩, f + 1, _ => by simp [Heap.tree, h]
  | .bool _, i, ⟨_, h⟩, f + 1, _ => by simp [Heap.tree, h]
  | .int _, i, ⟨_, h⟩, f + 1, _ => by simp [Heap.tree, h]
  | .uint _, i, ⟨_, h⟩, f + 1, _ => by simp [Heap.tree, h]
  | .dbl _, i, ⟨_, h⟩, f + 1, _ => by simp [Heap.tree, h]
  | .str _, i, ⟨_, .inl h⟩, f + 1, _ => by simp [Heap.tree, h]
  | .str _, i, ⟨_, .inr ⟨t, h, h'⟩⟩, f + 1, _ => by simp [Heap.tree, h, h']
  | .blob _, _, hb, _, _ => hb.elim
  | .arr xs, i, ⟨_, ks, h, h'⟩, f + 1, hf => by simp [Heap.tree, h, RepList.tree h' (by omega : N.length ≤ f + (i + 1))]
  | .map ms, i, ⟨_, ks, h, h'⟩, f + 1, hf => by
    have := RepEntries.tree h' (by omega : N.length ≤ f + (i + 1))
    simp only [Res.pure_eq] at this
    simp [Heap.tree, h, this]
theorem RepList.tree : ∀ {xs : List Val} {i : Nat} {ks : List Nat}, RepList rd N P i xs ks → ∀ {f : Nat},
    N.length ≤ f + (i + 1) → kids (Heap.tree rd N f) ks = .ok xs
  | [], _, _, h, _, _ => by cases h; rfl
  | x :: xs, i, _, ⟨k, ks', h1, h2, h3, h4⟩, f, hf => by
    subst h1
    simp [kids, Rep.tree h3 (by omega : N.length ≤ f + k), RepList.tree h4 hf]
theorem RepEntries.tree : ∀ {xs : List (Bytes × Val)} {i : Nat} {ks : List (Bytes × Nat)}, RepEntries rd N P i xs ks → ∀ {f : Nat},
    N.length ≤ f + (i + 1) → kids (fun k => do let v ← Heap.tree rd N f k.2; pure (k.1, v)) ks = .ok xs
  | [], _, _, h, _, _ => by cases h; rfl
  | (n, x) :: xs, i, _, ⟨k, ks', h1, h2, h3, h4⟩, f, hf => by
    subst h1
    have := RepEntries.tree h4 hf
    simp only [Res.pure_eq] at this
    simp [kids, Rep.tree h3 (by omega : N.length ≤ f + k), this]
end

/-! ## Steps -/

theorem Stack.mono {wrote : Bool} {ar : Option Val} {cr : Option Nat} (h : ∀ i, P i → P' i ∧ N'[i]? = N[i]?) :
    ∀ {as : List Json.Ctx} {cs : List Ctx} {hole : Option (Bytes × Nat)}, (∀ c ∈ cs, N'[c.node]? = N[c.node]? ∧ (¬ P c.node → ¬ P' c.node)) →
    Stack rd N P wrote ar cr as cs hole → Stack rd N' P' wrote ar cr as cs hole
  | [], [], none, _, hs => by
    rcases hs with hs | ⟨h1, v, i, h2, h3, h4⟩
    · exact .inl hs
    · exact .inr ⟨h1, v, i, h2, h3, h4.mono h⟩
  | [], [], some (k, i), _, hs => hs
  | a :: as, c :: cs, hole, hc, ⟨h1, h2, h3, h4, h5, h6⟩ => by
    refine ⟨h1, h2, (hc c (by simp)).2 h3, h4, ?_, Stack.mono h (fun d hd => hc d (by simp [hd])) h6⟩
    rw [(hc c (by simp)).1]
    cases ha : a.isObj with
    | true =>
      simp only [ha, if_true] at h5 ⊢
      obtain ⟨ks, k1, k2⟩ := h5
      exact ⟨ks, k1, k2.mono h⟩
    | false =>
      simp only [ha, Bool.false_eq_true, if_false] at h5 ⊢
      obtain ⟨ks, k1, k2⟩ := h5
      exact ⟨ks, k1, k2.mono h⟩

/-- Nodes of open containers exist, and are below the node of the container inside. -/
theorem Stack.bound {wrote : Bool} {ar : Option Val} {cr : Option Nat} :
    ∀ {as : List Json.Ctx} {cs : List Ctx} {hole : Option (Bytes × Nat)}, Stack rd N P wrote ar cr as cs hole →
    (∀ c ∈ cs, c.node < N.length ∧ ¬ P c.node) ∧ ∀ h, hole = some h → ∀ c ∈ cs, c.node < h.2
  | [], [], hole, hs => by simp
  | a :: as, c :: cs, hole, ⟨h1, h2, h3, h4, h5, h6⟩ => by
    obtain ⟨i1, i2⟩ := Stack.bound h6
    have hl : c.node < N.length := by
      split at h5
      · obtain ⟨ks, k1, _⟩ := h5; exact (List.getElem?_eq_some_iff.1 k1).1
      · obtain ⟨ks, k1, _⟩ := h5; exact (List.getElem?_eq_some_iff.1 k1).1
    refine ⟨fun d hd => ?_, fun h hh d hd => ?_⟩
    · rcases List.mem_cons.1 hd with rfl | hd
      · exact ⟨hl, h3⟩
      · exact i1 d hd
    · have := (h4 h hh).1
      rcases List.mem_cons.1 hd with rfl | hd
      · exact this
      · have := i2 _ rfl d hd
        simp only at this
        omega

theorem modify_ne {N : List Node} {i j : Nat} {f : Node → Node} (h : i ≠ j) : (N.modify i f)[j]? = N[j]? := by
  simp [List.getElem?_modify, h]

theorem modify_eq {N : List Node} {i : Nat} {f : Node → Node} {n : Node} (h : N[i]? = some n) : (N.modify i f)[i]? = some (f n) := by
  simp [List.getElem?_modify, h]

/-- The states of the two models belong together. -/
structure Inv (rd : Slice → Res Bytes) (s : Json.RS) (S : RS) (hole : Option (Bytes × Nat)) (P : Nat → Prop) : Prop where
  wrote : S.wrote = s.wrote
  stack : Stack rd S.nodes P s.wrote s.root S.root s.st S.st hole
  inside : ∀ i, P i → i < S.nodes.length

theorem inv_init (rd : Slice → Res Bytes) : Inv rd {} {} none (fun _ => False) := ⟨rfl, .inl ⟨rfl, rfl⟩, fun _ h => h.elim⟩

theorem Inv.new {s : Json.RS} {S : RS} {hole : Option (Bytes × Nat)} (h : Inv rd s S hole P) (n : Node) : Inv rd s (S.new n) hole P := by
  have hb := h.stack.bound.1
  have key : ∀ i, i < S.nodes.length → (S.nodes ++ [n])[i]? = S.nodes[i]? := fun i hi => List.getElem?_append_left hi
  refine ⟨h.wrote, ?_, fun i hi => ?_⟩
  · exact Stack.mono (fun i hi => ⟨hi, key i (h.inside i hi)⟩) (fun c hc => ⟨key _ (hb c hc).1, fun x => x⟩) h.stack
  · have := h.inside i hi; simp [RS.new]; omega

theorem new_at (S : RS) (n : Node) : (S.new n).nodes[S.nodes.length]? = some n := by simp [RS.new]

/-- `push_value` does the checks of `slot` and makes a hole for the new node. -/
theorem pushValue_slot {s : Json.RS} {S : RS} (h : Inv rd s S none P) (dbg : Bool) {i : Nat} (hi : ∀ c ∈ S.st, c.node < i) :
    (∃ k s' S', slot dbg s = .ok (k, s') ∧ pushValue dbg S i = .ok S' ∧ Inv rd s' S' (some (k, i)) P ∧
      (∀ j, (∀ c ∈ S.st, c.node ≠ j) → S'.nodes[j]? = S.nodes[j]?) ∧ S'.nodes.length = S.nodes.length ∧
      S'.st.map Ctx.node = S.st.map Ctx.node) ∨
    ∃ e, slot dbg s = .err e ∧ pushValue dbg S i = .err e := by
  obtain ⟨hw, hs, hin⟩ := h
  obtain ⟨root, wrote, st⟩ := s
  obtain ⟨nodes, root', wrote', st'⟩ := S
  dsimp only at hw hs hin hi
  subst hw
  cases st with
  | nil =>
    cases st' with
    | cons => exact hs.elim
    | nil =>
      cases wrote' with
      | true => exact .inr ⟨.logic, rfl, rfl⟩
      | false =>
        rcases hs with ⟨rfl, rfl⟩ | ⟨h, _⟩
        · exact .inl ⟨[], _, _, rfl, rfl, ⟨rfl, ⟨rfl, rfl, rfl, rfl⟩, hin⟩, fun _ _ => rfl, rfl, rfl⟩
        · cases h
  | cons a as =>
    cases st' with
    | nil => exact hs.elim
    | cons c cs =>
      have hbd := hs.bound.1
      obtain ⟨h1, h2, h3, h4, h5, h6⟩ := hs
      have hb6 := h6.bound
      obtain ⟨cobj, cnode, cpend⟩ := c
      dsimp only at *
      subst h2
      have hlt : cnode < i := hi ⟨cobj, cnode, a.pending⟩ (by simp)
      have hne : ∀ c ∈ cs, c.node ≠ cnode := fun c hc => by
        have := hb6.2 _ rfl c hc
        simp only at this
        omega
      have hP : ∀ k j, P j → P j ∧ (nodes.modify cnode (addKid k i))[j]? = nodes[j]? := by
        intro k j hj
        refine ⟨hj, ?_⟩
        exact modify_ne (fun e => h3 (by rw [e]; exact hj))
      have hrest : ∀ k, Stack rd (nodes.modify cnode (addKid k i)) P wrote' root root' as cs (some (a.key, cnode)) := by
        intro k
        refine Stack.mono (hP k) (fun c hc => ⟨?_, fun x => x⟩) h6
        exact modify_ne (fun e => hne c hc e.symm)
      have hoth : ∀ k j, (∀ c ∈ (⟨cobj, cnode, a.pending⟩ : Ctx) :: cs, c.node ≠ j) → (nodes.modify cnode (addKid k i))[j]? = nodes[j]? := by
        intro k j hj
        exact modify_ne (hj ⟨cobj, cnode, a.pending⟩ (by simp))
      cases cobj with
      | true =>
        rw [h1] at h5
        simp only [if_true, Option.toList, List.append_nil] at h5
        obtain ⟨ks, k1, k2⟩ := h5
        by_cases hp : a.pending = []
        · exact .inr ⟨.logic, by simp [slot, h1, hp], by simp [pushValue, hp]⟩
        by_cases hz : dbg = true ∧ (0 : UInt8) ∈ a.pending
        · exact .inr ⟨.logic, by simp only [slot, h1, hp, hz, if_true, if_false, and_self], by simp only [pushValue, hp, hz, if_true, if_false, and_self]⟩
        · refine .inl ⟨cstr a.pending, ⟨root, wrote', { a with pending := [] } :: as⟩,
            ⟨nodes.modify cnode (addKid (cstr a.pending) i), root', wrote', ⟨true, cnode, []⟩ :: cs⟩,
            by simp only [slot, h1, hp, hz, if_true, if_false],
            by simp only [pushValue, hp, hz, if_true, if_false], ⟨rfl, ⟨h1, rfl, h3, ?_, ?_, hrest _⟩, ?_⟩, hoth _, by simp, by simp⟩
          · intro h hh
            cases hh
            exact ⟨hlt, fun h => by rw [h1] at h; cases h⟩
          · simp only [h1, if_true]
            refine ⟨ks, ?_, k2.mono (hP _)⟩
            exact modify_eq k1
          · intro j hj; simpa using hin j hj
      | false =>
        rw [h1] at h5
        simp only [Bool.false_eq_true, if_false, Option.toList, List.map_nil, List.append_nil] at h5
        obtain ⟨ks, k1, k2⟩ := h5
        refine .inl ⟨[], ⟨root, wrote', a :: as⟩,
          ⟨nodes.modify cnode (addKid [] i), root', wrote', ⟨false, cnode, a.pending⟩ :: cs⟩,
          by simp [slot, h1], by simp [pushValue], ⟨rfl, ⟨h1, rfl, h3, ?_, ?_, hrest _⟩, ?_⟩, hoth _, by simp, by simp⟩
        · intro h hh
          cases hh
          exact ⟨hlt, fun _ => rfl⟩
        · rw [if_neg (by simp [h1])]
          refine ⟨ks, ?_, k2.mono (hP _)⟩
          exact modify_eq k1
        · intro j hj; simpa using hin j hj

/-- A hole is filled by a complete value. -/
theorem Inv.fill {s : Json.RS} {S : RS} {k : Bytes} {i : Nat} (h : Inv rd s S (some (k, i)) P) {v : Val} (hv : Rep rd S.nodes P v i) :
    Inv rd (attach s k v) S none P := by
  obtain ⟨hw, hs, hin⟩ := h
  obtain ⟨root, wrote, st⟩ := s
  obtain ⟨nodes, root', wrote', st'⟩ := S
  dsimp only at hw hs hin hv
  subst hw
  cases st with
  | nil =>
    cases st' with
    | cons => exact hs.elim
    | nil =>
      obtain ⟨h1, h2, h3, h4⟩ := hs
      exact ⟨rfl, .inr ⟨h1, v, i, rfl, h3, hv⟩, hin⟩
  | cons a as =>
    cases st' with
    | nil => exact hs.elim
    | cons c cs =>
      obtain ⟨h1, h2, h3, h4, h5, h6⟩ := hs
      obtain ⟨h7, h8⟩ := h4 _ rfl
      refine ⟨rfl, ?_, hin⟩
      cases ha : a.isObj with
      | true =>
        rw [ha] at h5 h1
        simp only [if_true] at h5
        obtain ⟨ks, k1, k2⟩ := h5
        simp only [attach, Ctx.add, ha, if_true]
        refine ⟨by simpa [ha] using h1, h2, h3, by simp, ?_, h6⟩
        simp only [ha, if_true]
        exact ⟨ks ++ [(k, i)], by simpa using k1, k2.snoc h7 hv⟩
      | false =>
        rw [ha] at h5 h1
        simp only [Bool.false_eq_true, if_false] at h5
        obtain ⟨ks, k1, k2⟩ := h5
        simp only [attach, Ctx.add, ha, Bool.false_eq_true, if_false]
        refine ⟨by simpa [ha] using h1, h2, h3, by simp, ?_, h6⟩
        simp only [ha, Bool.false_eq_true, if_false]
        exact ⟨ks ++ [i], by simpa using k1, k2.snoc h7 hv⟩

/-- Closing the innermost container changes no node. -/
theorem Inv.pop {s : Json.RS} {S : RS} (h : Inv rd s S none P) {c : Ctx} {cs : List Ctx} (hc : S.st = c :: cs) :
    ∃ P', Inv rd (Json.pop s) { S with st := cs } none P' := by
  obtain ⟨hw, hs, hin⟩ := h
  obtain ⟨root, wrote, st⟩ := s
  obtain ⟨nodes, root', wrote', st'⟩ := S
  dsimp only at hw hs hin hc
  subst hw hc
  have hbd := hs.bound.1
  cases st with
  | nil => exact hs.elim
  | cons a as =>
    obtain ⟨h1, h2, h3, h4, h5, h6⟩ := hs
    have hb6 := h6.bound
    have hmono : ∀ i, P i → (P i ∨ i = c.node) ∧ nodes[i]? = nodes[i]? := fun i hi => ⟨.inl hi, rfl⟩
    have hI : Inv rd ⟨root, wrote', as⟩ ⟨nodes, root', wrote', cs⟩ (some (a.key, c.node)) (fun i => P i ∨ i = c.node) := by
      refine ⟨rfl, Stack.mono hmono (fun d hd => ⟨rfl, fun hn => ?_⟩) h6, ?_⟩
      · rintro (h | h)
        · exact hn h
        · have := hb6.2 _ rfl d hd
          simp only at this
          omega
      · rintro i (h | rfl)
        · exact hin i h
        · exact (hbd c (by simp)).1
    refine ⟨fun i => P i ∨ i = c.node, ?_⟩
    refine hI.fill ?_
    cases ha : a.isObj with
    | true =>
      rw [ha] at h5
      simp only [if_true, Option.toList, List.append_nil] at h5
      obtain ⟨ks, k1, k2⟩ := h5
      simp only [Json.Ctx.node, ha, if_true]
      exact ⟨.inr rfl, ks, k1, k2.mono hmono⟩
    | false =>
      rw [ha] at h5
      simp only [Bool.false_eq_true, if_false, Option.toList, List.map_nil, List.append_nil] at h5
      obtain ⟨ks, k1, k2⟩ := h5
      simp only [Json.Ctx.node, ha, Bool.false_eq_true, if_false]
      exact ⟨.inr rfl, ks, k1, k2.mono hmono⟩

/-- Outcomes of the two models. -/
def Match (rd : Slice → Res Bytes) (x : Res Json.RS) (y : Res RS) : Prop :=
  (∃ s S P, x = .ok s ∧ y = .ok S ∧ Inv rd s S none P) ∨ ∃ e, x = .err e ∧ y = .err e

theorem Match.bind {x : Res Json.RS} {y : Res RS} (h : Match rd x y) {f : Json.RS → Res Json.RS} {g : RS → Res RS}
    (hfg : ∀ s S P, Inv rd s S none P → Match rd (f s) (g S)) : Match rd (x >>= f) (y >>= g) := by
  rcases h with ⟨s, S, P, rfl, rfl, h⟩ | ⟨e, rfl, rfl⟩
  · exact hfg s S P h
  · exact .inr ⟨e, rfl, rfl⟩

theorem push_match {s : Json.RS} {S : RS} (h : Inv rd s S none P) (dbg : Bool) {n : Node} {v : Val}
    (hv : ∀ (N : List Node) (Q : Nat → Prop) (i : Nat), N[i]? = some n → Q i → Rep rd N Q v i) :
    Match rd (Json.push dbg s v) (push dbg S n) := by
  have hb := h.stack.bound.1
  rcases pushValue_slot (h.new n) dbg (i := S.nodes.length) (fun c hc => (hb c hc).1) with ⟨k, s', S', h1, h2, h3, h4, h5, h6⟩ | ⟨e, h1, h2⟩
  · left
    have hn : S'.nodes[S.nodes.length]? = some n := by
      rw [h4 _ (fun c hc => Nat.ne_of_lt (hb c hc).1), new_at]
    let Q : Nat → Prop := fun i => P i ∨ i = S.nodes.length
    have hI : Inv rd s' S' (some (k, S.nodes.length)) Q := by
      have hb3 := h3.stack.bound
      refine ⟨h3.wrote, Stack.mono (fun i hi => ⟨.inl hi, rfl⟩) (fun c hc => ⟨rfl, fun hn => ?_⟩) h3.stack, ?_⟩
      · rintro (hx | hx)
        · exact hn hx
        · have := hb3.2 _ rfl c hc
          simp only at this
          omega
      · rintro i (hi | rfl)
        · exact h3.inside i hi
        · rw [h5]; simp [RS.new]
    exact ⟨_, S', Q, by simp [Json.push, h1], h2, hI.fill (hv _ _ _ hn (.inr rfl))⟩
  · exact .inr ⟨e, by simp [Json.push, h1], h2⟩

theorem openC_match {s : Json.RS} {S : RS} (h : Inv rd s S none P) (dbg o : Bool) :
    Match rd (Json.openC dbg o s) (openC dbg o S) := by
  have hb := h.stack.bound.1
  rcases pushValue_slot (h.new (if o then .obj [] else .arr [])) dbg (i := S.nodes.length) (fun c hc => (hb c hc).1) with ⟨k, s', S', h1, h2, h3, h4, h5, h6⟩ | ⟨e, h1, h2⟩
  · left
    refine ⟨{ s' with st := { isObj := o, key := k } :: s'.st }, { S' with st := { isObj := o, node := S.nodes.length } :: S'.st }, P,
      by simp [Json.openC, h1], by simp [openC, h2], h3.wrote, ?_, h3.inside⟩
    refine ⟨rfl, rfl, fun hp => ?_, by simp, ?_, h3.stack⟩
    · exact Nat.lt_irrefl _ (h.inside _ hp)
    · have hn : S'.nodes[S.nodes.length]? = some (if o then .obj [] else .arr []) := by
        rw [h4 _ (fun c hc => Nat.ne_of_lt (hb c hc).1), new_at]
      cases o
      · exact ⟨[], hn, rfl⟩
      · exact ⟨[], hn, rfl⟩
  · exact .inr ⟨e, by simp [Json.openC, h1], by simp [openC, h2]⟩

theorem Inv.shape {s : Json.RS} {S : RS} (h : Inv rd s S none P) :
    (s.st = [] ∧ S.st = []) ∨ ∃ a as c cs, s.st = a :: as ∧ S.st = c :: cs ∧ a.isObj = c.isObj ∧ a.pending = c.pending := by
  have hs := h.stack
  generalize s.st = x at *
  generalize S.st = y at *
  cases x with
  | nil => cases y with
    | nil => exact .inl ⟨rfl, rfl⟩
    | cons => exact hs.elim
  | cons a as => cases y with
    | nil => exact hs.elim
    | cons c cs => exact .inr ⟨a, as, c, cs, rfl, rfl, hs.1, hs.2.1⟩

theorem endArr_match {s : Json.RS} {S : RS} (h : Inv rd s S none P) : Match rd (Json.endArr s) (endArr S) := by
  rcases h.shape with ⟨h1, h2⟩ | ⟨a, as, c, cs, h1, h2, h3, h4⟩
  · exact .inr ⟨.logic, by simp [Json.endArr, h1], by simp [endArr, h2]⟩
  · cases ho : c.isObj with
    | true => exact .inr ⟨.logic, by simp [Json.endArr, h1, h3, ho], by simp [endArr, h2, ho]⟩
    | false =>
      obtain ⟨P', hp⟩ := h.pop h2
      exact .inl ⟨_, _, P', by simp [Json.endArr, h1, h3, ho], by simp [endArr, h2, ho], hp⟩

theorem endMap_match {s : Json.RS} {S : RS} (h : Inv rd s S none P) : Match rd (Json.endMap s) (endMap S) := by
  rcases h.shape with ⟨h1, h2⟩ | ⟨a, as, c, cs, h1, h2, h3, h4⟩
  · exact .inr ⟨.logic, by simp [Json.endMap, h1], by simp [endMap, h2]⟩
  · cases ho : c.isObj with
    | false => exact .inr ⟨.logic, by simp [Json.endMap, h1, h3, ho], by simp [endMap, h2, ho]⟩
    | true =>
      by_cases hp : c.pending = []
      · obtain ⟨P', hI⟩ := h.pop h2
        exact .inl ⟨_, _, P', by simp [Json.endMap, h1, h3, ho, h4, hp], by simp [endMap, h2, ho, hp], hI⟩
      · exact .inr ⟨.logic, by simp [Json.endMap, h1, h3, ho, h4, hp], by simp [endMap, h2, ho, hp]⟩

theorem key_match {s : Json.RS} {S : RS} (h : Inv rd s S none P) {m0 : Mem} {k : Slice} {b : Bytes} (hk : m0.read k = .ok b) :
    Match rd (Json.key s b) (key m0 S k) := by
  obtain ⟨hw, hs, hin⟩ := h
  obtain ⟨root, wrote, st⟩ := s
  obtain ⟨nodes, root', wrote', st'⟩ := S
  dsimp only at hw hs hin
  subst hw
  cases st with
  | nil => cases st' with
    | nil => exact .inr ⟨.logic, rfl, rfl⟩
    | cons => exact hs.elim
  | cons a as => cases st' with
    | nil => exact hs.elim
    | cons c cs =>
      obtain ⟨h1, h2, h3, h4, h5, h6⟩ := hs
      cases ho : c.isObj with
      | false => exact .inr ⟨.logic, by simp [Json.key, h1, ho], by simp [key, ho]⟩
      | true =>
        by_cases hp : c.pending = []
        · refine .inl ⟨⟨root, wrote', { a with pending := b } :: as⟩, ⟨nodes, root', wrote', { c with pending := b } :: cs⟩, P,
            by simp [Json.key, h1, ho, h2, hp], by simp [key, ho, hp, hk], rfl, ⟨h1, rfl, h3, by simp, h5, h6⟩, hin⟩
        · exact .inr ⟨.logic, by simp [Json.key, h1, ho, h2, hp], by simp [key, ho, hp]⟩

/-- What a call says: keys and blobs with their contents in `m0`, strings with their contents in `m`. -/
def Says (m0 : Mem) (rd : Slice → Res Bytes) : Call → Ev → Prop
  | .null, e => e = .null
  | .bool b, e => e = .bool b
  | .int i, e => e = .int i
  | .uint n, e => e = .uint n
  | .dbl d, e => e = .dbl d
  | .str t, e => ∃ b, rd t = .ok b ∧ e = .str b
  | .blob t, e => ∃ b, m0.read t = .ok b ∧ e = .blob b
  | .key t, e => ∃ b, m0.read t = .ok b ∧ e = .key b
  | .beginArr n, e => e = .beginArr n
  | .endArr, e => e = .endArr
  | .beginMap n, e => e = .beginMap n
  | .endMap, e => e = .endMap

theorem step_match {s : Json.RS} {S : RS} (h : Inv rd s S none P) (dbg : Bool) {m0 : Mem} {c : Call} {e : Ev} (hc : Says m0 rd c e) :
    Match rd (Json.step dbg s e) (step dbg m0 S c) := by
  cases c with
  | null => cases hc; exact push_match h dbg (fun N Q i h1 h2 => ⟨h2, h1⟩)
  | bool b => cases hc; exact push_match h dbg (fun N Q i h1 h2 => ⟨h2, h1⟩)
  | int b => cases hc; exact push_match h dbg (fun N Q i h1 h2 => ⟨h2, h1⟩)
  | uint b => cases hc; exact push_match h dbg (fun N Q i h1 h2 => ⟨h2, h1⟩)
  | dbl b => cases hc; exact push_match h dbg (fun N Q i h1 h2 => ⟨h2, h1⟩)
  | str t =>
    obtain ⟨b, hb, rfl⟩ := hc
    exact push_match h dbg (fun N Q i h1 h2 => ⟨h2, .inr ⟨t, h1, hb⟩⟩)
  | blob t =>
    obtain ⟨b, hb, rfl⟩ := hc
    simp only [step, binary, hb, Res.ok_bind, Json.step, Json.binary]
    have own : ∀ {s : Json.RS} {S : RS} {P : Nat → Prop} (x : Bytes), Inv rd s S none P → Match rd (Json.push dbg s (.str x)) (push dbg S (.own x)) :=
      fun x h => push_match h dbg (fun N Q i h1 h2 => ⟨h2, .inl h1⟩)
    exact (openC_match h dbg false).bind fun s S P h => (own _ h).bind fun s S P h => (own _ h).bind fun s S P h =>
      (own _ h).bind fun s S P h => endArr_match h
  | key t =>
    obtain ⟨b, hb, rfl⟩ := hc
    exact key_match h hb
  | beginArr n => cases hc; exact openC_match h dbg false
  | endArr => cases hc; exact endArr_match h
  | beginMap n => cases hc; exact openC_match h dbg true
  | endMap => cases hc; exact endMap_match h

/-- `SaysAll rd h es`: the calls of the history, one by one. -/
def SaysAll (rd : Slice → Res Bytes) : List (Mem × Call) → List Ev → Prop
  | [], es => es = []
  | (m0, c) :: h, es => ∃ e es', Says m0 rd c e ∧ SaysAll rd h es' ∧ es = e :: es'

theorem run_match (dbg : Bool) : ∀ {h : List (Mem × Call)} {es : List Ev} {s : Json.RS} {S : RS} {P : Nat → Prop},
    Inv rd s S none P → SaysAll rd h es → Match rd ((writer dbg).run s es) (run dbg S h)
  | [], _, s, S, P, hI, hc => by cases hc; exact .inl ⟨s, S, P, rfl, rfl, hI⟩
  | (m0, c) :: h, _, s, S, P, hI, ⟨e, es', h1, h2, h3⟩ => by
    subst h3
    exact (step_match hI dbg h1).bind fun s S P hI => run_match dbg hI h2

theorem Inv.doc : ∀ (n : Nat) {s : Json.RS} {S : RS} {P : Nat → Prop}, Inv rd s S none P → s.st.length = n →
    S.st.length = n ∧ Heap.doc rd S =
      .ok ((popN n s).root.getD .null)
  | 0, s, S, P, h, hn => by
    rcases h.shape with ⟨h1, h2⟩ | ⟨a, as, c, cs, h1, h2, _⟩
    · have hs := h.stack
      rw [h1, h2] at hs
      refine ⟨by simp [h2], ?_⟩
      rcases hs with ⟨h3, h4⟩ | ⟨_, v, i, h3, h4, h5⟩
      · simp [Heap.doc, h3, h4, popN]
      · simp only [Heap.doc, h4, popN, h3, Option.getD_some]
        exact h5.tree (by omega)
    · simp [h1] at hn
  | n + 1, s, S, P, h, hn => by
    rcases h.shape with ⟨h1, h2⟩ | ⟨a, as, c, cs, h1, h2, _⟩
    · simp [h1] at hn
    · obtain ⟨P', hI⟩ := h.pop h2
      have hl : (Json.pop s).st.length = n := by
        simp only [Json.pop, h1, attach]
        rw [h1] at hn
        cases as <;> simp_all
      obtain ⟨h3, h4⟩ := Inv.doc n hI hl
      exact ⟨by simp [h2]; simpa using h3, h4⟩

/-- The heap model and the tree model build the same document. -/
theorem doc_refine (dbg : Bool) {h : List (Mem × Call)} {es : List Ev} (hs : SaysAll rd h es) :
    (run dbg {} h >>= doc rd) = ((writer dbg).run {} es >>= fun s => .ok (Json.doc s)) := by
  rcases run_match dbg (inv_init rd) hs with ⟨s, S, P, h1, h2, hI⟩ | ⟨e, h1, h2⟩
  · rw [h1, h2]
    exact (hI.doc s.st.length rfl).2
  · rw [h1, h2]; rfl

/-- The heap model and the tree model produce the same. -/
theorem refine (T : Text) (dbg : Bool) {m : Mem} {h : List (Mem × Call)} {es : List Ev} (hs : SaysAll m.read h es) :
    (run dbg {} h >>= finish T m) = ((writer dbg).run {} es >>= Json.finish T) := by
  have := doc_refine dbg hs
  rcases run_match dbg (inv_init _) hs with ⟨s, S, P, h1, h2, hI⟩ | ⟨e, h1, h2⟩
  · rw [h1, h2] at this ⊢
    simp only [Res.ok_bind] at this
    simp only [Res.ok_bind, finish, Json.finish, this]
    cases T.print (Json.doc s) <;> rfl
  · rw [h1, h2]; rfl

end Zer.Json.Heap
