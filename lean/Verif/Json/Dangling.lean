import Verif.Json.Borrow
import Verif.Props.Base64

/-!
# A string that is gone when the document is written

Every string passed to the writer is read by `finish()`: none is dropped on the way into the document.
-/

namespace Zer.Json

/-! ## Strings of the document -/

/-- `x` is no string of the document. -/
def Free (x : Bytes) (v : Val) : Prop := v.Each (fun v => v ≠ .str x) (fun _ => True)

/-- `x` is no string of the root or of an open container. -/
def FreeRS (x : Bytes) (s : RS) : Prop := (∀ v, s.root = some v → Free x v) ∧ ∀ c ∈ s.st, Free x c.node

/-- While a container is open there is no complete root. -/
def Good (s : RS) : Prop := (s.wrote = false → s.root = none) ∧ (s.st ≠ [] → s.root = none ∧ s.wrote = true)

theorem free_add (x : Bytes) (c : Ctx) (k : Bytes) (v : Val) : Free x (c.add k v).node ↔ Free x c.node ∧ Free x v := by
  unfold Ctx.add Ctx.node Free
  cases h : c.isObj <;> simp [h, Val.Each, Val.eachList_iff, Val.eachEntries_iff, or_imp, forall_and]

theorem free_attach {x : Bytes} {s : RS} (h : s.root = none) (k : Bytes) (v : Val) :
    FreeRS x (attach s k v) ↔ FreeRS x s ∧ Free x v := by
  unfold attach FreeRS
  cases hs : s.st with
  | nil => simp [h]
  | cons c cs => simp [h, free_add, and_assoc, and_comm, and_left_comm]

theorem good_attach {s : RS} (h : s.root = none) (hw : s.wrote = true) (k : Bytes) (v : Val) : Good (attach s k v) := by
  unfold attach Good
  cases hs : s.st <;> simp [h, hw]

theorem slot_free {x : Bytes} {dbg : Bool} {s s' : RS} {k : Bytes} (hg : Good s) (h : slot dbg s = .ok (k, s')) :
    s'.root = none ∧ s'.wrote = true ∧ (FreeRS x s' ↔ FreeRS x s) := by
  unfold slot at h
  unfold Good at hg
  cases hs : s.st with
  | nil =>
    rw [hs] at h
    cases hw : s.wrote with
    | true => simp [hw] at h
    | false =>
      simp [hw] at h
      obtain ⟨-, rfl⟩ := h
      exact ⟨hg.1 hw, rfl, by simp [FreeRS, hs]⟩
  | cons c cs =>
    rw [hs] at h
    obtain ⟨g1, g2⟩ := hg.2 (by simp [hs])
    simp only at h
    split at h
    · split at h
      · cases h
      · split at h
        · cases h
        · simp at h
          obtain ⟨-, rfl⟩ := h
          refine ⟨g1, g2, ?_⟩
          simp [FreeRS, hs, Ctx.node]
    · simp at h
      obtain ⟨-, rfl⟩ := h
      exact ⟨g1, g2, Iff.rfl⟩

/-- What a step does to the strings. -/
def Adds (x : Bytes) (p : Prop) (s s' : RS) : Prop := Good s' ∧ (FreeRS x s' ↔ FreeRS x s ∧ p)

theorem push_free {x : Bytes} {dbg : Bool} {s s' : RS} {v : Val} (hg : Good s) (h : push dbg s v = .ok s') :
    Adds x (Free x v) s s' := by
  unfold push at h
  rw [Res.bind_eq_ok] at h
  obtain ⟨⟨k, s1⟩, h1, h2⟩ := h
  cases h2
  obtain ⟨a, b, c⟩ := slot_free (x := x) hg h1
  exact ⟨good_attach a b k v, by rw [free_attach a, c]⟩

theorem openC_free {x : Bytes} {dbg o : Bool} {s s' : RS} (hg : Good s) (h : openC dbg o s = .ok s') : Adds x True s s' := by
  unfold openC at h
  rw [Res.bind_eq_ok] at h
  obtain ⟨⟨k, s1⟩, h1, h2⟩ := h
  cases h2
  obtain ⟨a, b, c⟩ := slot_free (x := x) hg h1
  refine ⟨⟨fun h => by simp [b] at h, fun _ => ⟨a, b⟩⟩, ?_⟩
  rw [and_true, ← c]
  unfold FreeRS
  have : Free x (Ctx.node { isObj := o, key := k }) := by
    cases o <;> simp [Ctx.node, Free, Val.Each, Val.eachList_iff, Val.eachEntries_iff]
  simp [this]

theorem pop_free {x : Bytes} {s : RS} (hg : Good s) : Adds x True s (pop s) := by
  unfold pop
  cases hs : s.st with
  | nil => exact ⟨hg, by simp⟩
  | cons c cs =>
    obtain ⟨g1, g2⟩ := hg.2 (by simp [hs])
    refine ⟨good_attach (s := { s with st := cs }) g1 g2 _ _, ?_⟩
    simp only
    rw [free_attach (s := { s with st := cs }) g1]
    simp [FreeRS, hs, and_assoc, and_comm, and_left_comm]

theorem endArr_free {x : Bytes} {s s' : RS} (hg : Good s) (h : endArr s = .ok s') : Adds x True s s' := by
  unfold endArr at h
  split at h
  · cases h
  · split at h
    · cases h
    · cases h; exact pop_free hg

theorem endMap_free {x : Bytes} {s s' : RS} (hg : Good s) (h : endMap s = .ok s') : Adds x True s s' := by
  unfold endMap at h
  split at h
  · cases h
  · split at h
    · split at h
      · cases h; exact pop_free hg
      · cases h
    · cases h

theorem key_free {x k : Bytes} {s s' : RS} (hg : Good s) (h : key s k = .ok s') : Adds x True s s' := by
  unfold key at h
  split at h
  · cases h
  · rename_i c cs hs
    split at h
    · split at h
      · cases h
        refine ⟨⟨hg.1, fun _ => hg.2 (by simp [hs])⟩, ?_⟩
        simp [FreeRS, hs, Ctx.node]
      · cases h
    · cases h

/-- Texts that are made by `binary` have even length or are the tag. -/
theorem encode_ne (b : Bytes) : Base64.encode b ≠ [1] := by
  intro h
  obtain ⟨hl, _⟩ := Base64.c14_base64_shape b
  rw [h] at hl
  simp at hl
  omega

theorem step_free {dbg : Bool} {s s' : RS} {e : Ev} (hg : Good s) (h : step dbg s e = .ok s') : Adds [1] (e ≠ .str [1]) s s' := by
  have triv : ∀ {p : Prop} {s s' : RS}, p → Adds [1] True s s' → Adds [1] p s s' := fun hp ⟨a, b⟩ => ⟨a, by simp [b, hp]⟩
  have sc : ∀ {v : Val}, (Free [1] v ↔ e ≠ .str [1]) → push dbg s v = .ok s' → Adds [1] (e ≠ .str [1]) s s' :=
    fun hv h => by rw [← hv]; exact push_free hg h
  cases e with
  | null => exact sc (by simp [Free, Val.Each]) h
  | bool b => exact sc (by simp [Free, Val.Each]) h
  | int b => exact sc (by simp [Free, Val.Each]) h
  | uint b => exact sc (by simp [Free, Val.Each]) h
  | dbl b => exact sc (by simp [Free, Val.Each]) h
  | str b => exact sc (by simp [Free, Val.Each]) h
  | blob b =>
    refine triv (by simp) ?_
    simp only [step, binary, Res.bind_eq_ok] at h
    obtain ⟨s1, h1, s2, h2, s3, h3, s4, h4, h5⟩ := h
    obtain ⟨g1, f1⟩ := openC_free (x := [1]) hg h1
    obtain ⟨g2, f2⟩ := push_free (x := [1]) g1 h2
    obtain ⟨g3, f3⟩ := push_free (x := [1]) g2 h3
    obtain ⟨g4, f4⟩ := push_free (x := [1]) g3 h4
    obtain ⟨g5, f5⟩ := endArr_free (x := [1]) g4 h5
    have q : ∀ y : Bytes, y ≠ [1] → (Free [1] (.str y) ↔ True) := fun y hy => by simp [Free, Val.Each, hy]
    rw [q _ (by decide)] at f2 f4
    rw [q _ (encode_ne b)] at f3
    exact ⟨g5, by rw [f5, f4, f3, f2, f1]; simp⟩
  | key k => exact triv (by simp) (key_free hg h)
  | beginArr n => exact triv (by simp) (openC_free hg h)
  | endArr => exact triv (by simp) (endArr_free hg h)
  | beginMap n => exact triv (by simp) (openC_free hg h)
  | endMap => exact triv (by simp) (endMap_free hg h)

theorem run_free {dbg : Bool} : ∀ {es : List Ev} {s s' : RS}, Good s → (writer dbg).run s es = .ok s' →
    Adds [1] (∀ e ∈ es, e ≠ .str [1]) s s'
  | [], s, s', hg, h => by cases h; exact ⟨hg, by simp⟩
  | e :: es, s, s', hg, h => by
    rw [Writer.run, Res.bind_eq_ok] at h
    obtain ⟨s1, h1, h2⟩ := h
    obtain ⟨g1, f1⟩ := step_free hg h1
    obtain ⟨g2, f2⟩ := run_free g1 h2
    exact ⟨g2, by rw [f2, f1]; simp [and_assoc]⟩

theorem popN_free (x : Bytes) : ∀ {n : Nat} {s : RS}, s.st.length = n → Good s → (popN n s).st = [] ∧ (FreeRS x (popN n s) ↔ FreeRS x s)
  | 0, s, hn, hg => ⟨List.eq_nil_of_length_eq_zero hn, Iff.rfl⟩
  | n + 1, s, hn, hg => by
    obtain ⟨g, f⟩ := pop_free (x := x) hg
    have hl : (pop s).st.length = n := by
      unfold pop
      cases hs : s.st with
      | nil => simp [hs] at hn
      | cons c cs =>
        simp [hs] at hn
        unfold attach
        cases hc : cs <;> simp [hc] at hn ⊢ <;> omega
    obtain ⟨h1, h2⟩ := popN_free x hl g
    exact ⟨h1, by rw [popN, h2, f, and_true]⟩

theorem doc_free (x : Bytes) {s : RS} (hg : Good s) : Free x (doc s) ↔ FreeRS x s := by
  obtain ⟨h1, h2⟩ := popN_free x rfl hg
  rw [← h2, doc]
  unfold FreeRS
  rw [h1]
  cases (popN s.st.length s).root <;> simp [Free, Val.Each]

namespace Heap

/-! ## Reading less -/

theorem kids_mono {α β : Type} {g g' : α → Res β} (h : ∀ a b, g a = .ok b → g' a = .ok b) : ∀ {ks : List α} {vs : List β},
    kids g ks = .ok vs → kids g' ks = .ok vs
  | [], _, e => e
  | k :: ks, _, e => by
    simp only [kids, Res.bind_eq_ok, Res.pure_eq] at e
    obtain ⟨v, h1, vs, h2, h3⟩ := e
    cases h3
    simp [kids, h _ _ h1, kids_mono h h2]

/-- Where more can be read the same document is seen. -/
theorem tree_mono {rd rd' : Slice → Res Bytes} (h : ∀ t b, rd t = .ok b → rd' t = .ok b) (N : List Node) :
    ∀ (f i : Nat) (v : Val), tree rd N f i = .ok v → tree rd' N f i = .ok v
  | 0, _, _, e => by cases e
  | f + 1, i, v, e => by
    unfold tree at e ⊢
    split at e
    case h_8 s hs =>
      simp only [Res.bind_eq_ok, Res.pure_eq] at e
      obtain ⟨b, h1, h2⟩ := e
      simp [h _ _ h1, h2]
    case h_9 ks hs =>
      simp only [Res.bind_eq_ok, Res.pure_eq] at e
      obtain ⟨vs, h1, h2⟩ := e
      simp [kids_mono (tree_mono h N f) h1, h2]
    case h_10 ks hs =>
      rw [Res.bind_eq_ok] at e
      obtain ⟨vs, h1, h2⟩ := e
      rw [kids_mono (g' := fun k => do let v ← tree rd' N f k.2; pure (k.1, v)) ?_ h1]
      · exact h2
      · intro a b hb
        rw [Res.bind_eq_ok] at hb ⊢
        obtain ⟨v, k1, k2⟩ := hb
        exact ⟨v, tree_mono h N f _ _ k1, k2⟩
    all_goals exact e

theorem kids_dom {α β : Type} {g g' : α → Res β} (h : ∀ a, (∃ b, g a = .ok b) → ∃ b, g' a = .ok b) : ∀ {ks : List α},
    (∃ vs, kids g ks = .ok vs) → ∃ vs, kids g' ks = .ok vs
  | [], _ => ⟨[], rfl⟩
  | k :: ks, e => by
    simp only [kids, Res.bind_eq_ok, Res.pure_eq] at e
    obtain ⟨_, v, h1, vs, h2, h3⟩ := e
    obtain ⟨v', q⟩ := h _ ⟨v, h1⟩
    obtain ⟨vs', q'⟩ := kids_dom h ⟨vs, h2⟩
    exact ⟨v' :: vs', by simp [kids, q, q']⟩

/-- Whether a document is seen depends on which views can be read. -/
theorem tree_dom {rd rd' : Slice → Res Bytes} (h : ∀ t, (∃ b, rd t = .ok b) → ∃ b, rd' t = .ok b) (N : List Node) :
    ∀ (f i : Nat), (∃ v, tree rd N f i = .ok v) → ∃ v, tree rd' N f i = .ok v
  | 0, _, ⟨_, e⟩ => by cases e
  | f + 1, i, ⟨v, e⟩ => by
    unfold tree at e ⊢
    split at e
    case h_8 s hs =>
      rw [Res.bind_eq_ok] at e
      obtain ⟨b, h1, _⟩ := e
      obtain ⟨b', q⟩ := h s ⟨b, h1⟩
      exact ⟨_, by rw [q]; rfl⟩
    case h_9 ks hs =>
      rw [Res.bind_eq_ok] at e
      obtain ⟨vs, h1, h2⟩ := e
      obtain ⟨vs', q⟩ := kids_dom (tree_dom h N f) ⟨vs, h1⟩
      exact ⟨_, by rw [q]; rfl⟩
    case h_10 ks hs =>
      rw [Res.bind_eq_ok] at e
      obtain ⟨vs, h1, h2⟩ := e
      have : ∀ k : Bytes × Nat, (∃ b, (do let v ← tree rd N f k.2; pure (k.1, v) : Res (Bytes × Val)) = .ok b) →
          ∃ b, (do let v ← tree rd' N f k.2; pure (k.1, v) : Res (Bytes × Val)) = .ok b := by
        rintro a ⟨b, hb⟩
        rw [Res.bind_eq_ok] at hb
        obtain ⟨v, k1, k2⟩ := hb
        obtain ⟨v', q⟩ := tree_dom h N f _ ⟨v, k1⟩
        exact ⟨_, by rw [q]; rfl⟩
      obtain ⟨vs', q⟩ := kids_dom this ⟨vs, h1⟩
      exact ⟨_, by rw [q]; rfl⟩
    all_goals exact ⟨_, e⟩

theorem kids_ub {α β : Type} {g g' : α → Res β} (h : ∀ a, (∃ b, g a = .ok b) → (∃ b, g' a = .ok b) ∨ g' a = .ub) : ∀ {ks : List α},
    (∃ vs, kids g ks = .ok vs) → (∃ vs, kids g' ks = .ok vs) ∨ kids g' ks = .ub
  | [], _ => .inl ⟨[], rfl⟩
  | k :: ks, e => by
    simp only [kids, Res.bind_eq_ok, Res.pure_eq] at e
    obtain ⟨_, v, h1, vs, h2, h3⟩ := e
    rcases h _ ⟨v, h1⟩ with ⟨v', q⟩ | q
    · rcases kids_ub h ⟨vs, h2⟩ with ⟨vs', q'⟩ | q'
      · exact .inl ⟨v' :: vs', by simp [kids, q, q']⟩
      · exact .inr (by simp [kids, q, q'])
    · exact .inr (by simp [kids, q])

/-- Where less can be read the worst is undefined behaviour. -/
theorem tree_ub {rd rd' : Slice → Res Bytes} (h : ∀ t, (∃ b, rd' t = .ok b) ∨ rd' t = .ub) (N : List Node) :
    ∀ (f i : Nat), (∃ v, tree rd N f i = .ok v) → (∃ v, tree rd' N f i = .ok v) ∨ tree rd' N f i = .ub
  | 0, _, ⟨_, e⟩ => by cases e
  | f + 1, i, ⟨v, e⟩ => by
    unfold tree at e ⊢
    split at e
    case h_8 s hs =>
      rcases h s with ⟨b, q⟩ | q
      · exact .inl ⟨_, by rw [q]; rfl⟩
      · exact .inr (by rw [q]; rfl)
    case h_9 ks hs =>
      rw [Res.bind_eq_ok] at e
      obtain ⟨vs, h1, h2⟩ := e
      rcases kids_ub (tree_ub h N f) ⟨vs, h1⟩ with ⟨vs', q⟩ | q
      · exact .inl ⟨_, by rw [q]; rfl⟩
      · exact .inr (by rw [q]; rfl)
    case h_10 ks hs =>
      rw [Res.bind_eq_ok] at e
      obtain ⟨vs, h1, h2⟩ := e
      have : ∀ k : Bytes × Nat, (∃ b, (do let v ← tree rd N f k.2; pure (k.1, v) : Res (Bytes × Val)) = .ok b) →
          (∃ b, (do let v ← tree rd' N f k.2; pure (k.1, v) : Res (Bytes × Val)) = .ok b) ∨
            (do let v ← tree rd' N f k.2; pure (k.1, v) : Res (Bytes × Val)) = .ub := by
        rintro a ⟨b, hb⟩
        rw [Res.bind_eq_ok] at hb
        obtain ⟨v, k1, k2⟩ := hb
        rcases tree_ub h N f _ ⟨v, k1⟩ with ⟨v', q⟩ | q
        · exact .inl ⟨_, by rw [q]; rfl⟩
        · exact .inr (by rw [q]; rfl)
      rcases kids_ub this ⟨vs, h1⟩ with ⟨vs', q⟩ | q
      · exact .inl ⟨_, by rw [q]; rfl⟩
      · exact .inr (by rw [q]; rfl)
    all_goals exact .inl ⟨_, e⟩

theorem Mem.read_ok_or_ub (m : Mem) (t : Slice) : (∃ b, m.read t = .ok b) ∨ m.read t = .ub := by
  unfold Mem.read sliceAt
  split
  · exact .inl ⟨_, rfl⟩
  · split
    · exact .inr rfl
    · split
      · exact .inl ⟨_, rfl⟩
      · exact .inr rfl

theorem step_says {dbg : Bool} {m0 : Mem} {S S' : RS} {c : Call} (h : step dbg m0 S c = .ok S') (g : Slice → Bytes) :
    ∃ e, Says m0 (fun t => .ok (g t)) c e ∧ ∀ t, c = .str t → e = .str (g t) := by
  cases c with
  | str t => exact ⟨.str (g t), ⟨g t, rfl, rfl⟩, fun u hu => by cases hu; rfl⟩
  | blob t =>
    simp only [step, binary] at h
    rw [Res.bind_eq_ok] at h
    obtain ⟨b, hb, _⟩ := h
    exact ⟨.blob b, ⟨b, hb, rfl⟩, fun u hu => by cases hu⟩
  | key t =>
    simp only [step, key] at h
    split at h
    · cases h
    · split at h
      · split at h
        · rw [Res.bind_eq_ok] at h
          obtain ⟨b, hb, _⟩ := h
          exact ⟨.key b, ⟨b, hb, rfl⟩, fun u hu => by cases hu⟩
        · cases h
      · cases h
  | null => exact ⟨_, rfl, fun u hu => by cases hu⟩
  | bool b => exact ⟨_, rfl, fun u hu => by cases hu⟩
  | int b => exact ⟨_, rfl, fun u hu => by cases hu⟩
  | uint b => exact ⟨_, rfl, fun u hu => by cases hu⟩
  | dbl b => exact ⟨_, rfl, fun u hu => by cases hu⟩
  | beginArr b => exact ⟨_, rfl, fun u hu => by cases hu⟩
  | endArr => exact ⟨_, rfl, fun u hu => by cases hu⟩
  | beginMap b => exact ⟨_, rfl, fun u hu => by cases hu⟩
  | endMap => exact ⟨_, rfl, fun u hu => by cases hu⟩

/-- Calls that succeeded say something, whatever the strings contain later. -/
theorem run_says {dbg : Bool} (g : Slice → Bytes) : ∀ {h : List (Mem × Call)} {S S' : RS}, run dbg S h = .ok S' →
    ∃ es, SaysAll (fun t => .ok (g t)) h es ∧ (∀ m0 t, (m0, Call.str t) ∈ h → Ev.str (g t) ∈ es) ∧
      ∀ b, Ev.str b ∈ es → ∃ t, b = g t
  | [], _, _, _ => ⟨[], rfl, by simp, by simp⟩
  | (m0, c) :: h, S, S', e => by
    rw [run, Res.bind_eq_ok] at e
    obtain ⟨S1, h1, h2⟩ := e
    obtain ⟨es, i1, i2, i3⟩ := run_says g h2
    obtain ⟨ev, j1, j2⟩ := step_says h1 g
    refine ⟨ev :: es, ⟨ev, es, j1, i1, rfl⟩, ?_, ?_⟩
    · intro m1 t ht
      rcases List.mem_cons.1 ht with ht | ht
      · cases ht; simp [j2 t rfl]
      · simp [i2 m1 t ht]
    · intro b hb
      rcases List.mem_cons.1 hb with rfl | hb
      · cases c <;> simp only [Says] at j1 <;> first
          | (obtain ⟨b', k1, k2⟩ := j1; cases k2 <;> (cases k1; exact ⟨_, rfl⟩))
          | cases j1
      · exact i3 b hb

/-- A string that cannot be read when the document is written makes writing undefined. -/
theorem doc_dangling {dbg : Bool} {h : List (Mem × Call)} {S : RS} (hr : run dbg {} h = .ok S) {m0 m : Mem} {t : Slice}
    (ht : (m0, Call.str t) ∈ h) (hm : m.read t = .ub) : doc m.read S = .ub := by
  classical
  have good : Good {} := ⟨fun _ => rfl, fun h => by simp at h⟩
  -- the document when views can be read, with `g`
  have seen : ∀ g : Slice → Bytes, ∃ es s, SaysAll (fun t => .ok (g t)) h es ∧ (∀ m0 t, (m0, Call.str t) ∈ h → Ev.str (g t) ∈ es) ∧
      (∀ b, Ev.str b ∈ es → ∃ t, b = g t) ∧ (writer dbg).run {} es = .ok s ∧ doc (fun t => .ok (g t)) S = .ok (Json.doc s) := by
    intro g
    obtain ⟨es, i1, i2, i3⟩ := run_says g hr
    have := doc_refine dbg i1
    rcases run_match dbg (inv_init _) i1 with ⟨s, S', P, h1, h2, hI⟩ | ⟨e, h1, h2⟩
    · rw [h1, hr] at this
      exact ⟨es, s, i1, i2, i3, h1, this⟩
    · rw [hr] at h2; cases h2
  by_cases hv : ∃ v, doc m.read S = .ok v
  · -- only whether views can be read matters
    have h1 : ∃ v, doc (fun u => if m.read u = .ub then .ub else .ok []) S = .ok v := by
      unfold doc at hv ⊢
      split
      · exact ⟨_, rfl⟩
      · rename_i i hi
        rw [hi] at hv
        refine tree_dom (fun u hu => ?_) _ _ _ hv
        obtain ⟨b, hb⟩ := hu
        exact ⟨[], by simp [hb]⟩
    obtain ⟨v, hv⟩ := h1
    have ext : ∀ g : Slice → Bytes, (∀ u, m.read u ≠ .ub → g u = []) → doc (fun u => .ok (g u)) S = .ok v := by
      intro g hg
      unfold doc at hv ⊢
      split
      · rename_i hi
        rw [hi] at hv
        exact hv
      · rename_i i hi
        rw [hi] at hv
        refine tree_mono (fun u b hb => ?_) _ _ _ _ hv
        by_cases hu : m.read u = .ub
        · rw [if_pos hu] at hb; cases hb
        · rw [if_neg hu] at hb; rw [hg u hu]; exact hb
    obtain ⟨es, s, i1, i2, i3, i4, i5⟩ := seen (fun _ => [])
    obtain ⟨es', s', j1, j2, j3, j4, j5⟩ := seen (fun u => if m.read u = .ub then [1] else [])
    rw [ext _ (fun _ _ => rfl)] at i5
    rw [ext _ (fun u hu => if_neg hu)] at j5
    have hd : Json.doc s = Json.doc s' := Res.ok.inj (i5.symm.trans j5)
    obtain ⟨g1, f1⟩ := run_free good i4
    obtain ⟨g2, f2⟩ := run_free good j4
    have free : Free [1] (Json.doc s) := by
      rw [doc_free _ g1, f1]
      refine ⟨⟨by simp, by simp⟩, ?_⟩
      rintro e he rfl
      obtain ⟨_, h⟩ := i3 _ he
      cases h
    rw [hd, doc_free _ g2, f2] at free
    have := j2 m0 t ht
    simp only [hm, if_true] at this
    exact absurd rfl (free.2 _ this)
  · obtain ⟨_, s, _, _, _, _, i5⟩ := seen (fun _ => [])
    unfold doc at hv i5 ⊢
    split
    · rename_i hi
      rw [hi] at hv
      exact absurd ⟨_, rfl⟩ hv
    · rename_i i hi
      rw [hi] at hv i5
      exact (tree_ub m.read_ok_or_ub _ _ _ ⟨_, i5⟩).resolve_left hv

end Heap
end Zer.Json
