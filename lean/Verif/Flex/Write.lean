import Verif.Flex.Build

/-!
# Flex: the document that a call sequence builds
-/

namespace Zer.Flex
variable {L : Lib}

mutual
/-- The document a value is written as: every map sorted by flexbuffers, every key up to its first NUL. -/
def toDoc (L : Lib) : Val → Doc
  | .null => .null
  | .bool b => .bool b
  | .int i => .int i
  | .uint n => .uint n
  | .dbl d => .dbl d
  | .str s => .str s
  | .blob s => .blob s
  | .arr xs => .vec (toDocList L xs)
  | .map ms => .map (L.sort (toDocEntries L ms))
def toDocList (L : Lib) : List Val → List Doc
  | [] => []
  | x :: xs => toDoc L x :: toDocList L xs
def toDocEntries (L : Lib) : List (Bytes × Val) → List (Bytes × Doc)
  | [] => []
  | (k, v) :: ms => (cstr k, toDoc L v) :: toDocEntries L ms
end

theorem toDocList_eq (xs : List Val) : toDocList L xs = xs.map (toDoc L) := by
  induction xs with
  | nil => rfl
  | cons x xs ih => simp [toDocList, ih]

theorem toDocEntries_eq (ms : List (Bytes × Val)) :
    toDocEntries L ms = ms.map (fun m => (cstr m.1, toDoc L m.2)) := by
  induction ms with
  | nil => rfl
  | cons x xs ih => cases x; simp [toDocEntries, ih]

/-- What the entries of a map leave on the stack. -/
def inter (L : Lib) : List (Bytes × Val) → List Doc
  | [] => []
  | (k, v) :: ms => .key (cstr k) :: toDoc L v :: inter L ms

theorem inter_append (ms ns : List (Bytes × Val)) : inter L (ms ++ ns) = inter L ms ++ inter L ns := by
  induction ms with
  | nil => rfl
  | cons m ms ih => cases m; simp [inter, ih]

mutual
/-- What a value takes in the buffer at most, without the place that refers to it. -/
def weigh : Val → Nat
  | .str s => s.length + 16
  | .blob s => s.length + 15
  | .arr xs => weighList xs + 9 * xs.length + 15
  | .map ms => weighEntries ms + 17 * ms.length + 46
  | _ => 0
def weighList : List Val → Nat
  | [] => 0
  | x :: xs => weigh x + weighList xs
def weighEntries : List (Bytes × Val) → Nat
  | [] => 0
  | (k, v) :: ms => k.length + 1 + weigh v + weighEntries ms
end

theorem weighList_append (xs ys : List Val) : weighList (xs ++ ys) = weighList xs + weighList ys := by
  induction xs with
  | nil => simp [weighList]
  | cons x xs ih => simp [weighList, ih, Nat.add_assoc]

theorem weighEntries_append (xs ys : List (Bytes × Val)) :
    weighEntries (xs ++ ys) = weighEntries xs + weighEntries ys := by
  induction xs with
  | nil => simp [weighEntries]
  | cons x xs ih => obtain ⟨k, v⟩ := x; simp [weighEntries, ih, Nat.add_assoc]

/-- What an open container has added to the buffer at most. -/
def frameWeight : Frame → Nat
  | .arr xs => weighList xs
  | .map ms none => weighEntries ms
  | .map ms (some k) => weighEntries ms + (k.length + 1)

/-- What has been added to the buffer at most. -/
def treeWeight (root : Option Val) : List Frame → Nat
  | [] => root.elim 0 weigh
  | f :: fs => treeWeight root fs + frameWeight f

theorem deliver_weight {t t' : Tree} {v : Val} (h : t.deliver v = some t') :
    treeWeight t'.root t'.stack = treeWeight t.root t.stack + weigh v := by
  obtain ⟨st, root⟩ := t
  match st, root, h with
  | [], none, h => simp only [Tree.deliver] at h; injection h with h; subst h; simp [treeWeight]
  | .arr xs :: st, root, h =>
    simp only [Tree.deliver] at h; injection h with h; subst h
    simp [treeWeight, frameWeight, weighList_append, weighList, Nat.add_assoc]
  | .map ms (some k) :: st, root, h =>
    simp only [Tree.deliver] at h; injection h with h; subst h
    simp only [treeWeight, frameWeight, weighEntries_append, weighEntries]
    omega

/-- Keys and values on the stack of the builder are the entries of the map. -/
theorem inter_good {N : Prop} {b : Bytes} : ∀ {ms : List (Bytes × Val)} {vs : List BV}, All2 (Good N b) vs (inter L ms) →
    ∃ ps, vs = unpairs ps ∧ All2 (PairOk N b) ps (toDocEntries L ms)
  | [], _, h => by
    cases h
    exact ⟨[], rfl, .nil⟩
  | (k, v) :: ms, _, h => by
    cases h with
    | cons h1 h =>
      cases h with
      | cons h2 h =>
        obtain ⟨ps, rfl, h3⟩ := inter_good h
        exact ⟨(_, _) :: ps, rfl, .cons ⟨h1.key_at.1, h1, h2⟩ h3⟩

/-- What an open container has on the stack. -/
def frameDocs (L : Lib) : Frame → List Doc
  | .arr xs => toDocList L xs
  | .map ms none => inter L ms
  | .map ms (some k) => inter L ms ++ [.key (cstr k)]

/-- The whole stack. -/
def stackDocs (L : Lib) (root : Option Val) : List Frame → List Doc
  | [] => root.toList.map (toDoc L)
  | f :: fs => stackDocs L root fs ++ frameDocs L f

def Frame.isObj : Frame → Bool
  | .arr _ => false
  | .map _ _ => true

/-- The recorded starts. -/
def ctxs (L : Lib) (root : Option Val) : List Frame → List (Bool × Nat)
  | [] => []
  | f :: fs => (Frame.isObj f, (stackDocs L root fs).length) :: ctxs L root fs

/-- The writer's state represents the state of the abstract builder. -/
structure Rel (N : Prop) (L : Lib) (t : Tree) (s : RS) : Prop where
  stack : All2 (Good N s.buf) s.stack (stackDocs L t.root t.stack)
  pool : PoolOk s.buf s.pool
  st : s.st = ctxs L t.root t.stack
  wrote : s.wrote = true ↔ (t.stack ≠ [] ∨ t.root ≠ none)
  weight : s.buf.length ≤ treeWeight t.root t.stack

theorem deliver_docs {t t' : Tree} {v : Val} (h : t.deliver v = some t') :
    stackDocs L t'.root t'.stack = stackDocs L t.root t.stack ++ [toDoc L v] ∧
    ctxs L t'.root t'.stack = ctxs L t.root t.stack ∧ (t'.stack ≠ [] ∨ t'.root ≠ none) := by
  obtain ⟨st, root⟩ := t
  match st, root, h with
  | [], none, h => simp only [Tree.deliver] at h; injection h with h; subst h; simp [stackDocs, ctxs]
  | .arr xs :: st, root, h =>
    simp only [Tree.deliver] at h; injection h with h; subst h
    simp [stackDocs, ctxs, frameDocs, toDocList_eq, Frame.isObj]
  | .map ms (some k) :: st, root, h =>
    simp only [Tree.deliver] at h; injection h with h; subst h
    simp [stackDocs, ctxs, frameDocs, inter_append, inter, Frame.isObj]

theorem goods_mono {N : Prop} {b : Bytes} {vs : List BV} {ds : List Doc} (h : All2 (Good N b) vs ds) (e : Bytes) :
    All2 (Good N (b ++ e)) vs ds := h.imp fun _ _ h => h.mono e

theorem push_rel {N : Prop} {t t' : Tree} {s : RS} {v : Val} {x : BV} (hr : Rel N L t s) (h : t.deliver v = some t')
    (hg : Good N s.buf x (toDoc L v)) : Rel N L t' (push s x) := by
  obtain ⟨h1, h2, h3⟩ := deliver_docs (L := L) h
  exact ⟨by rw [h1]; exact hr.stack.snoc hg, hr.pool, by simp [push, hr.st, h2], by simpa [push] using h3,
    by rw [deliver_weight h]; exact Nat.le_trans hr.weight (Nat.le_add_right _ _)⟩

theorem pushBlob_rel {N : Prop} {t t' : Tree} {s : RS} {v : Val} {ty : Nat} {a tail : Bytes} (hr : Rel N L t s)
    (h : t.deliver v = some t')
    (hg : Good N (createBlob s.buf ty a tail).1 (createBlob s.buf ty a tail).2 (toDoc L v))
    (hw : 15 + a.length + tail.length ≤ weigh v) :
    Rel N L t' (pushBlob s (createBlob s.buf ty a tail)) := by
  obtain ⟨h1, h2, h3⟩ := deliver_docs (L := L) h
  obtain ⟨e, he⟩ := createBlob_ext s.buf ty a tail
  refine ⟨?_, ?_, by simp [pushBlob, push, hr.st, h2], by simpa [pushBlob, push] using h3, by
    have := createBlob_length s.buf ty a tail
    have := hr.weight
    rw [deliver_weight h]
    show (createBlob s.buf ty a tail).1.length ≤ _
    omega⟩
  · show All2 (Good N (createBlob s.buf ty a tail).1) (s.stack ++ [(createBlob s.buf ty a tail).2]) _
    rw [h1]
    refine All2.snoc ?_ hg
    rw [he]
    exact goods_mono hr.stack e
  · show PoolOk (createBlob s.buf ty a tail).1 s.pool
    rw [he]
    exact hr.pool.mono e

theorem cstr_no_nul (k : Bytes) : (0 : UInt8) ∉ cstr k := by
  intro h
  have := List.all_takeWhile (p := fun c : UInt8 => decide (c ≠ 0)) (l := k)
  rw [List.all_eq_true] at this
  have := this 0 h
  simp at this

theorem cstr_of_no_nul {k : Bytes} (h : (0 : UInt8) ∉ k) : cstr k = k := by
  induction k with
  | nil => rfl
  | cons c k ih =>
    have : c ≠ 0 := fun e => h (by simp [e])
    simp only [cstr] at ih ⊢
    rw [List.takeWhile_cons, ih (fun hk => h (by simp [hk]))]
    simp [this]

/-- A key with the NUL behind it is what it denotes, a NUL and something else. -/
theorem cstr_split (k : Bytes) : ∃ tail, k ++ [0] = cstr k ++ [0] ++ tail := by
  induction k with
  | nil => exact ⟨[], rfl⟩
  | cons c k ih =>
    by_cases hc : c = 0
    · subst hc
      exact ⟨k ++ [0], by simp [cstr]⟩
    · obtain ⟨tail, h⟩ := ih
      refine ⟨tail, ?_⟩
      have e : cstr (c :: k) = c :: cstr k := by simp [cstr, List.takeWhile_cons, hc]
      rw [e]
      simp only [List.cons_append, h]

/-- Every call that continues a well-formed sequence succeeds. -/
theorem step_rel {N : Prop} (H : L.Law) {dbg : Bool} {t t' : Tree} {s : RS} {e : Ev} (hr : Rel N L t s) (h : t.step e = some t') :
    ∃ s', step L dbg s e = .ok s' ∧ Rel N L t' s' := by
  cases e with
  | null => exact ⟨_, rfl, push_rel hr h .null⟩
  | bool b => exact ⟨_, rfl, push_rel hr h (.bool b)⟩
  | int i => exact ⟨_, rfl, push_rel hr h (.int i)⟩
  | uint n => exact ⟨_, rfl, push_rel hr h (.uint n)⟩
  | dbl d => exact ⟨_, rfl, push_rel hr h (.dbl d)⟩
  | str b => exact ⟨_, rfl, pushBlob_rel hr h (good_str _ _ _ fun _ => ⟨_, rfl⟩) (by simp only [weigh, List.length_cons, List.length_nil]; omega)⟩
  | blob b => exact ⟨_, rfl, pushBlob_rel hr h (good_blob _ _) (by simp only [weigh, List.length_nil]; omega)⟩
  | key k =>
    obtain ⟨st, root⟩ := t
    match st, h with
    | .map ms none :: st, h =>
      simp only [Tree.step] at h; injection h with h; subst h
      obtain ⟨tail, ht⟩ := cstr_split k
      obtain ⟨c, u, pool, h1, ⟨suf, h2⟩, h3, h4, h5⟩ := createKey_ok (cstr_no_nul k) tail hr.pool
      refine ⟨{ s with buf := c, pool := pool, stack := s.stack ++ [⟨4, u, 0⟩] }, ?_, ?_, h3, ?_, ?_, ?_⟩
      · simp only [step, keyBytes, ht, h1, Res.ok_bind, Res.pure_eq]
      · have e : stackDocs L root (.map ms (some k) :: st) =
            stackDocs L root (.map ms none :: st) ++ [.key (cstr k)] := by simp [stackDocs, frameDocs]
        rw [e]
        refine All2.snoc ?_ h4
        show All2 (Good N c) s.stack _
        rw [h2]
        exact goods_mono hr.stack suf
      · simp [hr.st, ctxs, Frame.isObj]
      · simpa using hr.wrote
      · have := hr.weight
        rw [← ht, List.length_append] at h5
        simp only [treeWeight, frameWeight, List.length_cons, List.length_nil] at this h5 ⊢
        omega
  | beginArr n =>
    simp only [Tree.step] at h; injection h with h; subst h
    refine ⟨_, rfl, ?_, hr.pool, ?_, ?_, by simpa [openC, treeWeight, frameWeight, weighList, weighEntries] using hr.weight⟩
    · simpa [openC, stackDocs, frameDocs, toDocList] using hr.stack
    · simp [openC, hr.st, hr.stack.length, ctxs, Frame.isObj]
    · simp [openC]
  | beginMap n =>
    simp only [Tree.step] at h; injection h with h; subst h
    refine ⟨_, rfl, ?_, hr.pool, ?_, ?_, by simpa [openC, treeWeight, frameWeight, weighList, weighEntries] using hr.weight⟩
    · simpa [openC, stackDocs, frameDocs, inter] using hr.stack
    · simp [openC, hr.st, hr.stack.length, ctxs, Frame.isObj]
    · simp [openC]
  | endArr =>
    obtain ⟨st, root⟩ := t
    match st, h, hr with
    | .arr xs :: st, h, hr =>
      simp only [Tree.step] at h
      obtain ⟨h1, h2, h3⟩ := deliver_docs (L := L) h
      have e1 := hr.st
      have e2 := hr.stack
      simp only [ctxs, Frame.isObj] at e1
      simp only [stackDocs, frameDocs] at e2
      obtain ⟨g1, g2⟩ := e2.split
      have Y := createVector_layout s.buf (s.stack.drop (stackDocs L root st).length)
        (s.stack.drop (stackDocs L root st).length).length 1 false none
      have hG := good_vec g2
      obtain ⟨e, he⟩ := Y.ext
      have hl := Y.length_le hG.w_le
      refine ⟨_, by simp only [step, endArr, e1]; rfl, ?_, ?_, ?_, ?_, ?_⟩
      · rw [h1]
        refine All2.snoc ?_ hG
        simp only
        rw [he]
        exact goods_mono g1 e
      · simp only
        rw [he]
        exact hr.pool.mono e
      · simp [h2]
      · have := hr.wrote
        simp only [ne_eq, reduceCtorEq, not_false_eq_true, true_or, iff_true] at this
        simpa [this] using h3
      · have hw := hr.weight
        have hn := g2.length
        rw [deliver_weight h]
        simp only [toDocList_eq, List.length_map] at hn
        simp only [treeWeight, frameWeight, weigh, prefixLen, Bool.false_eq_true, if_false] at hw hl ⊢
        omega
  | endMap =>
    obtain ⟨st, root⟩ := t
    match st, h, hr with
    | .map ms none :: st, h, hr =>
      simp only [Tree.step] at h
      obtain ⟨h1, h2, h3⟩ := deliver_docs (L := L) h
      have e1 := hr.st
      have e2 := hr.stack
      simp only [ctxs, Frame.isObj] at e1
      simp only [stackDocs, frameDocs] at e2
      obtain ⟨g1, g2⟩ := e2.split
      obtain ⟨ps, p1, p2⟩ := inter_good g2
      obtain ⟨c, c1, ⟨e, he⟩, c2, c3⟩ := good_map L dbg p2
      rw [← p1] at c1
      refine ⟨{ s with buf := c.1, stack := s.stack.take (stackDocs L root st).length ++ [c.2], st := ctxs L root st },
        by simp only [step, endMap, e1, c1, Res.ok_bind, Res.pure_eq], ?_, ?_, ?_, ?_, ?_⟩
      · rw [h1]
        refine All2.snoc ?_ c2
        simp only
        rw [he]
        exact goods_mono g1 e
      · simp only
        rw [he]
        exact hr.pool.mono e
      · simp [h2]
      · have := hr.wrote
        simp only [ne_eq, reduceCtorEq, not_false_eq_true, true_or, iff_true] at this
        simpa [this] using h3
      · have hw := hr.weight
        have hn : (L.sort (toDocEntries L ms)).length ≤ ms.length := by
          rw [H.sort_length, toDocEntries_eq, List.length_map]
          exact Nat.le_refl _
        rw [deliver_weight h]
        simp only [treeWeight, frameWeight, weigh] at hw ⊢
        omega

theorem run_rel {N : Prop} (H : L.Law) {dbg : Bool} : ∀ (es : List Ev) {t t' : Tree} {s : RS}, Rel N L t s → t.run es = some t' →
    ∃ s', (writer L dbg).run s es = .ok s' ∧ Rel N L t' s'
  | [], t, t', s, hr, h => by
    simp only [Tree.run] at h; injection h with h; subst h
    exact ⟨s, rfl, hr⟩
  | e :: es, t, t', s, hr, h => by
    simp only [Tree.run, Option.bind_eq_bind, Option.bind_eq_some_iff] at h
    obtain ⟨t1, h1, h2⟩ := h
    obtain ⟨s1, hs1, hr1⟩ := step_rel H (dbg := dbg) hr h1
    obtain ⟨s2, hs2, hr2⟩ := run_rel H es hr1 h2
    exact ⟨s2, by simp only [Writer.run_cons]; rw [show (writer L dbg).step s e = .ok s1 from hs1]; exact hs2, hr2⟩

/-- The empty writer. -/
theorem rel_init {N : Prop} : Rel N L {} {} := ⟨.nil, (fun p hp => by cases hp), rfl, by simp, Nat.zero_le _⟩

/-- The bytes of a finished writer are those of the document. -/
theorem finish_holding {N : Prop} {dbg : Bool} {t : Tree} {s : RS} {v : Val} (hr : Rel N L t s) (h2 : t.finish = some v) :
    ∃ b, finish dbg s = .ok b ∧ b.length ≤ weigh v + 17 ∧
      (b.length < 2 ^ 64 → Holding (.built N) b (toDoc L v)) := by
  obtain ⟨st, root⟩ := t
  match st, h2 with
  | [], h2 =>
    simp only [Tree.finish] at h2; injection h2 with h2; subst h2
    have e := hr.stack
    have w := hr.wrote
    have hw := hr.weight
    simp only [stackDocs, treeWeight, ne_eq, not_true_eq_false, false_or] at e w hw
    cases root with
    | none =>
      simp only [not_true_eq_false, iff_false, Bool.not_eq_true] at w
      simp only [Option.toList_none, List.map_nil, Option.elim_none] at e hw
      have es : s.stack = [] := by cases hx : s.stack with
        | nil => rfl
        | cons _ _ => rw [hx] at e; cases e
      refine ⟨finishRoot s.buf ⟨0, 0, 0⟩, by simp [finish, w, es], ?_, finishRoot_holding .null⟩
      have := finishRoot_length (b := s.buf) (v := ⟨0, 0, 0⟩) (by decide)
      simp only [Option.getD_none, weigh]
      omega
    | some v =>
      simp only [reduceCtorEq, not_false_eq_true, iff_true] at w
      simp only [Option.toList_some, List.map_cons, List.map_nil, Option.elim_some] at e hw
      cases hx : s.stack with
      | nil => rw [hx] at e; cases e
      | cons x xs =>
        rw [hx] at e
        cases e with
        | cons g e =>
          cases e
          refine ⟨finishRoot s.buf x, by simp [finish, w, hx], ?_, finishRoot_holding g⟩
          have := finishRoot_length (b := s.buf) g.w_le
          simp only [Option.getD_some]
          omega

theorem finish_rel {N : Prop} {dbg : Bool} {t : Tree} {s : RS} {v : Val} (hr : Rel N L t s) (h2 : t.finish = some v) :
    ∃ b, finish dbg s = .ok b ∧ b.length ≤ weigh v + 17 ∧
      (b.length < 2 ^ 64 → ∃ r, opn b = .ok r ∧ Holds r (toDoc L v)) := by
  obtain ⟨b, h1, h2, h3⟩ := finish_holding (dbg := dbg) hr h2
  exact ⟨b, h1, h2, fun hl => (h3 hl).opn (fun h => h) hl (.inl trivial)⟩

/-- A well-formed call sequence is accepted, and the bytes are the document it spells, in the format. -/
theorem bytesOf_holding (H : L.Law) (dbg : Bool) {es : List Ev} {v : Val} (h : Tree.eval es = some v) :
    ∃ b, (proto L dbg).bytesOf es = .ok b ∧ b.length ≤ weigh v + 17 ∧
      (b.length < 2 ^ 64 → Holding .plain b (toDoc L v)) := by
  simp only [Tree.eval, Option.bind_eq_some_iff] at h
  obtain ⟨t, h1, h2⟩ := h
  obtain ⟨s, hs, hr⟩ := run_rel (N := True) H (dbg := dbg) es rel_init h1
  simp only [Proto.bytesOf]
  rw [show (proto L dbg).writer.run (proto L dbg).init es = .ok s from hs]
  exact finish_holding hr h2

/-- A well-formed call sequence is accepted, and the bytes are those of the document it spells: opened,
they give a position that holds it. (Buffers of 2^64 bytes and more cannot exist.) -/
theorem bytesOf_eval (H : L.Law) (dbg : Bool) {es : List Ev} {v : Val} (h : Tree.eval es = some v) :
    ∃ b, (proto L dbg).bytesOf es = .ok b ∧ b.length ≤ weigh v + 17 ∧
      (b.length < 2 ^ 64 → ∃ r, opn b = .ok r ∧ Holds r (toDoc L v)) := by
  obtain ⟨b, h1, h2, h3⟩ := bytesOf_holding H dbg h
  exact ⟨b, h1, h2, fun hl => (h3 hl).opn (fun h => h) hl (.inl trivial)⟩

/-- The value is not too large for a buffer. -/
def Fits (v : Val) : Prop := weigh v + 17 < 2 ^ 64

theorem bytesOf_holds (H : L.Law) (dbg : Bool) {es : List Ev} {v : Val} (h : Tree.eval es = some v) (hf : Fits v) :
    ∃ b r, (proto L dbg).bytesOf es = .ok b ∧ b.length < 2 ^ 64 ∧ opn b = .ok r ∧ Holds r (toDoc L v) := by
  obtain ⟨b, h1, h2, h3⟩ := bytesOf_eval H dbg h
  obtain ⟨r, h4, h5⟩ := h3 (Nat.lt_of_le_of_lt h2 hf)
  exact ⟨b, r, h1, Nat.lt_of_le_of_lt h2 hf, h4, h5⟩

theorem serialize_holds (H : L.Law) (dbg : Bool) {v : Val} (hf : Fits v) :
    ∃ b r, (proto L dbg).serialize v = .ok b ∧ b.length < 2 ^ 64 ∧ opn b = .ok r ∧ Holds r (toDoc L v) :=
  bytesOf_holds H dbg (Tree.eval_emit v) hf

end Zer.Flex
