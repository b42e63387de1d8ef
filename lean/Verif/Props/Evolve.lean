import Verif.Props.Program

/-!
# Property C110: programs read messages of later versions

A later version of a program writes messages with members that an earlier version does not know. Programs are those of C109
(`Verif/Props/Program.lean`).
-/

namespace Zer

mutual
/-- The value without the members whose keys are in `N`, everywhere. -/
def Val.without (N : Bytes → Bool) : Val → Val
  | .arr xs => .arr (withoutList N xs)
  | .map ms => .map (withoutEntries N ms)
  | v => v
def Val.withoutList (N : Bytes → Bool) : List Val → List Val
  | [] => []
  | x :: xs => x.without N :: withoutList N xs
def Val.withoutEntries (N : Bytes → Bool) : List (Bytes × Val) → List (Bytes × Val)
  | [] => []
  | (k, v) :: ms => if N k then withoutEntries N ms else (k, v.without N) :: withoutEntries N ms
end

/-- The program neither asks for keys in `N` nor goes to members under them, whatever it is answered. -/
def Prog.Ignores {α : Type} (N : Bytes → Bool) : Prog α → Prop
  | .done _ => True
  | .ask _ q next => (∀ k, q = .has k → N k = false) ∧ ∀ a, (next a).Ignores N
  | .go _ h next => (∀ k, h = .key k → N k = false) ∧ ∀ b, (next b).Ignores N

theorem Val.withoutList_eq (N : Bytes → Bool) (xs : List Val) : Val.withoutList N xs = xs.map (Val.without N) := by
  induction xs with
  | nil => rfl
  | cons x xs ih => simp [Val.withoutList, ih]

theorem Val.withoutEntries_keys (N : Bytes → Bool) (ms : List (Bytes × Val)) :
    (Val.withoutEntries N ms).map Prod.fst = (ms.map Prod.fst).filter (fun k => !N k) := by
  induction ms with
  | nil => rfl
  | cons m ms ih =>
    obtain ⟨k, v⟩ := m
    simp only [Val.withoutEntries]
    cases h : N k <;> simp [h, ih]

theorem firstVal_without {N : Bytes → Bool} (ms : List (Bytes × Val)) {k : Bytes} (hk : N k = false) :
    firstVal (Val.withoutEntries N ms) k = (firstVal ms k).map (Val.without N) := by
  induction ms with
  | nil => rfl
  | cons m ms ih =>
    obtain ⟨k', v⟩ := m
    simp only [Val.withoutEntries]
    cases h : N k'
    · simp only [Bool.false_eq_true, if_false, firstVal]
      by_cases e : k' = k
      · simp [e]
      · simp [e, ih]
    · have e : k' ≠ k := by rintro rfl; rw [hk] at h; cases h
      simp only [if_true, firstVal, if_neg e, ih]

theorem Val.tell_without {N : Bytes → Bool} {lst : List Bytes → List Bytes} (hl : ∀ ks, lst (ks.filter fun k => !N k) = lst ks) {q : Ask}
    (hq : ∀ k, q = .has k → N k = false) (v : Val) : Val.tell lst q (v.without N) = Val.tell lst q v := by
  cases v with
  | arr xs => cases q <;> simp only [Val.without, Val.withoutList_eq, Val.tell, List.length_map]
  | map ms =>
    cases q with
    | keys => simp only [Val.without, Val.tell, Val.withoutEntries_keys, hl]
    | has k =>
      have h := hq k rfl
      simp only [Val.without, Val.tell, Val.withoutEntries_keys]
      exact congrArg (fun b => some (Ans.flag b)) (decide_eq_decide.2 (by simp [List.mem_filter, h]))
    | _ => rfl
  | _ => rfl

theorem Val.sub_without {N : Bytes → Bool} {h : Hop} (hh : ∀ k, h = .key k → N k = false) (v : Val) :
    Val.sub h (v.without N) = (Val.sub h v).map (Val.without N) := by
  cases v with
  | arr xs => cases h <;> simp [Val.without, Val.withoutList_eq, Val.sub]
  | map ms =>
    cases h with
    | key k => exact firstVal_without ms (hh k rfl)
    | idx i => rfl
  | _ => cases h <;> rfl

theorem tell_without {α : Type} {N : Bytes → Bool} {lst : List Bytes → List Bytes} (hl : ∀ ks, lst (ks.filter fun k => !N k) = lst ks)
    (v : Val) {p : Prog α} : p.Ignores N → ∀ vs : List Val, p.tell lst (v.without N) (vs.map (Val.without N)) = p.tell lst v vs := by
  induction p with
  | done a => intro _ _; rfl
  | ask i q next ih =>
    intro hp vs
    simp only [Prog.tell, held_map, Val.tell_without hl hp.1]
    exact ih _ (hp.2 _) vs
  | go i h next ih =>
    intro hp vs
    simp only [Prog.tell, held_map, Val.sub_without hp.1]
    cases hq : Val.sub h (held v vs i) with
    | none => exact ih false (hp.2 _) vs
    | some w => simpa using ih true (hp.2 _) (vs ++ [w])

/-! ## Found and not counted -/

/-- `w` has everything that `v` has, at the same places: arrays may be longer and maps may have more members, everywhere. -/
inductive Val.Grown : Val → Val → Prop where
  | same (v : Val) : Val.Grown v v
  | arr {xs ys : List Val} (c : Nat → Val) : (∀ i a, xs[i]? = some a → ys[i]? = some (c i)) → (∀ i a, xs[i]? = some a → Val.Grown a (c i)) →
      Val.Grown (.arr xs) (.arr ys)
  | map {ms ns : List (Bytes × Val)} (c : Bytes → Val) : (∀ k a, firstVal ms k = some a → firstVal ns k = some (c k)) →
      (∀ k a, firstVal ms k = some a → Val.Grown a (c k)) → Val.Grown (.map ms) (.map ns)

/-- On this value the program finds what it looks for, and does not list or count. -/
def Prog.Finds {α : Type} (lst : List Bytes → List Bytes) (root : Val) : List Val → Prog α → Prop
  | _, .done _ => True
  | more, .ask i q next =>
    q ≠ .keys ∧ q ≠ .size ∧ (∀ k, q = .has k → Val.tell lst q (held root more i) = some (.flag true)) ∧
      (next (Val.tell lst q (held root more i))).Finds lst root more
  | more, .go i h next => ∃ w, Val.sub h (held root more i) = some w ∧ (next true).Finds lst root (more ++ [w])

theorem Val.Grown.sub {v w : Val} (g : v.Grown w) {h : Hop} {a : Val} (ha : Val.sub h v = some a) : ∃ b, Val.sub h w = some b ∧ a.Grown b := by
  cases g with
  | same => exact ⟨a, ha, .same a⟩
  | arr c h1 h2 =>
    cases h with
    | key k => cases ha
    | idx i => exact ⟨c i, h1 i a ha, h2 i a ha⟩
  | map c h1 h2 =>
    cases h with
    | idx i => cases ha
    | key k => exact ⟨c k, h1 k a ha, h2 k a ha⟩

theorem Val.Grown.tell {v w : Val} (g : v.Grown w) (lst : List Bytes → List Bytes) {q : Ask} (h1 : q ≠ .keys) (h2 : q ≠ .size)
    (h3 : ∀ k, q = .has k → Val.tell lst q v = some (.flag true)) : Val.tell lst q w = Val.tell lst q v := by
  cases g with
  | same => rfl
  | arr c _ _ =>
    cases q with
    | size => exact absurd rfl h2
    | _ => rfl
  | @map ms ns c h4 _ =>
    cases q with
    | keys => exact absurd rfl h1
    | has k =>
      have h := h3 k rfl
      rw [h]
      simp only [Val.tell, Option.some.injEq, Ans.flag.injEq, decide_eq_true_eq] at h ⊢
      obtain ⟨a, ha⟩ := firstVal_isSome.1 h
      exact firstVal_isSome.2 ⟨_, h4 k a ha⟩
    | _ => rfl

/-- The values held have grown, one by one. -/
def AllGrown (vs ws : List Val) : Prop := vs.length = ws.length ∧ ∀ (i : Nat) (a : Val), vs[i]? = some a → ∃ b : Val, ws[i]? = some b ∧ a.Grown b

theorem AllGrown.held {vs ws : List Val} (h : AllGrown vs ws) {v w : Val} (g : v.Grown w) (i : Nat) :
    (Zer.held v vs i).Grown (Zer.held w ws i) := by
  cases e : vs[i]? with
  | some a =>
    obtain ⟨b, h1, h2⟩ := h.2 i a e
    simpa only [Zer.held, List.getD, e, h1, Option.getD_some] using h2
  | none =>
    have e' : ws[i]? = none := by rw [List.getElem?_eq_none_iff] at e ⊢; rw [← h.1]; exact e
    simpa only [Zer.held, List.getD, e, e', Option.getD_none] using g

theorem AllGrown.snoc {vs ws : List Val} (h : AllGrown vs ws) {v w : Val} (g : v.Grown w) : AllGrown (vs ++ [v]) (ws ++ [w]) := by
  refine ⟨by simp [h.1], fun i a ha => ?_⟩
  by_cases hi : i < vs.length
  · rw [List.getElem?_append_left hi] at ha
    rw [List.getElem?_append_left (h.1 ▸ hi)]
    exact h.2 i a ha
  · rw [List.getElem?_append_right (Nat.le_of_not_lt hi)] at ha
    rw [List.getElem?_append_right (by rw [← h.1]; exact Nat.le_of_not_lt hi), ← h.1]
    cases e : i - vs.length with
    | zero => rw [e] at ha; cases ha; exact ⟨w, rfl, g⟩
    | succ n => rw [e] at ha; cases ha

theorem tell_grown {α : Type} (lst : List Bytes → List Bytes) {v w : Val} (g : v.Grown w) {p : Prog α} :
    ∀ vs ws : List Val, AllGrown vs ws → p.Finds lst v vs → p.tell lst w ws = p.tell lst v vs := by
  induction p with
  | done a => intro _ _ _ _; rfl
  | ask i q next ih =>
    intro vs ws hs hp
    obtain ⟨h1, h2, h3, h4⟩ := hp
    simp only [Prog.tell, (hs.held g i).tell lst h1 h2 h3]
    exact ih _ vs ws hs h4
  | go i h next ih =>
    intro vs ws hs hp
    obtain ⟨a, h1, h2⟩ := hp
    obtain ⟨b, h3, h4⟩ := (hs.held g i).sub h1
    simp only [Prog.tell, h1, h3]
    exact ih true _ _ (hs.snoc h4) h2

/-! ## C110 -/

/-- C110, new members, any two readers: two positions present values that are equal but for members under the keys `N` (and which integers
are unsigned). A program that has never heard of these keys, and makes nothing of them if they are listed, gets the same result from both,
whatever it looks for in vain and whatever it catches. -/
theorem c110_new_members {ρ σ α : Type} {R : Reader ρ} {S : Reader σ} (hR : R.Raises) (hS : S.Raises) {N : Bytes → Bool}
    {lst : List Bytes → List Bytes} (hl : ∀ ks, lst (ks.filter fun k => !N k) = lst ks) {r : ρ} {s : σ} {v w : Val}
    (hr : R.Agrees r v) (hs : S.Agrees s w) (h : (v.without N).Same (w.without N)) {p : Prog α} (hp : p.Ignores N) :
    ∃ a, p.run R lst r [] = .ok a ∧ p.run S lst s [] = .ok a := by
  refine ⟨_, run_tell hR lst hr p [] [] ⟨rfl, fun i h => by simp at h⟩, ?_⟩
  rw [run_tell hS lst hs p [] [] ⟨rfl, fun i h => by simp at h⟩]
  have e1 : p.tell lst (v.without N) [] = p.tell lst v [] := tell_without hl v hp []
  have e2 : p.tell lst (w.without N) [] = p.tell lst w [] := tell_without hl w hp []
  rw [← e1, ← e2, tell_same lst h p]

/-- C110, new members, written: the old message in one format, the new one in the same format or another. -/
theorem c110_written {P Q : Proto} {p q : Prop} {D E : Val → Prop} (hP : P.RoundTrips p D) (hQ : Q.RoundTrips q E)
    (rP : P.reader.Raises) (rQ : Q.reader.Raises) {N : Bytes → Bool} {lst : List Bytes → List Bytes}
    (hl : ∀ ks, lst (ks.filter fun k => !N k) = lst ks) {v w : Val} (hD : D v) (hE : E w) (h : (v.without N).Same (w.without N)) {b c : Bytes}
    (hb : P.serialize v = .ok b) (hc : Q.serialize w = .ok c) :
    ∃ r s, P.opn b = .ok r ∧ Q.opn c = .ok s ∧
      ∀ {α : Type} {g : Prog α}, g.Ignores N → ∃ a, g.run P.reader lst r [] = .ok a ∧ g.run Q.reader lst s [] = .ok a := by
  obtain ⟨r, h1, h2⟩ := hP v b hD hb
  obtain ⟨s, h3, h4⟩ := hQ w c hE hc
  exact ⟨r, s, h1, h3, fun hg => c110_new_members rP rQ hl (h2.weaken (fun h => h.elim)) (h4.weaken (fun h => h.elim)) h hg⟩

/-- C110, longer arrays and new members, any two readers: what a program got from the old value, finding all that it looked for and listing
or counting nothing, it gets from the new one. -/
theorem c110_grown {ρ σ α : Type} {R : Reader ρ} {S : Reader σ} (hR : R.Raises) (hS : S.Raises) (lst : List Bytes → List Bytes)
    {r : ρ} {s : σ} {v w : Val} (hr : R.Agrees r v) (hs : S.Agrees s w) (h : v.Grown w) {p : Prog α} (hp : p.Finds lst v []) :
    ∃ a, p.run R lst r [] = .ok a ∧ p.run S lst s [] = .ok a := by
  refine ⟨_, run_tell hR lst hr p [] [] ⟨rfl, fun i h => by simp at h⟩, ?_⟩
  rw [run_tell hS lst hs p [] [] ⟨rfl, fun i h => by simp at h⟩, tell_grown lst h [] [] ⟨rfl, fun i a h => by simp at h⟩ hp]

/-- C110, the same for what two formats write. -/
theorem c110_grown_written {P Q : Proto} {p q : Prop} {D E : Val → Prop} (hP : P.RoundTrips p D) (hQ : Q.RoundTrips q E)
    (rP : P.reader.Raises) (rQ : Q.reader.Raises) (lst : List Bytes → List Bytes) {v w : Val} (hD : D v) (hE : E w) (h : v.Grown w)
    {b c : Bytes} (hb : P.serialize v = .ok b) (hc : Q.serialize w = .ok c) :
    ∃ r s, P.opn b = .ok r ∧ Q.opn c = .ok s ∧
      ∀ {α : Type} {g : Prog α}, g.Finds lst v [] → ∃ a, g.run P.reader lst r [] = .ok a ∧ g.run Q.reader lst s [] = .ok a := by
  obtain ⟨r, h1, h2⟩ := hP v b hD hb
  obtain ⟨s, h3, h4⟩ := hQ w c hE hc
  exact ⟨r, s, h1, h3, fun hg => c110_grown rP rQ lst (h2.weaken (fun h => h.elim)) (h4.weaken (fun h => h.elim)) h hg⟩

/-- C110, new members, Flex, keys in any order: programs that do not depend on the order in which keys are listed. -/
theorem c110_flex {L : Flex.Lib} (H : L.Law) (dbg : Bool) {N : Bytes → Bool} {lst : List Bytes → List Bytes}
    (hp : ∀ a b : List Bytes, a.Perm b → lst a = lst b) (hl : ∀ ks, lst (ks.filter fun k => !N k) = lst ks) {v w : Val}
    (h : (v.without N).Same (w.without N)) (hd : v.Distinct) (hn : v.NulFree) (hf : Flex.Fits v)
    (hd' : w.Distinct) (hn' : w.NulFree) (hf' : Flex.Fits w) :
    ∃ b c r s, (Flex.proto L dbg).serialize v = .ok b ∧ (Flex.proto L dbg).serialize w = .ok c ∧ Flex.opn b = .ok r ∧ Flex.opn c = .ok s ∧
      ∀ {α : Type} {g : Prog α}, g.Ignores N → ∃ a, g.run Flex.reader lst r [] = .ok a ∧ g.run Flex.reader lst s [] = .ok a := by
  obtain ⟨b, r, h1, h2, h3⟩ := c109_flex H dbg hp hd hn hf
  obtain ⟨c, s, k1, k2, k3⟩ := c109_flex H dbg hp hd' hn' hf'
  refine ⟨b, c, r, s, h1, k1, h2, k2, fun {α g} hg => ⟨_, h3 g, ?_⟩⟩
  rw [k3 g]
  have e1 : g.tell lst (v.without N) [] = g.tell lst v [] := tell_without hl v hg []
  have e2 : g.tell lst (w.without N) [] = g.tell lst w [] := tell_without hl w hg []
  rw [← e1, ← e2, tell_same lst h g]

/-! ## Instances and limits -/

/-- `{"b": 200, "a": 5u}`, and a later version with a member in front and one behind. -/
def laterVal : Val := .map [([110], .arr [.null]), ([98], .int 200), ([97], .uint 5), ([111], .str [1])]

/-- The keys of the later version. -/
def laterKeys : Bytes → Bool := fun k => k = [110] || k = [111]

theorem sumProg_ignores : sumProg.Ignores laterKeys := by
  refine ⟨fun k h => by cases h; decide, fun b => ?_⟩
  cases b
  · exact trivial
  · refine ⟨fun k h => (by cases h), fun x => ⟨fun k h => (by cases h; decide), fun b => ?_⟩⟩
    cases b
    · exact trivial
    · refine ⟨fun k h => (by cases h), fun y => ?_⟩
      dsimp only
      split <;> exact trivial

/-- C110, an instance: the sum of two members of the old message, in ZERA, and of the new one, in MessagePack. -/
theorem c110_example : ∃ z m rz rm, Zera.proto.serialize routeVal = .ok z ∧ MsgPack.proto.serialize laterVal = .ok m ∧
    Zera.proto.opn z = .ok rz ∧ MsgPack.proto.opn m = .ok rm ∧ sumProg.run Zera.reader (fun _ => []) rz [] = .ok 205 ∧
    sumProg.run MsgPack.reader (fun _ => []) rm [] = .ok 205 := by
  obtain ⟨z, hz⟩ : ∃ z, Zera.proto.serialize routeVal = .ok z := ⟨_, rfl⟩
  obtain ⟨m, hm⟩ : ∃ m, MsgPack.proto.serialize laterVal = .ok m := ⟨_, rfl⟩
  obtain ⟨rz, rm, h1, h2, h3⟩ := c110_written Zera.proto_roundTrips MsgPack.proto_roundTrips Zera.raises MsgPack.raises (N := laterKeys)
    (lst := fun _ => []) (fun _ => rfl) (v := routeVal) (w := laterVal) trivial
    (by simp [laterVal, Val.Sized, Val.sizedEntries, Val.sizedList, Val.Below, Val.Below.belowEntries, Val.Below.belowList]) rfl hz hm
  obtain ⟨a, h4, h5⟩ := h3 sumProg_ignores
  obtain ⟨r, k1, k2⟩ := Zera.proto_roundTrips routeVal z trivial hz
  rw [h1] at k1; cases k1
  have e := run_tell Zera.raises (fun _ => []) (k2.weaken (fun h => h.elim)) sumProg [] [] ⟨rfl, fun i h => by simp at h⟩
  have e' : sumProg.tell (fun _ => []) routeVal [] = 205 := by decide
  rw [e'] at e
  obtain rfl : a = 205 := Res.ok.inj (h4.symm.trans e)
  exact ⟨z, m, rz, rm, hz, hm, h1, h2, h4, h5⟩

/-- C110 is false of programs that list keys or count elements: the keys of the old and the new message differ, and so does the size of an
array that has grown. -/
theorem c110_refuted : ∃ (a b c d : Bytes),
    MsgPack.proto.serialize routeVal = .ok a ∧ MsgPack.proto.serialize laterVal = .ok b ∧
    MsgPack.proto.serialize (.arr [.null]) = .ok c ∧ MsgPack.proto.serialize (.arr [.null, .null]) = .ok d ∧
    (routeVal.without laterKeys).Same (laterVal.without laterKeys) ∧ Val.Grown (.arr [.null]) (.arr [.null, .null]) ∧
    MsgPack.reader.mapKeys a = .ok [[98], [97]] ∧ MsgPack.reader.mapKeys b = .ok [[110], [98], [97], [111]] ∧
    MsgPack.reader.arraySize c = .ok 1 ∧ MsgPack.reader.arraySize d = .ok 2 := by
  refine ⟨_, _, _, _, rfl, rfl, rfl, rfl, rfl, .arr (fun _ => .null) (fun i a h => ?_) (fun i a h => ?_), by decide, by decide, by decide,
    by decide⟩
  · match i with
    | 0 => rfl
    | i + 1 => cases h
  · match i with
    | 0 => cases h; exact .same _
    | i + 1 => cases h

end Zer
