import Verif.Catch.Zera
import Verif.Catch.Others
import Verif.Props.Zera
import Verif.Props.Json
import Verif.Props.Flex
import Verif.Props.Borrow

/-!
# C71, C72: writer calls that are refused, and `finish()` more than once
-/

namespace Zer.Zera

/-! ### C71, ZERA -/

/-- C71: whatever calls are made and whichever exceptions are caught, the writer stays defined. -/
theorem c71_zera_defined (thr : Nat) (es : List Ev) : ∃ l s, catching callX { thr := thr } es = .ok (l, s) :=
  catching_total es _

/-- C71: the document at `finish()` is the one described by `Tree.next`: refused calls have no effect, except that the
refused end of a container removes the container, and the refused end of a map that waits for a value makes `finish()`
impossible. -/
theorem c71_zera_history (thr : Nat) {es : List Ev} {l : List (Ev × Bool)} {s : RS}
    (h : catching callX { thr := thr } es = .ok (l, s)) :
    (∃ b t v r, finish s = .ok b ∧ l.foldlM Tree.next {} = some t ∧ t.finish = some v ∧ initFrom b = .ok r ∧
      reader.AgreesStrictly r v) ∨ finish s = .err .ser := by
  have hR := catching_sim (rel_init thr) h
  cases ht : l.foldlM Tree.next {} with
  | none => rw [ht] at hR; exact .inr hR.finish
  | some t =>
    rw [ht] at hR
    rcases finish_sim hR with ⟨b, v, env, arena, root, ao, vr, f1, f2, F, hat, hr⟩ | hf
    · obtain ⟨o1, o2⟩ := F.opens hat hr.length
      exact .inl ⟨b, t, v, _, f1, rfl, f2, o1, agrees_of_aligned (hr.agreesAligned v o2 rfl hat)⟩
    · exact .inr hf

theorem foldlM_next : ∀ {l : List (Ev × Bool)} (t : Tree), (∀ p ∈ l, p.2 = false → p.1 ≠ .endArr ∧ p.1 ≠ .endMap) →
    l.foldlM Tree.next t = t.run (accepted l)
  | [], _, _ => rfl
  | (e, true) :: l, t, h => by
    simp only [List.foldlM, accepted_true, Tree.run]
    change (t.step e).bind _ = _
    cases t.step e with
    | none => rfl
    | some t' => exact foldlM_next t' (fun p hp => h p (List.mem_cons_of_mem _ hp))
  | (e, false) :: l, t, h => by
    have h1 : t.next (e, false) = some t := by
      have := h (e, false) List.mem_cons_self rfl
      cases e <;> first | rfl | exact absurd rfl this.1 | exact absurd rfl this.2
    simp only [List.foldlM, accepted_false, h1]
    exact foldlM_next t (fun p hp => h p (List.mem_cons_of_mem _ hp))

/-- C71, the part that holds: if no `end_array` or `end_map` was refused, the buffer presents the value spelled by the
accepted calls; the refused ones have no effect. -/
theorem c71_zera_partial (thr : Nat) {es : List Ev} {l : List (Ev × Bool)} {s : RS}
    (h : catching callX { thr := thr } es = .ok (l, s))
    (hend : ∀ p ∈ l, p.2 = false → p.1 ≠ .endArr ∧ p.1 ≠ .endMap) :
    (∃ b v r, finish s = .ok b ∧ Tree.eval (accepted l) = some v ∧ initFrom b = .ok r ∧ reader.AgreesStrictly r v) ∨
      finish s = .err .ser := by
  rcases c71_zera_history thr h with ⟨b, t, v, r, h1, h2, h3, h4, h5⟩ | h'
  · rw [foldlM_next _ hend] at h2
    exact .inl ⟨b, v, r, h1, by simp [Tree.eval, h2, h3], h4, h5⟩
  · exact .inr h'

/-- A value without key, a second key, a blob where a key is expected and a second root are refused. -/
example : (catching callX {} [.beginMap 1, .null, .key [97], .key [98], .str [1], .blob [7, 7], .endMap, .uint 3] >>= fun p => .ok p.1) =
    .ok [(.beginMap 1, true), (.null, false), (.key [97], true), (.key [98], false), (.str [1], true), (.blob [7, 7], false),
      (.endMap, true), (.uint 3, false)] := by decide +kernel

/-- C71: once `end_map` was refused because a key waits for its value, no further calls lead to a document. -/
theorem c71_zera_spoiled {s : RS} {p : Bytes} {n pos : Nat} {st : List Ctx} (hs : s.st = .map p n (some pos) :: st)
    {es : List Ev} {l : List (Ev × Bool)} {s' : RS} (h : catching callX s (.endMap :: es) = .ok (l, s')) :
    finish s' = .err .ser := by
  have hc : callX .endMap s = (.err .ser, { s with st := .map [] n (some pos) :: st }) := by
    simp only [callX, Exc.bind_run, Exc.get_run, hs, Exc.put_run, Exc.throw_run]
  simp only [catching, hc] at h
  obtain ⟨⟨l', s''⟩, h1, h2⟩ := Res.bind_eq_ok.1 h
  cases h2
  exact (catching_inv (I := Dead) (fun hI hc => hI.callX _ hc) ⟨n, pos, List.mem_cons_self⟩ h1).finish

/-- The calls of `{"a": null}` with an `end_map` too early. -/
def early : List Ev := [.beginMap 1, .key [97], .endMap, .null, .endMap]
/-- An array where a key is expected, then `{"a": null}`. -/
def keyless : List Ev := [.beginMap 1, .beginArr 0, .null, .endArr, .key [97], .null, .endMap]

/-- C71 is false for ZERA: (1) after the refused `end_map` of `early` the value is refused too and the document cannot be
finished, although without the refused call the same calls make a document; (2) the refused `end_array` of `keyless`
removes the array, whose `begin_array` and element were accepted: the accepted calls do not spell a document, and yet
one is made, without the array. -/
theorem c71_zera_refuted :
    (∃ l s b, catching callX {} early = .ok (l, s) ∧
      l = [(.beginMap 1, true), (.key [97], true), (.endMap, false), (.null, false), (.endMap, false)] ∧
      finish s = .err .ser ∧ (writer.run {} (early.eraseIdx 2) >>= finish) = .ok b) ∧
    (∃ l s b r, catching callX {} keyless = .ok (l, s) ∧ Tree.eval (accepted l) = none ∧ finish s = .ok b ∧ initFrom b = .ok r ∧
      reader.AgreesStrictly r (.map [([97], .null)])) := by
  constructor
  · obtain ⟨l, s, h⟩ := c71_zera_defined 12 early
    have hl : (catching callX {} early >>= fun p => .ok p.1) =
      .ok [(.beginMap 1, true), (.key [97], true), (.endMap, false), (.null, false), (.endMap, false)] := by decide +kernel
    have hf : (catching callX {} early >>= fun p => finish p.2) = .err .ser := by decide +kernel
    have h' : catching callX {} early = .ok (l, s) := h
    rw [h'] at hl hf
    cases hl
    have hb : (match writer.run {} (early.eraseIdx 2) >>= finish with | .ok _ => true | _ => false) = true := by decide +kernel
    obtain ⟨b, hb⟩ : ∃ b, (writer.run {} (early.eraseIdx 2) >>= finish) = .ok b := by
      revert hb
      cases writer.run {} (early.eraseIdx 2) >>= finish <;> simp
    exact ⟨_, s, b, h, rfl, hf, hb⟩
  · obtain ⟨l, s, h⟩ := c71_zera_defined 12 keyless
    have hl : (catching callX {} keyless >>= fun p => .ok p.1) =
      .ok [(.beginMap 1, true), (.beginArr 0, true), (.null, true), (.endArr, false), (.key [97], true), (.null, true), (.endMap, true)] := by
      decide +kernel
    have hf : (match catching callX {} keyless >>= fun p => finish p.2 with | .ok _ => true | _ => false) = true := by decide +kernel
    have h' : catching callX {} keyless = .ok (l, s) := h
    rw [h'] at hl hf
    cases hl
    rcases c71_zera_history 12 h with ⟨b, t, v, r, h1, h2, h3, h4, h5⟩ | h1
    · have hv : v = .map [([97], .null)] := by
        cases h2
        cases h3
        rfl
      subst hv
      exact ⟨_, s, b, r, h, rfl, h1, h4, h5⟩
    · simp [h1] at hf

end Zer.Zera

namespace Zer.Json.Heap

/-! ### C71, JSON -/

/-- C71 for JSON: a caller that catches exceptions gets what they would get from the accepted calls alone, provided the
views of the accepted strings are still valid at `finish()` (C60). -/
theorem c71_json_refused (T : Text) (dbg : Bool) {h : List (Mem × Call)} {l : List ((Mem × Call) × Bool)} {S : RS}
    (hc : catching (callX dbg) {} h = .ok (l, S)) {m : Mem} {es : List Ev} (hs : SaysAll m.read (accepted l) es) :
    finish T m S = (run dbg {} (accepted l) >>= finish T m) ∧ l.map Prod.fst = h := by
  refine ⟨?_, catching_calls hc⟩
  obtain ⟨s', P', h1, h2⟩ := catching_match dbg (inv_init m.read) hc hs
  rw [refine T dbg hs, h1]
  simp only [Res.ok_bind, finish, (h2.doc s'.st.length rfl).2]
  rfl

/-- The memory of the example: one string. -/
def oneStr : Mem := fun a => if a = 0 then some [104, 105] else none

/-- A value without key, a blob where a key is expected, `end_array` in a map and a second root are refused. -/
example : (catching (callX false) {} ([.beginMap 1, .null, .blob ⟨0, 0, 2⟩, .key ⟨0, 0, 1⟩, .endArr, .str ⟨0, 0, 2⟩, .endMap, .uint 3].map
      (oneStr, ·)) >>= fun p => .ok (p.1.map Prod.snd)) = .ok [true, false, false, true, false, true, true, false] := by decide +kernel

example : SaysAll oneStr.read ([(oneStr, .beginMap 1), (oneStr, .key ⟨0, 0, 1⟩), (oneStr, .str ⟨0, 0, 2⟩), (oneStr, .endMap)])
    [.beginMap 1, .key [104], .str [104, 105], .endMap] :=
  ⟨_, _, rfl, ⟨_, _, ⟨_, rfl, rfl⟩, ⟨_, _, ⟨_, rfl, rfl⟩, ⟨_, _, rfl, rfl, rfl⟩, rfl⟩, rfl⟩, rfl⟩

end Zer.Json.Heap

namespace Zer.Flex

/-! ### C71, Flex -/

/-- C71 for Flex: as long as the process is not ended by an assertion and nothing is undefined, the state is that of the
accepted calls, and so is the buffer. -/
theorem c71_flex_refused (L : Lib) (dbg : Bool) {es : List Ev} {l : List (Ev × Bool)} {s : RS}
    (h : catching (callX L dbg) {} es = .ok (l, s)) :
    finish dbg s = (proto L dbg).bytesOf (accepted l) ∧ l.map Prod.fst = es := by
  refine ⟨?_, catching_calls h⟩
  show _ = ((writer L dbg).run {} (accepted l) >>= finish dbg)
  rw [catching_run L dbg h]
  rfl

example (L : Lib) : ∃ s, catching (callX L true) {} [.beginArr 1, .endMap, .uint 3, .endArr, .endArr] =
    .ok ([(.beginArr 1, true), (.endMap, false), (.uint 3, true), (.endArr, true), (.endArr, false)], s) := ⟨_, rfl⟩

/-! ### C72 -/

/-- C72 is false for Flex: whatever was written, a second `finish()` returns an empty buffer, which reads as null. -/
theorem c72_flex_refuted (dbg : Bool) (s : RS) {b : Bytes} {s' : Done} (h : finishX dbg ⟨s, false⟩ = (.ok b, s')) :
    (finishX dbg s').1 = .ok [] ∧ ∃ r, opn [] = .ok r ∧ reader.AgreesStrictly r .null := by
  have : s' = ⟨s, true⟩ := by
    simp only [finishX, Exc.bind_run, Exc.get_run, Exc.ite_run, Bool.false_eq_true, if_false, Exc.lift_run, Exc.put_run, Exc.pure_run] at h
    cases hf : finish dbg s <;> rw [hf] at h <;> cases h
    rfl
  subst this
  exact ⟨rfl, nullRef, rfl, .null ⟨rfl, rfl, ⟨_, _, rfl, rfl, rfl⟩, rfl, rfl, rfl, rfl, rfl⟩⟩

example : finishX true ⟨push {} ⟨2, 5, 0⟩, false⟩ = (.ok [5, 8, 1], ⟨push {} ⟨2, 5, 0⟩, true⟩) := rfl

end Zer.Flex

namespace Zer.Zera

/-! ### C72, ZERA -/

theorem Tree.deliver_root {t t' : Tree} {v w : Val} (h : t.deliver v = some t') (hr : t.root = some w) : t'.root = some w := by
  obtain ⟨stack, root⟩ := t
  dsimp only at hr
  subst hr
  cases stack with
  | nil => cases h
  | cons f fs =>
    cases f with
    | arr xs => cases h; rfl
    | map ms pk =>
      cases pk with
      | none => cases h
      | some k => cases h; rfl

/-- A root that is set is never replaced. -/
theorem Tree.next_root {t t' : Tree} {p : Ev × Bool} {w : Val} (h : t.next p = some t') (hr : t.root = some w) : t'.root = some w := by
  obtain ⟨e, ok⟩ := p
  cases ok with
  | true =>
    change t.step e = some t' at h
    cases e with
    | null => exact Tree.deliver_root h hr
    | bool b => exact Tree.deliver_root h hr
    | int b => exact Tree.deliver_root h hr
    | uint b => exact Tree.deliver_root h hr
    | dbl b => exact Tree.deliver_root h hr
    | str b => exact Tree.deliver_root h hr
    | blob b => exact Tree.deliver_root h hr
    | key k =>
      simp only [Tree.step] at h
      split at h
      · cases h; exact hr
      · cases h
    | beginArr n => cases h; exact hr
    | beginMap n => cases h; exact hr
    | endArr =>
      simp only [Tree.step] at h
      split at h
      · exact Tree.deliver_root h hr
      · cases h
    | endMap =>
      simp only [Tree.step] at h
      split at h
      · exact Tree.deliver_root h hr
      · cases h
  | false =>
    cases e with
    | endArr =>
      simp only [Tree.next] at h
      split at h <;> cases h <;> exact hr
    | endMap =>
      simp only [Tree.next] at h
      split at h <;> cases h <;> exact hr
    | _ => cases h; exact hr

/-- The buffer presents the value. -/
def Presents (b : Bytes) (v : Val) : Prop := ∃ r, initFrom b = .ok r ∧ reader.AgreesStrictly r v

/-- Invariant of a session: once a buffer was handed out, the root is fixed. -/
def Frozen (p : Session RS) : Prop :=
  ∃ o, RelX p.1 o ∧ (p.2 = [] ∨ ∃ v, (∀ b ∈ p.2, Presents b v) ∧ ∀ t, o = some t → t.root = some v)

theorem Frozen.step {p p' : Session RS} {op : Op} {r : Res Unit} (h : Frozen p)
    (hc : session callX finishX op p = (r, p')) : Frozen p' := by
  obtain ⟨s, outs⟩ := p
  obtain ⟨o, hR, ho⟩ := h
  dsimp only at hR ho
  cases op with
  | call e =>
    simp only [session] at hc
    cases hc
    cases o with
    | none =>
      refine ⟨none, hR.callX e (r := (callX e s).1) rfl, ?_⟩
      rcases ho with ho | ⟨v, h1, _⟩
      · exact .inl ho
      · exact .inr ⟨v, h1, by simp⟩
    | some t =>
      rcases callX_agree e s with ⟨s1, h1, h2⟩ | ⟨r', s1, h1, h0, h2, h3⟩
      · obtain ⟨t', k1, k2⟩ := callX_ok hR h2
        refine ⟨some t', by rw [h2]; exact k2, ?_⟩
        rcases ho with ho | ⟨v, a1, a2⟩
        · exact .inl ho
        · exact .inr ⟨v, a1, fun t'' ht => by cases ht; exact Tree.next_root k1 (a2 t rfl)⟩
      · refine ⟨t.next (e, false), by rw [h2]; exact callX_err hR h2, ?_⟩
        rcases ho with ho | ⟨v, a1, a2⟩
        · exact .inl ho
        · exact .inr ⟨v, a1, fun t'' ht => Tree.next_root ht (a2 t rfl)⟩
  | finish =>
    obtain ⟨hb, hst⟩ := finishX_eq s
    simp only [session] at hc
    cases o with
    | none =>
      have hD : Dead s := hR
      have hf := hD.finish
      rcases hb with ⟨b, h1, h2⟩ | ⟨h1, h2⟩
      · rw [hf] at h1; cases h1
      · rcases hst with h3 | ⟨h3, _⟩
        · have : finishX s = (.err .ser, s) := Prod.ext h2 h3
          rw [this] at hc
          cases hc
          exact ⟨none, hR, by
            rcases ho with ho | ⟨v, a1, _⟩
            · exact .inl ho
            · exact .inr ⟨v, a1, by simp⟩⟩
        · obtain ⟨n, pos, hm⟩ := hD
          rw [h3] at hm; cases hm
    | some t =>
      -- the state afterwards belongs to the tree with its root
      have key : ∃ t', Rel (finishX s).2 t' ∧ t'.stack = t.stack ∧ (t' = t ∨ (t.root = none ∧ t.stack = [] ∧ t'.root = some .null)) := by
        rcases hst with h3 | ⟨h3, h4, h5⟩
        · exact ⟨t, by rw [h3]; exact hR, rfl, .inl rfl⟩
        · have hs := hR.stack
          have hr := hR.root
          rw [h3] at hs
          rw [h4] at hr
          obtain ⟨stack, root⟩ := t
          cases stack with
          | cons => exact hs.elim
          | nil =>
            cases root with
            | some => exact hr.elim
            | none =>
              have hd : deliverVr s (makeVr tNull 0 0 0 0 0) = .ok (finishX s).2 := by
                unfold deliverVr; rw [h3]; exact h5
              rcases deliver_sim hR (vr := makeVr tNull 0 0 0 0 0) (v := .null) .null with ⟨s', t', k1, k2, k3, _⟩ | k
              · rw [hd] at k1
                injection k1 with k1
                cases k2
                exact ⟨⟨[], some .null⟩, by rw [k1]; exact k3, rfl, .inr ⟨rfl, rfl, rfl⟩⟩
              · rw [hd] at k; cases k
      obtain ⟨t', hR', hstk, ht'⟩ := key
      have hold : ∀ v, t.root = some v → t'.root = some v := by
        intro v hv
        rcases ht' with rfl | ⟨h, _, _⟩
        · exact hv
        · rw [h] at hv; cases hv
      rcases hb with ⟨b, h1, h2⟩ | ⟨h1, h2⟩
      · have hx : finishX s = (.ok b, (finishX s).2) := Prod.ext h2 rfl
        rw [hx] at hc
        cases hc
        rcases finish_sim hR with ⟨b', v, env, arena, root, ao, vr, f1, f2, F, hat, hr⟩ | hf
        · rw [h1] at f1
          injection f1 with f1
          subst f1
          obtain ⟨o1, o2⟩ := F.opens hat hr.length
          have hp : Presents b v := ⟨_, o1, agrees_of_aligned (hr.agreesAligned v o2 rfl hat)⟩
          have hstack : t.stack = [] ∧ v = t.root.getD .null := by
            simp only [Tree.finish] at f2
            split at f2
            · rename_i hs; cases f2; exact ⟨hs, rfl⟩
            · cases f2
          have hroot : t'.root = some v := by
            rcases ht' with rfl | ⟨h3, _, h4⟩
            · cases hr0 : t'.root with
              | some w => rw [hr0] at hstack; rw [hstack.2]; rfl
              | none =>
                exfalso
                -- a null root has been added
                rcases hst with h3 | ⟨h3, h4, h5⟩
                · have hs := hR.stack
                  have hrr := hR.root
                  rw [hr0] at hrr
                  rw [hstack.1] at hs
                  obtain ⟨st, env0, arena0, root0, thr0⟩ := s
                  cases root0 with
                  | some => exact hrr.elim
                  | none =>
                    cases st with
                    | cons => exact hs.elim
                    | nil =>
                      simp only [finish] at h1
                      obtain ⟨s1, w1, w2⟩ := Res.bind_eq_ok.1 h1
                      have hw : (finishX ⟨[], env0, arena0, none, thr0⟩).2.root ≠ none := by
                        simp only [writeRootVr, appendEnv] at w1
                        by_cases hb : env0.length > u32max
                        · rw [if_pos hb] at w1; cases w1
                        · simp only [finishX, writeRootX, appendEnvX, Exc.bind_run, Exc.get_run, Exc.ite_run, Exc.put_run, Exc.pure_run,
                            Exc.throw_run, if_neg hb]
                          split
                          · simp
                          · split
                            · simp
                            · split <;> simp
                      rw [h3] at hw
                      exact hw rfl
                · have hrr := hR'.root
                  rw [hr0] at hrr
                  unfold writeRootVr at h5
                  rw [h4] at h5
                  obtain ⟨x, _, x2⟩ := Res.bind_eq_ok.1 h5
                  have : (finishX s).2.root ≠ none := by
                    injection x2 with x2
                    rw [← x2]; simp
                  cases hq : (finishX s).2.root with
                  | none => exact this hq
                  | some => rw [hq] at hrr; exact hrr
            · rw [h4, hstack.2, h3]; rfl
          refine ⟨some t', hR', .inr ⟨v, ?_, fun t'' ht => by cases ht; exact hroot⟩⟩
          intro b' hb'
          rcases List.mem_append.1 hb' with hb' | hb'
          · rcases ho with ho | ⟨w, a1, a2⟩
            · rw [ho] at hb'; cases hb'
            · have hw := a2 t rfl
              have : w = v := by rw [hstack.2, hw]; rfl
              subst this
              exact a1 b' hb'
          · simp at hb'; subst hb'; exact hp
        · rw [h1] at hf; cases hf
      · have hx : finishX s = (.err .ser, (finishX s).2) := Prod.ext h2 rfl
        rw [hx] at hc
        cases hc
        refine ⟨some t', hR', ?_⟩
        rcases ho with ho | ⟨v, a1, a2⟩
        · exact .inl ho
        · exact .inr ⟨v, a1, fun t'' ht => by cases ht; exact hold v (a2 t rfl)⟩

/-- C72 for ZERA: all the buffers that one serializer ever hands out present the same value, whatever calls are made in
between and whichever exceptions are caught. -/
theorem c72_zera_same_value (thr : Nat) {ops : List Op} {l : List (Op × Bool)} {s : RS} {outs : List Bytes}
    (h : catching (session callX finishX) ({ thr := thr }, []) ops = .ok (l, s, outs)) :
    ∃ v, ∀ b ∈ outs, ∃ r, initFrom b = .ok r ∧ reader.AgreesStrictly r v := by
  have hF : Frozen ({ thr := thr }, []) := ⟨some {}, rel_init thr, .inl rfl⟩
  obtain ⟨o, _, ho⟩ := catching_inv (I := Frozen) (fun hI hc => hI.step hc) hF h
  rcases ho with ho | ⟨v, h1, _⟩
  · dsimp only at ho; subst ho; exact ⟨.null, by simp⟩
  · exact ⟨v, h1⟩

/-- C72 for ZERA: `finish()` at once again returns the same bytes. -/
theorem c72_zera_again {s s' : RS} {b : Bytes} (h : finishX s = (.ok b, s')) : finishX s' = (.ok b, s') := by
  obtain ⟨st, env, arena, root, thr⟩ := s
  cases st with
  | cons c cs => cases h
  | nil =>
    cases root with
    | some o =>
      obtain ⟨h1, h2⟩ := finishX_eq ⟨[], env, arena, some o, thr⟩
      rcases h2 with h2 | ⟨_, h2, _⟩
      · rw [h] at h2; dsimp only at h2; subst h2; exact h
      · cases h2
    | none =>
      by_cases hb : env.length > u32max
      · simp only [finishX, writeRootX, appendEnvX, Exc.bind_run, Exc.get_run, Exc.ite_run, Exc.throw_run, if_pos hb] at h
        cases h
      · simp only [finishX, writeRootX, appendEnvX, Exc.bind_run, Exc.get_run, Exc.ite_run, Exc.put_run, Exc.pure_run,
          Exc.throw_run, if_neg hb] at h
        split at h
        · cases h
        · split at h
          · cases h
          · split at h
            · cases h
            · rename_i e1 e2 e3
              cases h
              simp only [finishX, Exc.bind_run, Exc.get_run, Exc.ite_run, Exc.pure_run, Exc.throw_run, if_neg e1, if_neg e2, if_neg e3]

/-- Three buffers from one serializer: null is frozen by the first `finish()`. -/
example : (catching (session callX finishX) ({}, []) [.finish, .call (.uint 5), .finish, .call (.beginArr 0), .finish, .call .endArr, .finish]
    >>= fun p => .ok (p.1.map Prod.snd, p.2.2.length)) = .ok ([true, false, true, true, false, false, true], 3) := by decide +kernel

end Zer.Zera

namespace Zer.Json

/-- C72 for JSON: a serializer hands out at most one buffer; every later `finish()` raises. -/
theorem c72_json_once (T : Text) (dbg : Bool) {ops : List Op} {l : List (Op × Bool)} {s : Live} {outs : List Bytes}
    (h : catching (session (callX dbg) (finishX T)) ({}, []) ops = .ok (l, s, outs)) :
    outs.length ≤ 1 ∧ (outs ≠ [] → s.doc = false ∧ (finishX T s).1 = .err .runtime) := by
  have hinv : (s.doc = true → outs = []) ∧ outs.length ≤ 1 := by
    refine catching_inv (call := session (callX dbg) (finishX T))
      (I := fun (p : Session Live) => (p.1.doc = true → p.2 = []) ∧ p.2.length ≤ 1) ?_ (by simp) h
    intro p op r p' hI hc
    obtain ⟨s, outs⟩ := p
    obtain ⟨h1, h2⟩ := hI
    dsimp only at h1 h2
    cases op with
    | call e =>
      simp only [session] at hc
      cases hc
      have hd : ((callX dbg e s).2).doc = s.doc := by
        unfold callX
        cases hu : (usesDoc e && !s.doc) with
        | true => rfl
        | false =>
          simp only [Bool.false_eq_true, if_false]
          cases step dbg s.rs e <;> rfl
      exact ⟨fun h => h1 (by rw [← hd]; exact h), h2⟩
    | finish =>
      simp only [session, finishX, Exc.bind_run, Exc.get_run, Exc.ite_run, Exc.put_run, Exc.lift_run, Exc.throw_run] at hc
      cases hdoc : s.doc with
      | false =>
        simp only [hdoc, Bool.false_eq_true, if_false] at hc
        cases hc
        refine ⟨fun h => ?_, h2⟩
        rw [hdoc] at h
        cases h
      | true =>
        simp only [hdoc, if_true] at hc
        have := h1 hdoc
        subst this
        cases hf : finish T s.rs <;> rw [hf] at hc <;> cases hc <;> simp
  refine ⟨hinv.2, fun hne => ?_⟩
  have hd : s.doc = false := by
    cases hs : s.doc with
    | false => rfl
    | true => exact absurd (hinv.1 hs) hne
  refine ⟨hd, ?_⟩
  simp only [finishX, Exc.bind_run, Exc.get_run, Exc.ite_run, hd, Bool.false_eq_true, if_false, Exc.throw_run]

end Zer.Json

namespace Zer.MsgPack

theorem packEv_run (W : Bytes) (es : List Ev) : writer.run W es = .ok (W ++ (es.map packEv).flatten) := by
  induction es generalizing W with
  | nil => simp
  | cons e es ih => simp [writer] at ih ⊢; rw [ih]; simp

theorem session_segments : ∀ (ops : List Op) (cur : List Ev) (outs : List Bytes), ∃ l s,
    catching (session callX finishX) (((cur.map packEv).flatten), outs) ops =
      .ok (l, s, outs ++ (segments ops cur).map (fun es => (es.map packEv).flatten))
  | [], cur, outs => ⟨[], (cur.map packEv).flatten, by simp [catching, segments]⟩
  | .call e :: ops, cur, outs => by
    obtain ⟨l, s, h⟩ := session_segments ops (cur ++ [e]) outs
    refine ⟨(.call e, true) :: l, s, ?_⟩
    have : ((cur ++ [e]).map packEv).flatten = (cur.map packEv).flatten ++ packEv e := by simp
    rw [this] at h
    have hc : session callX finishX (.call e) ((cur.map packEv).flatten, outs) = (.ok (), (cur.map packEv).flatten ++ packEv e, outs) := rfl
    unfold catching
    rw [hc]
    simp only
    rw [h]
    rfl
  | .finish :: ops, cur, outs => by
    obtain ⟨l, s, h⟩ := session_segments ops [] (outs ++ [(cur.map packEv).flatten])
    refine ⟨(.finish, true) :: l, s, ?_⟩
    have hc : session callX finishX .finish ((cur.map packEv).flatten, outs) = (.ok (), [], outs ++ [(cur.map packEv).flatten]) := rfl
    unfold catching
    rw [hc]
    simp only [List.map_nil, List.flatten_nil] at h ⊢
    rw [h]
    simp [segments]

/-- C72 for MessagePack, what holds: `finish()` starts over. Every buffer is that of a new serializer that got the calls
since the last `finish()`. -/
theorem c72_msgpack_starts_over (ops : List Op) : ∃ l s outs,
    catching (session callX finishX) ([], []) ops = .ok (l, s, outs) ∧
      (segments ops []).map proto.bytesOf = outs.map Res.ok := by
  obtain ⟨l, s, h⟩ := session_segments ops [] []
  refine ⟨l, s, _, h, ?_⟩
  have : ∀ es, proto.bytesOf es = .ok ((es.map packEv).flatten) := by
    intro es
    show (writer.run [] es >>= Res.ok) = _
    rw [packEv_run]; simp
  simp [this, List.map_map, Function.comp_def]

/-- C72 is false for MessagePack: a second `finish()` returns an empty buffer, which has no kind at all (and asking its
type in another way is undefined, C18). -/
theorem c72_msgpack_refuted (s : Bytes) : (finishX (finishX s).2).1 = .ok [] ∧ isNull [] = false ∧ isInt [] = false ∧ isMap [] = false ∧
    isArray [] = false := ⟨rfl, rfl, rfl, rfl, rfl⟩

example : segments [.call (.uint 5), .finish, .finish, .call .null, .finish] [] = [[.uint 5], [], [.null]] := rfl

end Zer.MsgPack

namespace Zer.Cbor

/-- C72 is false for CBOR: a second `finish()` returns an empty buffer, on which every accessor raises. -/
theorem c72_cbor_refuted (s : WS) : (finishX (finishX s).2).1 = .ok [] ∧
    View.isNull ⟨[], 0⟩ = .err .deser ∧ View.isInt ⟨[], 0⟩ = .err .deser ∧ View.isMap ⟨[], 0⟩ = .err .deser := by
  refine ⟨?_, by decide, by decide, by decide⟩
  obtain ⟨out, stack, wrote⟩ := s
  cases wrote <;> rfl

/-- C72 for CBOR, what holds: when all containers are closed, what is written after `finish()` makes the next buffer as
with a new serializer (which needs at least one value, because the next `finish()` does not write null). -/
theorem c72_cbor_starts_over (utf8 : Bytes → Bool) (maxDepth : Nat) (s : WS) (hs : s.stack = []) (v : Val) {b : Bytes}
    (hb : (proto utf8 maxDepth true 0).serialize v = .ok b) :
    ((writer utf8 maxDepth).run (finishX s).2 (emit v) >>= fun t => (finishX t).1) = .ok b := by
  obtain ⟨out, stack, wrote⟩ := s
  dsimp only at hs
  subst hs
  have h0 : (finishX ⟨out, [], wrote⟩).2 = ⟨[], [], true⟩ := by cases wrote <;> rfl
  rw [h0]
  by_cases h : v.TextOk utf8 ∧ v.nest ≤ maxDepth
  · rw [serialize_eq h.1 h.2] at hb
    cases hb
    rw [run_emit v _ h.1 (by simpa using h.2)]
    rfl
  · rw [serialize_bad h] at hb
    cases hb

example : (proto (fun _ => true) 1024 true 0).serialize (.arr [.uint 5]) = .ok [0x81, 5] := by decide +kernel

end Zer.Cbor
