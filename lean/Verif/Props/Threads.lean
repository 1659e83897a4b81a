import Verif.Lemmas.Threads
import Verif.Props.TreeIter
/-
Properties C97 and C98: parsing in several threads.

Vocabulary: `World.ofTreeParse h docs` is the moment before the calls `tree.parse(docs[0])`, `tree.parse(docs[1])`,
… are made by any threads in the memory `h`; `World.ofUxmlParse h tb docs` the same for `amara3.uxml.parse`, whose
calls share the builder `tb`.  `Steps w w'`: some schedule leads from `w` to `w'`; a schedule switches between calls
after any assignment, and the collector may run at any time.  `w.calls[k]? = some c`: `c` is the `k`-th call, and
`c.result` is how it has ended, if it has.
-/
namespace Amara

/-! ### C97 -/

/-- C97.  However many calls of `tree.parse` are going on, and however they are interleaved, a call that has ended has
returned the tree of its own document, with all parent links right; and that is still so at any later time, whatever
the other calls are doing. -/
theorem C97_calls_do_not_interfere {h docs} {w : World} (hs : Steps (World.ofTreeParse h docs) w) {k : Nat} {c : ParseCall} {r d e}
    (hk : w.calls[k]? = some c) (hr : c.result = some r) (hd : docs[k]? = some d) (he : IsDoc e d) :
    ∃ i, r = .returned (some i) ∧ Rep w.heap none i e := by
  obtain ⟨_, owner, _, hc⟩ := worldInv_steps (worldInv_start h docs) hs
  have hp := (hc k c hk).phase d hd
  cases hp with
  | starting n hn h1 h2 => rw [hr] at h2; cases h2
  | running dn rst b0 h1 h2 h3 => rw [hr] at h3; cases h3
  | ended root t h1 h2 h3 h4 =>
    rw [hr] at h2
    rw [drive_doc he] at h2 h3 h4
    have hdesc : Described (e.events []) (some e) :=
      ⟨he.1, (by cases e with | elem => simp [Node.events] | text => exact absurd he.1 (by simp [Node.isText])),
        [], by simp, by simp⟩
    rw [described_unique h3 hdesc] at h4
    obtain ⟨i, hi, hrep⟩ := isTop_isTree (h4 rfl)
    exact ⟨i, by rw [Option.some.inj h2, hi]; rfl, hrep⟩

/-- C97 for every text, also those that are no documents: a call ends as it would have ended alone, in any memory and
on any builder. -/
theorem C97_same_as_alone {h docs} {w : World} (hs : Steps (World.ofTreeParse h docs) w) {k : Nat} {c : ParseCall} {r d}
    (hk : w.calls[k]? = some c) (hr : c.result = some r) (hd : docs[k]? = some d)
    {b r0 b'} (hq : TreeParse b d r0 b') : EndsAs w.heap r b'.heap r0 := by
  obtain ⟨_, owner, _, hc⟩ := worldInv_steps (worldInv_start h docs) hs
  exact phase_endsAs ((hc k c hk).phase d hd) hr hq

/-- C97.  How a call has ended does not change later. -/
theorem C97_result_stays {h docs} {w w' : World} (hs : Steps (World.ofTreeParse h docs) w) (hs' : Steps w w') {k : Nat} {c : ParseCall} {r}
    (hk : w.calls[k]? = some c) (hr : c.result = some r) : w'.calls[k]? = some c := by
  have hlen := (worldInv_steps (worldInv_start h docs) hs).1
  obtain ⟨d, hd⟩ : ∃ d, docs[k]? = some d :=
    ⟨_, List.getElem?_eq_getElem (hlen ▸ lt_of_get hk)⟩
  have ht : c.todo = [] := by
    obtain ⟨_, owner, _, hc⟩ := worldInv_steps (worldInv_start h docs) hs
    cases (hc k c hk).phase d hd with
    | starting n hn h1 h2 => rw [hr] at h2; cases h2
    | running dn rst b0 h1 h2 h3 => rw [hr] at h3; cases h3
    | ended root t h1 => exact h1
  induction hs' with
  | refl => exact hk
  | tail _ h ih =>
    cases h with
    | collect => exact ih
    | call j =>
      by_cases hj : k = j
      · subst hj; rw [wstep_done ih ht]; exact ih
      · rw [wstep_other hj]; exact ih

/-- C97.  The trees of two calls have no node in common. -/
theorem C97_trees_are_disjoint {h docs} {w : World} (hs : Steps (World.ofTreeParse h docs) w) {k k' : Nat} {c c' : ParseCall} {i i'}
    (hk : w.calls[k]? = some c) (hr : c.result = some (.returned (some i)))
    (hk' : w.calls[k']? = some c') (hr' : c'.result = some (.returned (some i'))) (hne : k ≠ k') (x : Id) :
    ¬ (Reachable w.heap [i] x ∧ Reachable w.heap [i'] x) := by
  rintro ⟨h1, h2⟩
  obtain ⟨_, owner, ho, hc⟩ := worldInv_steps (worldInv_start h docs) hs
  have a := owned_reachable ho (k := k) (roots := [i]) (fun j hj => by
    rw [List.mem_singleton.1 hj]; exact (hc k c hk).res i hr) x h1
  have b := owned_reachable ho (k := k') (roots := [i']) (fun j hj => by
    rw [List.mem_singleton.1 hj]; exact (hc k' c' hk').res i' hr') x h2
  rw [a] at b
  exact hne (Option.some.inj b)

/-- C97.  No call can be blocked by the others: from any moment, a call that is given its turn often enough ends. -/
theorem C97_call_can_end {h docs} {w : World} (hs : Steps (World.ofTreeParse h docs) w) {k : Nat} {c : ParseCall}
    (hk : w.calls[k]? = some c) : ∃ n c' r, (w.stepN k n).calls[k]? = some c' ∧ c'.result = some r := by
  obtain ⟨c', h1, _, h3⟩ := stepN_self hk c.todo.length
  have hs' := steps_trans hs (alone_steps (stepN_alone w k c.todo.length))
  obtain ⟨hlen, owner, _, hc⟩ := worldInv_steps (worldInv_start h docs) hs'
  obtain ⟨d, hd⟩ : ∃ d, docs[k]? = some d :=
    ⟨_, List.getElem?_eq_getElem (hlen ▸ lt_of_get h1)⟩
  rw [List.drop_length] at h3
  cases (hc k c' h1).phase d hd with
  | starting n hn a1 =>
    rw [h3] at a1
    have := congrArg List.length a1
    simp [parseOps] at this
    omega
  | running dn rst b0 a1 a2 => rw [h3] at a2; simp at a2
  | ended root t a1 a2 => exact ⟨_, c', _, h1, a2⟩

/-- Two calls whose assignments alternate, one after the other, from the beginning to the end. -/
example : ∃ w c c' i i', Steps (World.ofTreeParse ⟨0, fun _ => none⟩ [exText, exText]) w ∧
    w.calls[0]? = some c ∧ w.calls[1]? = some c' ∧ c.result = some (.returned (some i)) ∧
    c'.result = some (.returned (some i')) ∧ Rep w.heap none i exElem ∧ Rep w.heap none i' exElem ∧ i ≠ i' := by
  -- the first steps alternate
  let w0 := World.ofTreeParse ⟨0, fun _ => none⟩ [exText, exText]
  let w1 := ((((((w0.step 0).step 1).step 1).step 0).step 0).step 1).step 0
  have h1 : Steps w0 w1 := .tail (.tail (.tail (.tail (.tail (.tail (.tail .refl (.call _)) (.call _)) (.call _)) (.call _)) (.call _)) (.call _)) (.call _)
  have hl : w1.calls.length = 2 := (worldInv_steps (worldInv_start _ _) h1).1
  have hg0 : w1.calls[0]? = some (w1.calls[0]'(by omega)) := List.getElem?_eq_getElem _
  obtain ⟨n, c, r, hc, hr⟩ := C97_call_can_end h1 hg0
  have h2 := steps_trans h1 (alone_steps (stepN_alone w1 0 n))
  have hl2 := (worldInv_steps (worldInv_start _ _) h2).1
  have hg1 : (w1.stepN 0 n).calls[1]? = some ((w1.stepN 0 n).calls[1]'(by rw [hl2]; simp)) :=
    List.getElem?_eq_getElem _
  obtain ⟨m, c', r', hc', hr'⟩ := C97_call_can_end h2 hg1
  have h3 := steps_trans h2 (alone_steps (stepN_alone (w1.stepN 0 n) 1 m))
  have hc3 : ((w1.stepN 0 n).stepN 1 m).calls[0]? = some c := by rw [stepN_other (by decide), hc]
  obtain ⟨i, rfl, hi⟩ := C97_calls_do_not_interfere h3 hc3 hr rfl exText_isDoc
  obtain ⟨i', rfl, hi'⟩ := C97_calls_do_not_interfere h3 hc' hr' rfl exText_isDoc
  refine ⟨_, c, c', i, i', h3, hc3, hc', hr, hr', hi, hi', ?_⟩
  rintro rfl
  exact C97_trees_are_disjoint h3 hc3 hr hc' hr' (by decide) i ⟨.root (by simp), .root (by simp)⟩

/-! ### C98 -/

/-- C98, what holds: a call of `amara3.uxml.parse` that no other call interrupts ends as it would have ended on a new
builder, whatever earlier calls, ended or given up half-way, have done to the builder they share. -/
theorem C98_uninterrupted_partial {w w' : World} {k s d} {c : ParseCall} {r} (h0 : w.calls[k]? = some (ParseCall.new s d)) (ha : Alone k w w')
    (hk : w'.calls[k]? = some c) (hr : c.result = some r) {b r0 b'} (hq : TreeParse b d r0 b') :
    EndsAs w'.heap r b'.heap r0 := by
  obtain ⟨c1, h1, h2, _⟩ := alone_phase h0 ha
  rw [hk] at h1
  cases h1
  exact phase_endsAs h2 hr hq

theorem parseOps_doc {e d} (h : IsDoc e d) : parseOps d =
    [.clearRoot, .clearParent, .newHandler] ++ ((e.events []).flatMap Event.ops).map .handle ++ [.finish .returned] := by
  rw [parseOps, drive_doc h]

/-- C98 fails, for any two documents: a call of `amara3.uxml.parse` that is interrupted by another returns the tree of
the other's document. Both calls return the same object. -/
theorem C98_interrupted_call_returns_other_tree (h : Heap) (tb : BuilderObj) {e1 e2 d1 d2} (he1 : IsDoc e1 d1)
    (he2 : IsDoc e2 d2) : ∃ w c1 c2 i, Steps (World.ofUxmlParse h tb [d1, d2]) w ∧
      w.calls[0]? = some c1 ∧ c1.result = some (.returned (some i)) ∧
      w.calls[1]? = some c2 ∧ c2.result = some (.returned (some i)) ∧ Rep w.heap none i e2 := by
  let w0 := World.ofUxmlParse h tb [d1, d2]
  have g0 : w0.calls[0]? = some (ParseCall.new 0 d1) := rfl
  have g1 : w0.calls[1]? = some (ParseCall.new 0 d2) := rfl
  -- the first call runs up to `return self._root`
  obtain ⟨a, ha, ha2, ha3⟩ := stepN_self g0 (((e1.events []).flatMap Event.ops).length + 3)
  have hat : a.todo = [.finish .returned] := by
    rw [ha3]
    show (parseOps d1).drop _ = _
    rw [parseOps_doc he1]
    exact List.drop_left' (by simp)
  generalize hw1 : w0.stepN 0 (((e1.events []).flatMap Event.ops).length + 3) = w1 at *
  have hs1 : Steps w0 w1 := hw1 ▸ alone_steps (stepN_alone _ _ _)
  have g1' : w1.calls[1]? = some (ParseCall.new 0 d2) := by rw [← hw1, stepN_other (by decide), g1]
  -- the second as well
  obtain ⟨b, hb, hb2, hb3⟩ := stepN_self g1' (((e2.events []).flatMap Event.ops).length + 3)
  have hbt : b.todo = [.finish .returned] := by
    rw [hb3]
    show (parseOps d2).drop _ = _
    rw [parseOps_doc he2]
    exact List.drop_left' (by simp)
  obtain ⟨b', hb', hph, hself⟩ := alone_phase g1' (stepN_alone w1 1 (((e2.events []).flatMap Event.ops).length + 3))
  rw [hb] at hb'
  cases hb'
  generalize hw2 : w1.stepN 1 (((e2.events []).flatMap Event.ops).length + 3) = w2 at *
  have hs2 : Steps w1 w2 := hw2 ▸ alone_steps (stepN_alone _ _ _)
  have ha2' : w2.calls[0]? = some a := by rw [← hw2, stepN_other (by decide), ha]
  -- both return
  obtain ⟨b1, hb1, hv1, _, hbt1, hbr, hb1e⟩ := wstep_self hb hbt
  have ha3' : (w2.step 1).calls[0]? = some a := by rw [wstep_other (by decide), ha2']
  obtain ⟨a1, ha1, hav1, _, hat1, har, _⟩ := wstep_self ha3' hat
  have hheap : ((w2.step 1).step 0).heap = w2.heap := by
    rw [wstep_eq ha3' hat, wstep_eq hb hbt]; rfl
  have hroot : ((w2.step 1).view a).root = (w2.view b).root := by
    rw [wstep_eq hb hbt]
    simp only [World.view, ha2, hb2, ParseCall.new, if_pos]
    simp [CallOp.exec]
  have hph' := phase_step (ne := none) (nt := none) hph hbt
  cases hph' with
  | starting n hn x1 x2 => cases x2
  | running _ _ _ _ x2 => simp at x2
  | ended root t x1 x2 x3 x4 =>
    rw [drive_doc he2] at x2 x3 x4
    have hdesc : Described (e2.events []) (some e2) :=
      ⟨he2.1, (by cases e2 with | elem => simp [Node.events] | text => exact absurd he2.1 (by simp [Node.isText])),
        [], by simp, by simp⟩
    rw [described_unique x3 hdesc] at x4
    obtain ⟨i, hi, hrep⟩ := isTop_isTree (x4 rfl)
    have hri : (w2.view b).root = some i := by
      have : (w2.view b).root = root := by simpa [CallOp.outcome, SendRes.parseRes] using x2
      rw [this, hi]
    refine ⟨(w2.step 1).step 0, a1, b1, i, ?_, ha1, ?_, ?_, ?_, ?_⟩
    · exact .tail (.tail (steps_trans hs1 hs2) (.call 1)) (.call 0)
    · rw [har]; show some (ParseRes.returned _) = _; rw [hroot, hri]
    · rw [wstep_other (by decide), hb1]
    · rw [hbr]; show some (ParseRes.returned _) = _; rw [hri]
    · rw [hheap]; exact hrep

/-- C98 as one would want it is false: here the first of two calls, for `<a></a>`, returns the tree of `<b></b>`. -/
theorem C98_full_statement_is_false : ¬ ∀ (h : Heap) (tb : BuilderObj) (docs : List Str) (w : World),
    Steps (World.ofUxmlParse h tb docs) w → ∀ (k : Nat) (c : ParseCall) (r : ParseRes) (d : Str) (e : Node),
      w.calls[k]? = some c → c.result = some r → docs[k]? = some d → IsDoc e d →
      ∃ i, r = .returned (some i) ∧ Rep w.heap none i e := by
  intro hall
  have ha : IsDoc (.elem ['a'] [] []) "<a></a>".toList := by
    refine ⟨rfl, [], "<a></a>".toList, [], by decide, by decide, ?_, by decide⟩
    exact .elem (n := ['a']) (kvs := []) (wa := []) (cs := []) (wc := []) (ns := []) (w := []) (w0 := [])
      (w1 := []) (w2 := []) (w3 := []) (w4 := []) (by decide) .nil .nil .nil (by decide) (by decide)
      (by decide) (by decide) (by decide)
  have hb : IsDoc (.elem ['b'] [] []) "<b></b>".toList := by
    refine ⟨rfl, [], "<b></b>".toList, [], by decide, by decide, ?_, by decide⟩
    exact .elem (n := ['b']) (kvs := []) (wa := []) (cs := []) (wc := []) (ns := []) (w := []) (w0 := [])
      (w1 := []) (w2 := []) (w3 := []) (w4 := []) (by decide) .nil .nil .nil (by decide) (by decide)
      (by decide) (by decide) (by decide)
  obtain ⟨w, c1, c2, i, hs, h1, hr1, _, _, hrep⟩ :=
    C98_interrupted_call_returns_other_tree ⟨0, fun _ => none⟩ ⟨none, none⟩ ha hb
  obtain ⟨i', hi', hrep'⟩ := hall _ _ _ w hs 0 c1 _ _ _ h1 hr1 rfl ha
  cases hi'
  obtain ⟨_, _, x, _⟩ := hrep
  obtain ⟨_, _, y, _⟩ := hrep'
  rw [x] at y
  exact absurd (Obj.elem.inj (Option.some.inj y)).1 (by decide)

end Amara
