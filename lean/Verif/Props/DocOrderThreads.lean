import Verif.Lemmas.DocOrderThreads
import Verif.Spec.DocOrderThreads
import Verif.Props.DocOrder
/-
C122: unions evaluated by several threads over one tree.
-/
namespace Amara

theorem ubegin_get {m : Numbers} {asked : List (ONode × List ONode)} {k : Nat} {ctx : ONode} {sel : List ONode}
    (hk : asked[k]? = some (ctx, sel)) : (UWorld.begin m asked).calls[k]? = some (.new ctx sel) := by
  simp [UWorld.begin, hk]

theorem uended_sel {h : Heap} {d : Id} {m : Numbers} {asked : List (ONode × List ONode)} {k : Nat} {ctx : ONode}
    {sel : List ONode} (hk : asked[k]? = some (ctx, sel)) {sched : List Nat} {c : UCall}
    (hc : ((UWorld.begin m asked).run h d sched).calls[k]? = some c) : c.ctx = ctx ∧ c.sel = sel := by
  have := urun_same (h := h) (d := d) sched (UWorld.begin m asked) k
  rw [hc, ubegin_get hk] at this
  simpa [UCall.new] using this

/-- C122 (partial): in a tree where nothing is numbered yet, unions evaluated at elements, text or attributes of it by any
number of threads under any schedule: each that ends without AttributeError yields its nodes in document order.
Missing: that none raises, and evaluations at the root beside others, `C122_full_statement_is_false`. -/
theorem C122_never_out_of_order_partial {h : Heap} {t : Id} {tree : Node} (hr : Rep h none t tree) {order : List Id}
    (ho : ElementsOf h t order) (d : Id) (asked : List (ONode × List ONode)) (hctx : ∀ c ∈ asked, Within h t c.1)
    (hsel : ∀ c ∈ asked, ∀ x ∈ c.2, ∃ i ∈ order, x = .obj i) (sched : List Nat) (k : Nat) {ctx : ONode}
    {sel zs : List ONode} (hk : asked[k]? = some (ctx, sel))
    (he : UEnded ((UWorld.begin .fresh asked).run h d sched) k (some zs)) : Arranged (order.map .obj) sel zs := by
  have hd := elements_nodup hr ho
  obtain ⟨ids, hb, rfl⟩ := ho
  obtain ⟨c, hc, hp⟩ := he
  have hinv := callOk_run (d := d) (rt := False) (reach_hT hr hb hd none) (fun hf => hf.elim) sched
    (UWorld.begin .fresh asked) (fun x => .inl (by cases x <;> rfl)) (by
      intro c hc
      obtain ⟨a, ha, rfl⟩ := List.mem_map.1 hc
      obtain ⟨ctx, sel⟩ := a
      have := hctx _ ha
      cases ctx with
      | root => exact this
      | obj i => exact this
      | attr e => exact this)
  have h1 := hinv.2 c (List.mem_of_getElem? hc)
  obtain ⟨_, h3⟩ := uended_sel hk hc
  obtain ⟨ctx', sel', ph⟩ := c
  cases hp
  subst h3
  obtain ⟨zs', e1, e2⟩ := sort_arranged (rightNums_goUp (base := 0) (root := none) hd) (xs := sel') (by
    intro x hx
    obtain ⟨i, hi, rfl⟩ := hsel _ (List.mem_of_getElem? hk) x hx
    exact List.mem_map.2 ⟨i, hi, rfl⟩)
  have h1 : sortNumbered (rightNums 0 (t :: ids) none) sel' = some zs := h1
  rw [e1] at h1
  cases h1
  exact e2

/-- C122 (partial): the same if all evaluations are at the root, as those asked for at the document element are. -/
theorem C122_all_at_the_root_partial {h : Heap} {t : Id} {tree : Node} (hr : Rep h none t tree) {order : List Id}
    (ho : ElementsOf h t order) (asked : List (ONode × List ONode)) (hctx : ∀ c ∈ asked, c.1 = .root)
    (hsel : ∀ c ∈ asked, ∀ x ∈ c.2, x = .root ∨ ∃ i ∈ order, x = .obj i) (sched : List Nat) (k : Nat) {ctx : ONode}
    {sel zs : List ONode} (hk : asked[k]? = some (ctx, sel))
    (he : UEnded ((UWorld.begin .fresh asked).run h t sched) k (some zs)) :
    Arranged (.root :: order.map .obj) sel zs := by
  have hd := elements_nodup hr ho
  obtain ⟨ids, hb, rfl⟩ := ho
  obtain ⟨c, hc, hp⟩ := he
  have hinv := callOk_run (d := t) (full := rightNums 1 (t :: ids) (some 0)) (T := fun _ => False) (rt := True)
    (fun _ hf => hf.elim) (fun _ => ⟨rfl, numberOk_top hb hd 1 (some 0)⟩) sched
    (UWorld.begin .fresh asked) (fun x => .inl (by cases x <;> rfl)) (by
      intro c hc
      obtain ⟨a, ha, rfl⟩ := List.mem_map.1 hc
      obtain ⟨ctx, sel⟩ := a
      have : ctx = .root := hctx _ ha
      subst this
      trivial)
  have h1 := hinv.2 c (List.mem_of_getElem? hc)
  obtain ⟨_, h3⟩ := uended_sel hk hc
  obtain ⟨ctx', sel', ph⟩ := c
  cases hp
  subst h3
  obtain ⟨zs', e1, e2⟩ := sort_arranged (rightNums_goUp_root hd) (xs := sel') (by
    intro x hx
    rcases hsel _ (List.mem_of_getElem? hk) x hx with rfl | ⟨i, hi, rfl⟩
    · simp
    · exact List.mem_cons_of_mem _ (List.mem_map.2 ⟨i, hi, rfl⟩))
  have h1 : sortNumbered (rightNums 1 (t :: ids) (some 0)) sel' = some zs := h1
  rw [e1] at h1
  cases h1
  exact e2

/-- C122: once a tree is numbered (one union has been evaluated at the root or at one of its nodes before the threads
start), unions evaluated at numbered nodes do not disturb each other: no schedule makes one raise or get the order
wrong. -/
theorem C122_numbered_before {h : Heap} {d : Id} {m : Numbers} {order : List ONode} (hm : GoUp m order)
    (asked : List (ONode × List ONode)) (hctx : ∀ c ∈ asked, c.1 ∈ order) (hsel : ∀ c ∈ asked, ∀ x ∈ c.2, x ∈ order)
    (sched : List Nat) (k : Nat) {ctx : ONode} {sel : List ONode} (hk : asked[k]? = some (ctx, sel))
    {res : Option (List ONode)} (he : UEnded ((UWorld.begin m asked).run h d sched) k res) :
    ∃ zs, res = some zs ∧ Arranged order sel zs := by
  obtain ⟨c, hc, hp⟩ := he
  have hinv := uworld_run_inv (h := h) (d := d)
    (fun _ c => c.ctx ∈ order ∧ (∀ x ∈ c.sel, x ∈ order) ∧ match c.phase with
      | .fresh => True
      | .read rest got => c.sel = got.map Prod.snd ++ rest ∧ ∀ kx ∈ got, m.of kx.2 = some kx.1
      | .done r => r = sortNumbered m c.sel
      | _ => False) (fun m' => m' = m) (by
      rintro _ ⟨ctx, sel, ph⟩ rfl ⟨h1, h2, h3⟩
      cases ph with
      | fresh =>
        obtain ⟨n, hn⟩ := hm.1 ctx h1
        refine ⟨rfl, h1, h2, ?_⟩
        simp only [UCall.step, hn, Option.isSome_some, if_true]
        exact ⟨by simp, fun kx hx => by cases hx⟩
      | climb i => exact h3.elim
      | atRoot => exact h3.elim
      | docElem => exact h3.elim
      | number g k => exact h3.elim
      | read rest got =>
        cases rest with
        | nil =>
          refine ⟨rfl, h1, h2, ?_⟩
          have h4 : sel = got.map Prod.snd := by simpa using h3.1
          simp only [UCall.step, sortNumbered, h4]
          rw [mapM_got _ got h3.2]
          rfl
        | cons x rest =>
          obtain ⟨n, hn⟩ := hm.1 x (h2 x (by rw [h3.1]; simp))
          simp only [UCall.step, hn]
          refine ⟨trivial, h1, h2, by simpa using h3.1, ?_⟩
          intro kx hx
          rcases List.mem_append.1 hx with hx | hx
          · exact h3.2 kx hx
          · rw [List.mem_singleton] at hx; subst hx; exact hn
      | done r => exact ⟨rfl, h1, h2, h3⟩)
    (fun _ _ _ _ _ h3 => h3) sched (UWorld.begin m asked) rfl (by
      intro c hc
      obtain ⟨a, ha, rfl⟩ := List.mem_map.1 hc
      exact ⟨hctx a ha, hsel a ha, trivial⟩)
  obtain ⟨_, h2, h3⟩ := hinv.2 c (List.mem_of_getElem? hc)
  obtain ⟨_, h4⟩ := uended_sel hk hc
  obtain ⟨ctx', sel', ph⟩ := c
  cases hp
  subst h4
  obtain ⟨zs, e1, e2⟩ := sort_arranged hm h2
  exact ⟨zs, (show res = _ from h3).trans e1, e2⟩

/-- C122: an evaluation at a text node or an attribute, which numbers the tree itself whatever the others do, never
raises. -/
theorem C122_own_numbering {h : Heap} {t : Id} {tree : Node} (hr : Rep h none t tree) {order : List Id}
    (ho : ElementsOf h t order) (d : Id) (asked : List (ONode × List ONode)) (hctx : ∀ c ∈ asked, Within h t c.1)
    (hsel : ∀ c ∈ asked, ∀ x ∈ c.2, ∃ i ∈ order, x = .obj i) (sched : List Nat) (k : Nat) {ctx : ONode}
    {sel : List ONode} (hk : asked[k]? = some (ctx, sel)) (hown : ∀ i ∈ order, ctx ≠ .obj i)
    {res : Option (List ONode)} (he : UEnded ((UWorld.begin .fresh asked).run h d sched) k res) :
    ∃ zs, res = some zs ∧ Arranged (order.map .obj) sel zs := by
  suffices hres : res ≠ none by
    cases res with
    | none => exact (hres rfl).elim
    | some zs => exact ⟨zs, rfl, C122_never_out_of_order_partial hr ho d asked hctx hsel sched k hk he⟩
  have hd := elements_nodup hr ho
  obtain ⟨ids, hb, rfl⟩ := ho
  obtain ⟨c, hc, hp⟩ := he
  have hTt := reach_hT hr hb hd none
  have hT : ∀ i, Reachable h [t] i → (∃ p, h.xmlParent i = some p ∧ Reachable h [t] p) ∨ i = t := by
    intro i hi
    rcases reach_climb hr hi with h1 | h1
    · exact .inl h1
    · exact .inr h1.1
  have hinv := uworld_run_inv (h := h) (d := d)
    (fun m c => CallOk h (rightNums 0 (t :: ids) none) (fun i => Reachable h [t] i) False c ∧
      (∀ x ∈ c.sel, ∃ i ∈ t :: ids, x = .obj i) ∧ (c.ctx = ctx → OwnOk h (t :: ids) m c))
    (NumsOk (rightNums 0 (t :: ids) none)) (by
      intro m c hm ⟨h1, h2, h3⟩
      obtain ⟨h4, h5⟩ := callOk_own (d := d) hTt (fun hf => hf.elim) hm h1
      refine ⟨h4, h5, ?_, ?_⟩
      · rw [ustep_same.2]; exact h2
      · rw [ustep_same.1]
        intro hcx
        have hnr : ctx ≠ .root := by
          rintro rfl
          exact hctx _ (List.mem_of_getElem? hk)
        refine ownOk_own hT hb ?_ (by rw [hcx]; exact hnr) h2 ?_ (h3 hcx)
        · rw [hcx]
          rcases hm ctx with h6 | h6
          · exact h6
          · rw [h6]
            cases ctx with
            | root => rfl
            | attr e => rfl
            | obj i => exact rightNums_none fun hi => hown i hi rfl
        · intro i hi
          obtain ⟨ctx', sel', ph⟩ := c
          cases hi
          exact h1)
    (fun m c c' _ _ h3 => ⟨h3.1, h3.2.1, fun hcx => ownOk_other (h3.2.2 hcx)⟩) sched (UWorld.begin .fresh asked)
    (fun x => .inl (by cases x <;> rfl)) (by
      intro c hc
      obtain ⟨a, ha, rfl⟩ := List.mem_map.1 hc
      refine ⟨?_, hsel a ha, fun _ => trivial⟩
      obtain ⟨ctx, sel⟩ := a
      have := hctx _ ha
      cases ctx with
      | root => exact this
      | obj i => exact this
      | attr e => exact this)
  obtain ⟨h1, _⟩ := uended_sel hk hc
  have h2 := (hinv.2 c (List.mem_of_getElem? hc)).2.2 h1
  obtain ⟨ctx', sel', ph⟩ := c
  cases hp
  exact h2

/-- C122: every evaluation ends, whatever the others do, once it has made so many steps of its own. -/
theorem C122_ends {h : Heap} {t : Id} {tree : Node} (hr : Rep h none t tree) {order : List Id}
    (ho : ElementsOf h t order) (m : Numbers) (asked : List (ONode × List ONode)) (k : Nat) {ctx : ONode}
    {sel : List ONode} (hk : asked[k]? = some (ctx, sel)) (hctx : ctx = .root ∨ Within h t ctx) :
    ∃ n, ∀ sched : List Nat, n ≤ sched.count k → ∃ res, UEnded ((UWorld.begin m asked).run h t sched) k res := by
  have ht : h.xmlParent t = none := (rep_children hr).1
  obtain ⟨ids, hb, rfl⟩ := ho
  have key : ∃ n, StepsLeft h t ids.length (.new ctx sel) n := by
    cases ctx with
    | root => exact ⟨_, Nat.le_refl _⟩
    | obj i =>
      rcases hctx with h0 | h0
      · cases h0
      · obtain ⟨n, hn⟩ := (rep_reach hr h0).1
        exact ⟨_, n, hn, Nat.le_refl _⟩
    | attr i =>
      rcases hctx with h0 | h0
      · cases h0
      · obtain ⟨n, hn⟩ := (rep_reach hr h0).1
        exact ⟨_, n, hn, Nat.le_refl _⟩
  obtain ⟨n, hn⟩ := key
  refine ⟨n, fun sched hs => ?_⟩
  obtain ⟨c, r, h1, h2⟩ := stepsLeft_run ht hb sched _ k _ n (ubegin_get hk) hn hs
  exact ⟨r, c, h1, h2⟩

theorem exPair_next1 : descNext exPair (descGen 0) = some (1, [(1, 0), (0, 1)]) := exPair_next

theorem exPair_next2 : descNext exPair [(1, 0), (0, 1)] = some (2, [(2, 0), (0, 2)]) := by
  rw [descNext_cons]; simp only [show (exPair.children 1)[0]? = none from rfl]; rw [descNext_cons]; rfl

theorem exPair_next3 : descNext exPair [(2, 0), (0, 2)] = none := by
  rw [descNext_cons]; simp only [show (exPair.children 2)[0]? = none from rfl]
  rw [descNext_cons]; simp only [show (exPair.children 0)[2]? = none from rfl]; rw [descNext_nil]

/-- C122 as stated is false, for `<r><a/><a/></r>` with nothing numbered yet.  Two threads ask for `a1 | a2` at the root:
the second finds the root numbered by the first, which has not come to the elements, and raises AttributeError.  And of
one thread at the root and one at an element, which number from different tops, the second yields the second child first,
without any error. -/
theorem C122_full_statement_is_false :
    UEnded ((UWorld.begin .fresh [(.root, [.obj 1, .obj 2]), (.root, [.obj 1, .obj 2])]).run exPair 0 [0, 0, 1, 1]) 1 none ∧
    UEnded ((UWorld.begin .fresh [(.root, []), (.obj 1, [.obj 2, .obj 1])]).run exPair 0
      [1, 0, 0, 0, 1, 1, 1, 0, 0, 1, 1, 1, 1, 1]) 1 (some [.obj 2, .obj 1]) ∧
    ElementsOf exPair 0 [0, 1, 2] ∧ ¬ Arranged ([0, 1, 2].map ONode.obj) [.obj 2, .obj 1] [.obj 2, .obj 1] := by
  refine ⟨⟨_, rfl, rfl⟩, ⟨⟨.obj 1, [.obj 2, .obj 1], .done (some [.obj 2, .obj 1])⟩, ?_, rfl⟩, ?_, ?_⟩
  · have hp0 : exPair.xmlParent 0 = none := rfl
    have hp1 : exPair.xmlParent 1 = some 0 := rfl
    simp [UWorld.run, UWorld.step, UWorld.begin, UCall.new, UCall.step, exPair_next1, exPair_next2, exPair_next3,
      UPhase.start, Numbers.fresh, Numbers.of, Numbers.put, hp0, hp1, insertNum]
  · refine ⟨[1, 2], ?_, rfl⟩
    rw [show exPair.children 0 = [1, 2] from rfl]
    exact .elem (l := []) rfl .nil (.elem (l := []) rfl .nil .nil)
  · rintro ⟨_, h⟩
    rw [List.pairwise_cons] at h
    exact h.1 (.obj 1) (by simp) ⟨[.obj 0, .obj 1], [.obj 2], rfl, by simp, by simp⟩

/-- Two threads at elements, the second of which begins and ends while the first is at work, and both get the document
order; and a thread at an attribute renumbers what another is numbering. -/
example : UEnded ((UWorld.begin .fresh [(.obj 1, [.obj 2, .obj 1]), (.obj 0, [.obj 1, .obj 0])]).run exPair 0
      [0, 0, 0, 0, 1, 0, 1, 1, 1, 0, 0, 0, 0]) 0 (some [.obj 1, .obj 2]) ∧
    UEnded ((UWorld.begin .fresh [(.obj 1, [.obj 2, .obj 1]), (.obj 0, [.obj 1, .obj 0])]).run exPair 0
      [0, 0, 0, 0, 1, 0, 1, 1, 1, 0, 0, 0, 0]) 1 (some [.obj 0, .obj 1]) ∧
    UEnded ((UWorld.begin .fresh [(.obj 1, []), (.attr 1, [.obj 2, .obj 1])]).run exPair 0
      [0, 0, 0, 1, 1, 1, 1, 0, 1, 1, 1, 1, 1]) 1 (some [.obj 1, .obj 2]) ∧
    (Within exPair 0 (.obj 1) ∧ Within exPair 0 (.attr 1) ∧ Within exPair 0 (.obj 0)) := by
  have hp0 : exPair.xmlParent 0 = none := rfl
  have hp1 : exPair.xmlParent 1 = some 0 := rfl
  have h0 : Reachable exPair [0] 0 := .root (by simp)
  have h1 : Reachable exPair [0] 1 := .child h0 (by decide)
  refine ⟨⟨⟨.obj 1, [.obj 2, .obj 1], _⟩, ?_, rfl⟩, ⟨⟨.obj 0, [.obj 1, .obj 0], _⟩, ?_, rfl⟩,
    ⟨⟨.attr 1, [.obj 2, .obj 1], _⟩, ?_, rfl⟩, h1, h1, h0⟩ <;>
  simp [UWorld.run, UWorld.step, UWorld.begin, UCall.new, UCall.step, exPair_next1, exPair_next2, exPair_next3,
      UPhase.start, Numbers.fresh, Numbers.of, Numbers.put, hp0, hp1, insertNum]

/-- A tree numbered by the first query, and two threads afterwards. -/
example : GoUp exNumbers ([0, 1, 2].map ONode.obj) ∧
    UEnded ((UWorld.begin exNumbers [(.obj 1, [.obj 2, .obj 1]), (.obj 0, [.obj 1, .obj 0])]).run exPair 0
      [0, 1, 0, 1, 1, 0, 1, 0]) 1 (some [.obj 0, .obj 1]) := by
  refine ⟨⟨?_, ?_⟩, ⟨.obj 0, [.obj 1, .obj 0], _⟩, ?_, rfl⟩
  · intro x hx
    simp only [List.map_cons, List.map_nil, List.mem_cons, List.not_mem_nil, or_false] at hx
    rcases hx with rfl | rfl | rfl
    · exact ⟨0, rfl⟩
    · exact ⟨1, rfl⟩
    · exact ⟨2, rfl⟩
  · simp only [List.map_cons, List.map_nil, List.pairwise_cons, List.mem_cons, List.not_mem_nil, or_false,
      false_implies, implies_true, List.Pairwise.nil, and_true, forall_eq_or_imp, forall_eq]
    refine ⟨⟨?_, ?_⟩, ?_⟩ <;> (intro p q hp hq; cases hp; cases hq; decide)
  · rfl

end Amara
