import Verif.Lemmas.XLiveAxes
import Verif.Props.XLivePath
/-
C143, continued: paths with `descendant` and `descendant-or-self` steps, read while the tree keeps its shape.
-/
namespace Amara

/-- C143: while the results of a path of `child`, `descendant` and `descendant-or-self` steps, with any predicates, are being
read from an element `e` of a tree, and the caller changes nothing below `e` but attributes, in a way the predicates do
not see: the results are, in order, what the path finds in the tree.  There is always a next result or an end, and no
error. -/
theorem C143_attributes_can_be_changed {t0 e : Id} {tree : Node} {h0 : Heap} (hr : Rep h0 none t0 tree) (he : Reachable h0 [t0] e)
    (P : LivePath) : ∃ zs, Finds h0 P e zs ∧ ∀ {h : Heap} {g : PathGen} {vs : List Id},
      PathRun (Untouched h0 e P) h0 (P.start e) [] h g vs →
      vs <+: zs ∧ (∃ r, PathNext h g r) ∧
      ∀ r, PathNext h g r → (r = .finished ∧ vs = zs) ∨ ∃ y g', r = .give y g' ∧ vs ++ [y] <+: zs := by
  have hS : ∀ i, Reachable h0 [e] i → ∀ c ∈ h0.children i, Reachable h0 [e] c := fun i hi c hc => .child hi hc
  obtain ⟨_, _, hsub⟩ := below_rep hr he
  obtain ⟨zs, hz, _⟩ := finds_exists hS (fun i hi => by
    obtain ⟨q, u, hu⟩ := below_rep hsub hi
    obtain ⟨l, h1, _⟩ := (located_under (t := i)).1 u [] i q hu rfl
    exact ⟨l, h1, allBelow_reach h1 fun c hc => .child hi hc⟩) P e (reach_self h0 e)
  refine ⟨zs, hz, ?_⟩
  intro h g vs hrun
  have hall := all_start h0 P e zs hz
  have inv : ∀ {h1 : Heap} {g1 : PathGen} {us : List Id} {h : Heap} {g : PathGen} {vs : List Id},
      PathRun (Untouched h0 e P) h1 g1 us h g vs → h1 = h0 → g1 = P.start e → us = [] →
      (∀ i, Reachable h0 [e] i → SameNode h0 h i ∧ ∀ p, p ∈ P.preds → ∀ k, p k h i = p k h0 i) ∧
      g.In (Reachable h0 [e]) (· ∈ P.preds) ∧ ∃ rest, PathAll h0 g rest ∧ vs ++ rest = zs := by
    intro h1 g1 us h g vs hrun e1 e2 e3
    subst e1 e2 e3
    induction hrun with
    | refl => exact ⟨fun i _ => ⟨⟨rfl, rfl⟩, fun _ _ _ => rfl⟩, start_in (reach_self _ e) P fun _ hp => hp, zs, hall, rfl⟩
    | change _ hR ih =>
      obtain ⟨h2, h3, h4⟩ := ih
      refine ⟨fun i hi => ?_, h3, h4⟩
      obtain ⟨a, b⟩ := hR i hi
      obtain ⟨c, d⟩ := h2 i hi
      exact ⟨⟨a.1.trans c.1, a.2.trans c.2⟩, fun p hp k => (b p hp k).trans (d p hp k)⟩
    | next _ hn ih =>
      obtain ⟨h2, h3, rest, h4, h5⟩ := ih
      obtain ⟨h6, h7⟩ := pathNext_same hS h2 hn h3
      refine ⟨h2, h7.2, ?_⟩
      cases h4 with
      | done hn' => have := pathNext_fun h6 hn'; cases this
      | next hn' ha =>
        have := pathNext_fun h6 hn'
        cases this
        exact ⟨_, ha, by rw [List.append_assoc]; exact h5⟩
  obtain ⟨h2, h3, rest, h4, h5⟩ := inv hrun rfl rfl rfl
  refine ⟨⟨rest, h5⟩, ?_, ?_⟩
  · cases h4 with
    | done hn => exact ⟨_, pathNext_back hS h2 hn h3⟩
    | next hn _ => exact ⟨_, pathNext_back hS h2 hn h3⟩
  · intro r hn
    obtain ⟨h6, _⟩ := pathNext_same hS h2 hn h3
    cases h4 with
    | done hn' =>
      have := pathNext_fun h6 hn'
      subst this
      exact .inl ⟨rfl, by simpa using h5⟩
    | @next _ y g' l hn' _ =>
      have := pathNext_fun h6 hn'
      subst this
      exact .inr ⟨y, g', rfl, l, by rw [← h5]; simp⟩

/-- At a place in memory and at its position in the document a name test says the same, on the other axes. -/
theorem live_located {h : Heap} {t0 c : Id} {doc : Node} (hr : Rep h none t0 doc) {q : Path} (hl : h.locate t0 q = some c)
    (m : Str) : (Test.name m).sel doc (.node q : Item F) = (Test.name m).live h c := by
  obtain ⟨s, hs, hrs, _⟩ := locate_rep q hr hl
  cases s with
  | text s =>
    obtain ⟨_, h1, _⟩ := hrs
    simp [Test.sel, Test.live, h1, hs]
  | elem m' as ts =>
    obtain ⟨cs, _, h1, _, _, _⟩ := hrs
    simp [Test.sel, Test.live, h1, hs]

theorem sel_elem {doc : Node} {m : Str} {q : Path} (h : (Test.name m).sel doc (.node q : Item F) = true) : doc.ElemAt q := by
  simp only [Test.sel] at h
  cases hq : doc.at? q with
  | none => rw [hq] at h; cases h
  | some x => cases x with
    | text s => rw [hq] at h; cases h
    | elem m as cs => exact ⟨m, as, cs, hq⟩

theorem all2_locate {h : Heap} {t0 : Id} {ps : List Path} {l : List Id} (ha : All2 (fun q j => h.locate t0 q = some j) ps l) :
    ps.map (h.locate t0) = l.map some := by
  induction ha with
  | nil => rfl
  | cons h1 _ ih => rw [List.map_cons, List.map_cons, h1, ih]

/-- C143: what such a path finds in memory is what the query yields on the document: the objects at the positions of the
items, in the same order. -/
theorem C143_steps_are_the_query (E : Env F) (hd : E.doc.NoEmptyText) {n : Nat} {h : Heap} {t0 : Id} (hr : Rep h none t0 E.doc)
    {P : LivePath} {ex : Expr F} (hs : SameSteps E n h t0 P ex) : ∀ {p : Path} {e : Id}, E.doc.ElemAt p →
    h.locate t0 p = some e → ∃ (ps : List Path) (zs : List Id), E.Yields n ex (.node p) (ps.map .node) ∧ (∀ q ∈ ps, E.doc.ElemAt q) ∧
      Finds h P e zs ∧ ps.map (h.locate t0) = zs.map some := by
  induction hs with
  | child m =>
    intro p e hp hl
    obtain ⟨ps, h1, h2, h3⟩ := C143_is_the_query E hd hr (SameQuery.step m) hp hl
    exact ⟨ps, _, h1, h2, .child, h3⟩
  | descendant m =>
    intro p e hp hl
    obtain ⟨s, hs, hrs, _⟩ := locate_rep p hr hl
    obtain ⟨l, h1, h2⟩ := (located_under (t := t0)).1 s p e _ hrs hl
    refine ⟨(s.under p).filter fun q => (Test.name m).sel E.doc (.node q : Item F), _, ?_, ?_, .descendant h1, ?_⟩
    · rw [Env.Yields, run_step]
      simp only [stepRes, Item.below, hs]
      rw [visit_nodes E.fo hd]
    · intro q hq
      exact sel_elem (List.mem_filter.1 hq).2
    · exact filter_paths (all2_locate h2) fun q c _ hc => live_located hr hc m
  | descendantOrSelf m =>
    intro p e hp hl
    obtain ⟨s, hs, hrs, _⟩ := locate_rep p hr hl
    obtain ⟨l, h1, h2⟩ := (located_under (t := t0)).1 s p e _ hrs hl
    refine ⟨(p :: s.under p).filter fun q => (Test.name m).sel E.doc (.node q : Item F), _, ?_, ?_, .descendantOrSelf h1, ?_⟩
    · have h3 : (Test.name m).compute E.doc (.node p : Item F) = ([p].filter fun q => (Test.name m).sel E.doc (.node q : Item F)).map .node := by
        have h4 := visit_nodes E.fo hd (.name m) (.node p : Item F) [p]
        rw [← h4]
        simp [visit, orElse_truthy (truthy_elem E.fo hp)]
      rw [Env.Yields, run_step]
      simp only [stepRes, Item.below, hs]
      rw [visit_nodes E.fo hd, h3, Res.append, ← List.map_append, ← List.filter_append]
      rfl
    · intro q hq
      exact sel_elem (List.mem_filter.1 hq).2
    · refine filter_paths (cs := e :: l) ?_ fun q c _ hc => live_located hr hc m
      rw [List.map_cons, List.map_cons, hl, all2_locate h2]
  | @slash l r el er _ _ ihl ihr =>
    intro p e hp hl
    obtain ⟨ps, ys, h1, h2, h3, h4⟩ := ihl hp hl
    have hex : ∀ q : Path, ∃ qz : List Path × List Id, ∀ c, E.doc.ElemAt q → h.locate t0 q = some c →
        E.Yields n er (.node q) (qz.1.map .node) ∧ (∀ q ∈ qz.1, E.doc.ElemAt q) ∧ Finds h r c qz.2 ∧
        qz.1.map (h.locate t0) = qz.2.map some := by
      intro q
      by_cases hq : E.doc.ElemAt q
      · cases hc : h.locate t0 q with
        | none => exact ⟨([], []), fun c _ h' => by cases h'⟩
        | some c =>
          obtain ⟨qs, zs, hqs⟩ := ihr hq hc
          exact ⟨(qs, zs), fun c' _ h' => by cases h'; exact hqs⟩
      · exact ⟨([], []), fun c h' => absurd h' hq⟩
    obtain ⟨f, hf⟩ := Classical.axiomOfChoice hex
    have hloc : ∀ q ∈ ps, ∃ c, h.locate t0 q = some c := by
      intro q hq
      have : h.locate t0 q ∈ ys.map some := by rw [← h4]; exact List.mem_map_of_mem hq
      obtain ⟨c, _, hc⟩ := List.mem_map.1 this
      exact ⟨c, hc.symm⟩
    refine ⟨ps.flatMap fun q => (f q).1, ps.flatMap fun q => (f q).2, ?_, ?_, ?_, ?_⟩
    · have := C45_steps_compose E n el er (.node p) (ps.map .node)
        (fun y => match y with | .node q => (f q).1.map .node | _ => []) h1
        (by
          intro y hy
          obtain ⟨q, hq, rfl⟩ := List.mem_map.1 hy
          exact truthy_elem E.fo (h2 q hq))
        (by
          intro y hy
          obtain ⟨q, hq, rfl⟩ := List.mem_map.1 hy
          obtain ⟨c, hc⟩ := hloc q hq
          exact (hf q c (h2 q hq) hc).1)
      rw [List.flatMap_map] at this
      rw [List.map_flatMap]
      exact this
    · intro q hq
      obtain ⟨q', hq', hq⟩ := List.mem_flatMap.1 hq
      obtain ⟨c, hc⟩ := hloc q' hq'
      exact (hf q' c (h2 q' hq') hc).2.1 q hq
    · refine .slash h3 ?_
      clear h1 h3 hloc
      induction ps generalizing ys with
      | nil => cases ys with
        | nil => exact .nil
        | cons c L => cases h4
      | cons q ps ih =>
        cases ys with
        | nil => cases h4
        | cons c L =>
          simp only [List.map_cons, List.cons.injEq] at h4
          exact .cons (hf q c (h2 q (by simp)) h4.1).2.2.1 (ih L (fun q' hq' => h2 q' (by simp [hq'])) h4.2)
    · clear h1 h3 h4
      induction ps with
      | nil => rfl
      | cons q ps ih =>
        obtain ⟨c, hc⟩ := hloc q (by simp)
        simp only [List.flatMap_cons, List.map_append]
        rw [(hf q c (h2 q (by simp)) hc).2.2.2, ih (fun q' hq' => h2 q' (by simp [hq'])) (fun q' hq' => hloc q' (by simp [hq']))]
  | @test l el t pr _ htok hag ih =>
    intro p e hp hl
    obtain ⟨ps, ys, h1, h2, h3, h4⟩ := ih hp hl
    have hex : ∀ y : Item F, ∃ ys, ∀ q, y = .node q → E.doc.ElemAt q → E.Yields n t y ys ∧ NotNumber ys := by
      intro y
      by_cases hy : ∃ q, y = .node q ∧ E.doc.ElemAt q
      · obtain ⟨q, rfl, hq⟩ := hy
        obtain ⟨ys, h4, h5⟩ := htok q hq
        exact ⟨ys, fun q' h' _ => by cases h'; exact ⟨h4, notNumber_of_head h5⟩⟩
      · exact ⟨[], fun q h' h'' => absurd ⟨q, h', h''⟩ hy⟩
    obtain ⟨f, hf⟩ := Classical.axiomOfChoice hex
    classical
    have hq : ∀ y ∈ (ps.map .node : List (Item F)), ∃ q, y = .node q ∧ E.doc.ElemAt q := by
      intro y hy
      obtain ⟨q, hq, rfl⟩ := List.mem_map.1 hy
      exact ⟨q, rfl, h2 q hq⟩
    refine ⟨ps.filter fun q => decide (E.Ebv (f (.node q))), _, ?_, fun q hq' => h2 q (List.mem_filter.1 hq').1, .filter h3, ?_⟩
    · have := C50_boolean_predicate E n el t (.node p) (ps.map .node) .done h1
        (fun y hy => by obtain ⟨q, rfl, h4⟩ := hq y hy; exact truthy_elem E.fo h4) f
        (fun y hy => by obtain ⟨q, rfl, h4⟩ := hq y hy; exact (hf _ q rfl h4).1)
        (fun y hy => by obtain ⟨q, rfl, h4⟩ := hq y hy; exact (hf _ q rfl h4).2)
        (fun y => decide (E.Ebv (f y))) (fun y _ => decide_eq_true_iff)
      rw [Env.Yields, this, List.filter_map]
      rfl
    · have hb : ∀ k q c, q ∈ ps → h.locate t0 q = some c → decide (E.Ebv (f (.node q))) = pr k h c := by
        intro k q c hq' hc
        rw [Bool.eq_iff_iff, decide_eq_true_iff, hag k q c (h2 q hq') hc]
        constructor
        · intro h'; exact ⟨_, (hf _ q rfl (h2 q hq')).1, h'⟩
        · rintro ⟨ys, h4, h5⟩
          rwa [yields_unique h4 (hf _ q rfl (h2 q hq')).1] at h5
      have hk : ∀ k, ∀ c ∈ ys, pr k h c = pr 0 h c := by
        intro k c hc
        have : some c ∈ ps.map (h.locate t0) := by rw [h4]; exact List.mem_map_of_mem hc
        obtain ⟨q, hq', hqc⟩ := List.mem_map.1 this
        rw [← hb k q c hq' hqc, ← hb 0 q c hq' hqc]
      rw [holding_filter (b := fun c => pr 0 h c) _ 0 hk]
      exact filter_paths h4 fun q c hq' hc => hb 0 q c hq' hc

/-! ### an example: `descendant::b` at `<r><a><b k="v">x</b><b/></a><a><b k="v"/></a></r>`; each result gets an attribute -/

example : Finds exLive (.step .descendant (.name ['b'])) 0 [3, 4, 5] :=
  Finds.descendant (t := .name ['b']) (e := 0) (l := [1, 3, 6, 4, 2, 5])
    (show AllBelow exLive [1, 2] (1 :: ([3, 6, 4] ++ [2, 5])) from
      .cons (show AllBelow exLive [3, 4] (3 :: ([6] ++ [4])) from
        .cons (show AllBelow exLive [6] (6 :: ([] ++ [])) from .cons .nil .nil) (show AllBelow exLive [4] (4 :: ([] ++ [])) from .cons .nil .nil))
      (show AllBelow exLive [2] (2 :: ([5] ++ [])) from .cons (show AllBelow exLive [5] (5 :: ([] ++ [])) from .cons .nil .nil) .nil))

example : ∃ h g, PathRun (Untouched exLive 0 (.step .descendant (.name ['b']))) exLive
      ((LivePath.step .descendant (.name ['b'])).start 0) [] h g [3, 4] ∧
    h.obj 3 = some (.elem ['b'] [(['z'], ['1'])] [6] (some 1)) := by
  refine ⟨exLive.set 3 (.elem ['b'] [(['z'], ['1'])] [6] (some 1)), .step (.name ['b']) (.todo [2]), ?_, by decide⟩
  have r1 : PathRun (Untouched exLive 0 (.step .descendant (.name ['b']))) exLive ((LivePath.step .descendant (.name ['b'])).start 0) [] exLive
      (.step (.name ['b']) (.todo [6, 4, 2])) [3] := .next .refl (.pass rfl (.pass rfl (.give rfl)))
  refine .next (.change r1 ?_) (.pass rfl (.give rfl))
  intro i _
  refine ⟨?_, fun p hp => by cases hp⟩
  by_cases h3 : i = 3
  · subst h3; exact ⟨rfl, rfl⟩
  · have ho : (exLive.set 3 (.elem ['b'] [(['z'], ['1'])] [6] (some 1))).obj i = exLive.obj i := by simp [Heap.set, h3]
    exact ⟨by simp only [Heap.children, ho], by rw [ho]⟩

end Amara
