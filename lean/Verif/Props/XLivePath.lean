import Verif.Lemmas.XLivePath
import Verif.Props.Routes
import Verif.Props.Gen
/-
C143: changing the results of a path of several steps while they are being read.
-/
namespace Amara

/-- C143: while the results of a path by child steps, with any predicates, are being read from an element `e` of a tree,
the caller may do anything to the results already read and to what is below them, and change attributes anywhere: the
results are those of the tree as it was when reading began.  There is always a next result or an end, and no error. -/
theorem C143_results_can_be_rewritten {t0 e : Id} {tree : Node} {h0 : Heap} (hr : Rep h0 none t0 tree)
    (he : Reachable h0 [t0] e) {P : LivePath} (hP : P.byChildren = true) {h : Heap} {g : PathGen} {vs : List Id}
    (hrun : PathRun (OnlyResults h0 e P) h0 (P.start e) [] h g vs) :
    (P.found h0 e).Nodup ∧ vs <+: P.found h0 e ∧ (∃ r, PathNext h g r) ∧
    ∀ r, PathNext h g r → (r = .finished ∧ vs = P.found h0 e) ∨
      ∃ y g', r = .give y g' ∧ vs ++ [y] <+: P.found h0 e := by
  obtain ⟨q, sub, hsub⟩ := below_rep hr he
  have hself := reach_self h0 e
  obtain ⟨a, ha⟩ := reach_up hr he
  have hdep : ∀ {i : Id} {n m : Nat}, upTimes h0 n i = some e → upTimes h0 m i = some e → n = m := by
    intro i n m h1 h2
    have e1 : upTimes h0 (n + a) i = some t0 := by rw [upTimes_add h0 n a i e h1]; exact ha
    have e2 : upTimes h0 (m + a) i = some t0 := by rw [upTimes_add h0 m a i e h2]; exact ha
    have := upTimes_unique (rep_parent hr) _ _ _ e1 e2
    omega
  have hnd := tried_nodup hsub P e hself
  obtain ⟨hplace, hsubl⟩ := tried_place hsub P e hself
  -- a node of the tree that is not below a result, if it is above the results or was not given
  have hfree : ∀ {vs : List Id}, (∀ y ∈ vs, y ∈ P.tried h0 e) → ∀ i n, Reachable h0 [e] i → upTimes h0 n i = some e →
      n < P.levels ∨ (n = P.levels ∧ i ∉ vs) → ∀ y ∈ vs, ¬ Reachable h0 [y] i := by
    intro vs hvs i n hi hn hor y hy hyi
    obtain ⟨h1, h2⟩ := hplace y (hvs y hy)
    obtain ⟨_, _, hy'⟩ := below_rep hsub h1
    obtain ⟨k, hk⟩ := reach_up hy' hyi
    have : upTimes h0 (k + P.levels) i = some e := by rw [upTimes_add h0 k _ i y hk]; exact h2
    have := hdep hn this
    rcases hor with hlt | ⟨heq, hni⟩
    · omega
    · have hk0 : k = 0 := by omega
      subst hk0
      cases hk
      exact hni hy
  -- the invariant
  have inv : ∀ {h1 : Heap} {g1 : PathGen} {us : List Id} {h : Heap} {g : PathGen} {vs : List Id},
      PathRun (OnlyResults h0 e P) h1 g1 us h g vs → h1 = h0 → g1 = P.start e → us = [] →
      GenOf h0 e P g P.levels ∧ vs ++ g.rem h0 = P.found h0 e ∧ (vs ++ g.toTry h0).Sublist (P.tried h0 e) ∧
      (∀ i, Reachable h0 [e] i → (∀ y ∈ vs, ¬ Reachable h0 [y] i) → LooksSame P.preds h0 h i) ∧
      ((g.rem h0 = [] ∧ PathNext h g .finished) ∨ ∃ y g' pre, g.rem h0 = y :: g'.rem h0 ∧ PathNext h g (.give y g') ∧
        GenOf h0 e P g' P.levels ∧ g.toTry h0 = pre ++ y :: g'.toTry h0) := by
    intro h1 g1 us h g vs hrun e1 e2 e3
    subst e1 e2 e3
    have fin : ∀ {h : Heap} {g : PathGen} {vs : List Id}, GenOf h1 e P g P.levels →
        (vs ++ g.toTry h1).Sublist (P.tried h1 e) →
        (∀ i, Reachable h1 [e] i → (∀ y ∈ vs, ¬ Reachable h1 [y] i) → LooksSame P.preds h1 h i) →
        ((g.rem h1 = [] ∧ PathNext h g .finished) ∨ ∃ y g' pre, g.rem h1 = y :: g'.rem h1 ∧ PathNext h g (.give y g') ∧
          GenOf h1 e P g' P.levels ∧ g.toTry h1 = pre ++ y :: g'.toTry h1) := by
      intro h g vs hg hs hl
      have hvs : ∀ y ∈ vs, y ∈ P.tried h1 e := fun y hy => hs.subset (List.mem_append_left _ hy)
      have hn := hnd.sublist hs
      rw [List.nodup_append] at hn
      refine next_of hsub P hP (fun p hp => hp) g _ hg ?_ ?_
      · intro i n hi hn' hlt
        exact hl i hi (hfree hvs i n hi hn' (.inl hlt))
      · intro i hi
        have hi' := hplace i (hs.subset (List.mem_append_right _ hi))
        exact hl i hi'.1 (hfree hvs i _ hi'.1 hi'.2 (.inr ⟨rfl, fun hiv => hn.2.2 i hiv i hi rfl⟩))
    induction hrun with
    | refl =>
      have hg : GenOf h1 e P (P.start e) P.levels := by
        have := start_gen (h0 := h1) (e0 := e) P hP e 0 hself rfl
        rwa [Nat.zero_add] at this
      have hs : ([] ++ (P.start e).toTry h1).Sublist (P.tried h1 e) := by
        rw [List.nil_append, start_toTry P hP]; exact List.Sublist.refl _
      have hl : ∀ i, Reachable h1 [e] i → (∀ y ∈ ([] : List Id), ¬ Reachable h1 [y] i) → LooksSame P.preds h1 h1 i :=
        fun i _ _ => ⟨⟨rfl, rfl⟩, fun _ _ _ => rfl⟩
      exact ⟨hg, by rw [List.nil_append, start_rem P hP], hs, hl, fin hg hs hl⟩
    | @change h' g' vs' h'' _ hR ih =>
      obtain ⟨i1, i2, i3, i4, _⟩ := ih
      have hl : ∀ i, Reachable h1 [e] i → (∀ y ∈ vs', ¬ Reachable h1 [y] i) → LooksSame P.preds h1 h'' i := by
        intro i hi hv
        obtain ⟨⟨a1, a2⟩, a3⟩ := i4 i hi hv
        obtain ⟨⟨b1, b2⟩, b3⟩ := hR i hi hv
        exact ⟨⟨b1.trans a1, b2.trans a2⟩, fun p hp k => (b3 p hp k).trans (a3 p hp k)⟩
      exact ⟨i1, i2, i3, hl, fin i1 i3 hl⟩
    | @next h' g' vs' y g'' _ hn ih =>
      obtain ⟨i1, i2, i3, i4, i5⟩ := ih
      rcases i5 with ⟨_, j2⟩ | ⟨z, g2, pre, j1, j2, j3, j4⟩
      · cases pathNext_fun hn j2
      · cases pathNext_fun hn j2
        have hs : (vs' ++ [y] ++ g''.toTry h1).Sublist (P.tried h1 e) := by
          refine List.Sublist.trans ?_ i3
          rw [j4, List.append_assoc]
          exact (List.Sublist.refl _).append (List.sublist_append_right pre (y :: g''.toTry h1))
        have hl : ∀ i, Reachable h1 [e] i → (∀ x ∈ vs' ++ [y], ¬ Reachable h1 [x] i) → LooksSame P.preds h1 h' i :=
          fun i hi hv => i4 i hi fun x hx => hv x (List.mem_append_left _ hx)
        refine ⟨j3, ?_, hs, hl, fin j3 hs hl⟩
        rw [← i2, j1, List.append_assoc]
        rfl
  obtain ⟨_, i2, _, _, i5⟩ := inv hrun rfl rfl rfl
  refine ⟨hnd.sublist hsubl, ⟨_, i2⟩, ?_, ?_⟩
  · rcases i5 with ⟨_, j2⟩ | ⟨y, g', _, _, j2, _⟩
    · exact ⟨_, j2⟩
    · exact ⟨_, j2⟩
  · intro r hr'
    rcases i5 with ⟨j1, j2⟩ | ⟨y, g', _, j1, j2, _⟩
    · rw [j1, List.append_nil] at i2
      exact .inl ⟨pathNext_fun hr' j2, i2⟩
    · refine .inr ⟨y, g', pathNext_fun hr' j2, g'.rem h0, ?_⟩
      rw [← i2, j1, List.append_assoc]
      rfl

/-! ### the same query on the document -/

variable {F : Type}

theorem filter_paths {h : Heap} {t0 : Id} {f : Path → Bool} {g : Id → Bool} : ∀ {qs : List Path} {cs : List Id},
    qs.map (h.locate t0) = cs.map some → (∀ q c, q ∈ qs → h.locate t0 q = some c → f q = g c) →
    (qs.filter f).map (h.locate t0) = (cs.filter g).map some := by
  intro qs
  induction qs with
  | nil => intro cs he _; cases cs with
    | nil => rfl
    | cons c cs => cases he
  | cons q qs ih =>
    intro cs he hfg
    cases cs with
    | nil => cases he
    | cons c cs =>
      simp only [List.map_cons, List.cons.injEq] at he
      have h1 := hfg q c (by simp) he.1
      have h2 := ih he.2 fun q' c' hq' => hfg q' c' (by simp [hq'])
      simp only [List.filter_cons, h1]
      cases g c with
      | true => simp only [if_true, List.map_cons, he.1, h2]
      | false => simpa using h2

theorem holding_filter {h : Heap} {p : Nat → Heap → Id → Bool} {b : Id → Bool} : ∀ (l : List Id) (k : Nat),
    (∀ k, ∀ y ∈ l, p k h y = b y) → holding h p k l = l.filter b := by
  intro l
  induction l with
  | nil => intro k _; rfl
  | cons y ys ih =>
    intro k hb
    simp only [holding, List.filter_cons, hb (k + 1) y (by simp)]
    rw [ih (k + 1) fun k y hy => hb k y (by simp [hy])]

theorem locate_kid {h : Heap} {k : Nat} : ∀ (p : Path) {i e : Id}, h.locate i p = some e →
    h.locate i (p ++ [k]) = (h.children e)[k]? := by
  intro p
  induction p with
  | nil =>
    intro i e h1
    cases h1
    simp only [List.nil_append, Heap.locate]
    cases (h.children i)[k]? <;> rfl
  | cons j p ih =>
    intro i e h1
    simp only [List.cons_append, Heap.locate] at h1 ⊢
    cases hc : (h.children i)[j]? with
    | none => rw [hc] at h1; cases h1
    | some c => rw [hc] at h1; exact ih h1

/-- The children of an element, by position and in memory. -/
theorem kids_located {h : Heap} {t0 e : Id} {doc : Node} (hr : Rep h none t0 doc) {p : Path} (hl : h.locate t0 p = some e) :
    (axisCands doc .child p).map (h.locate t0) = (h.children e).map some := by
  obtain ⟨s, hs, hrs, _⟩ := locate_rep p hr hl
  cases s with
  | text s =>
    obtain ⟨q, h1, _⟩ := hrs
    simp [axisCands, hs, Heap.children, h1, Obj.kids]
  | elem m as ts =>
    obtain ⟨cs, q, h1, _, _, h4⟩ := hrs
    have hlen := ((repList_iff ts cs).1 h4).1
    have hc : h.children e = cs := elem_children h1
    simp only [axisCands, hs, List.map_map]
    apply List.ext_getElem?
    intro k
    simp only [List.getElem?_map, hc]
    by_cases hk : k < ts.length
    · rw [List.getElem?_range hk]
      simp only [Option.map_some, Function.comp]
      rw [locate_kid p hl, hc, List.getElem?_eq_getElem (by omega)]
      rfl
    · rw [List.getElem?_eq_none (by simpa using hk), List.getElem?_eq_none (by omega)]
      rfl

/-- At a place in memory and at its position in the document a name test says the same. -/
theorem test_located {h : Heap} {t0 c : Id} {doc : Node} (hr : Rep h none t0 doc) {q : Path} (hl : h.locate t0 q = some c)
    (m : Str) : ((Test.name m).sel doc (.node q : Item F) && !(decide (Axis.child = .child) && (Test.name m).isName &&
      !(Item.node q : Item F).isElem doc)) = (Test.name m).takes h c := by
  obtain ⟨s, hs, hrs, _⟩ := locate_rep q hr hl
  cases s with
  | text s =>
    obtain ⟨_, h1, _⟩ := hrs
    simp [Test.sel, Test.takes, Test.live, h1, hs]
  | elem m' as ts =>
    obtain ⟨cs, _, h1, _, _, _⟩ := hrs
    simp [Test.sel, Test.takes, Test.live, Test.isName, Heap.isElemB, Item.isElem, h1, hs]

/-- C119: the node test of a step says of an object in memory what it says of its position in the document: a name,
that it is an element of the name; `text()`, that it is a text; `*` and `node()`, nothing. -/
theorem C119_node_tests {h : Heap} {t0 c : Id} {doc : Node} (hr : Rep h none t0 doc) {q : Path} (hl : h.locate t0 q = some c)
    (t : Test) : (t.live h c = true ↔ match t with
      | .name m => ∃ as cs, doc.at? q = some (.elem m as cs)
      | .text => ∃ s, doc.at? q = some (.text s)
      | _ => True) ∧
    (t.live h c = true ↔ t.compute doc (.node q : Item F) = [.node q]) := by
  obtain ⟨s, hs, hrs, _⟩ := locate_rep q hr hl
  cases s with
  | text s =>
    obtain ⟨_, h1, _⟩ := hrs
    cases t <;> simp [Test.live, Test.compute, h1, hs, Item.isNode, Item.strOf, Item.textOf]
  | elem m' as ts =>
    obtain ⟨cs, _, h1, _, _, _⟩ := hrs
    cases t <;> simp [Test.live, Test.compute, h1, hs, Item.isNode, Item.strOf, Item.textOf]

/-- C143: what such a path finds in memory is what the query yields on the document (C45 to C50, C141): the objects at the
positions of the items, in the same order. -/
theorem C143_is_the_query (E : Env F) (hd : E.doc.NoEmptyText) {n : Nat} {h : Heap} {t0 : Id} (hr : Rep h none t0 E.doc)
    {P : LivePath} {ex : Expr F} (hs : SameQuery E n h t0 P ex) : ∀ {p : Path} {e : Id}, E.doc.ElemAt p →
    h.locate t0 p = some e → ∃ ps : List Path, E.Yields n ex (.node p) (ps.map .node) ∧ (∀ q ∈ ps, E.doc.ElemAt q) ∧
      ps.map (h.locate t0) = (P.found h e).map some := by
  induction hs with
  | step m =>
    intro p e hp hl
    refine ⟨_, by rw [Env.Yields, run_step, step_child_any E.fo hd (by obtain ⟨m, as, cs, h⟩ := hp; exact ⟨_, h⟩)], ?_, ?_⟩
    · intro q hq
      have := (List.mem_filter.1 hq).2
      simp only [Bool.and_eq_true] at this
      have h1 := this.1
      simp only [Test.sel] at h1
      cases hq : E.doc.at? q with
      | none => rw [hq] at h1; cases h1
      | some x => cases x with
        | text s => rw [hq] at h1; cases h1
        | elem m as cs => exact ⟨m, as, cs, hq⟩
    · exact filter_paths (kids_located hr hl) fun q c _ hc => test_located hr hc m
  | @slash l r el er _ _ ihl ihr =>
    intro p e hp hl
    obtain ⟨ps, h1, h2, h3⟩ := ihl hp hl
    have hex : ∀ q : Path, ∃ qs : List Path, ∀ c, E.doc.ElemAt q → h.locate t0 q = some c →
        E.Yields n er (.node q) (qs.map .node) ∧ (∀ q ∈ qs, E.doc.ElemAt q) ∧
        qs.map (h.locate t0) = (r.found h c).map some := by
      intro q
      by_cases hq : E.doc.ElemAt q
      · cases hc : h.locate t0 q with
        | none => exact ⟨[], fun c _ h' => by cases h'⟩
        | some c =>
          obtain ⟨qs, hqs⟩ := ihr hq hc
          exact ⟨qs, fun c' _ h' => by cases h'; exact hqs⟩
      · exact ⟨[], fun c h' => absurd h' hq⟩
    obtain ⟨f, hf⟩ := Classical.axiomOfChoice hex
    have hloc : ∀ q ∈ ps, ∃ c, h.locate t0 q = some c := by
      intro q hq
      have : h.locate t0 q ∈ (l.found h e).map some := by rw [← h3]; exact List.mem_map_of_mem hq
      obtain ⟨c, _, hc⟩ := List.mem_map.1 this
      exact ⟨c, hc.symm⟩
    refine ⟨ps.flatMap f, ?_, ?_, ?_⟩
    · have := C45_steps_compose E n el er (.node p) (ps.map .node)
        (fun y => match y with | .node q => (f q).map .node | _ => []) h1
        (by
          intro y hy
          obtain ⟨q, hq, rfl⟩ := List.mem_map.1 hy
          exact truthy_elem E.fo (h2 q hq))
        (by
          intro y hy
          obtain ⟨q, hq, rfl⟩ := List.mem_map.1 hy
          obtain ⟨c, hc⟩ := hloc q hq
          exact (hf q c (h2 q hq) hc).1)
      rw [List.flatMap_map] at this
      rw [List.map_flatMap]
      exact this
    · intro q hq
      obtain ⟨q', hq', hq⟩ := List.mem_flatMap.1 hq
      obtain ⟨c, hc⟩ := hloc q' hq'
      exact (hf q' c (h2 q' hq') hc).2.1 q hq
    · simp only [LivePath.found]
      generalize l.found h e = L at h3
      clear h1 hloc
      induction ps generalizing L with
      | nil => cases L with
        | nil => rfl
        | cons c L => cases h3
      | cons q ps ih =>
        cases L with
        | nil => cases h3
        | cons c L =>
          simp only [List.map_cons, List.cons.injEq] at h3
          simp only [List.flatMap_cons, List.map_append]
          rw [(hf q c (h2 q (by simp)) h3.1).2.2, ih (fun q' hq' => h2 q' (by simp [hq'])) L h3.2]
  | @test l el t pr _ htok hag ih =>
    intro p e hp hl
    obtain ⟨ps, h1, h2, h3⟩ := ih hp hl
    have hex : ∀ y : Item F, ∃ ys, ∀ q, y = .node q → E.doc.ElemAt q → E.Yields n t y ys ∧ NotNumber ys := by
      intro y
      by_cases hy : ∃ q, y = .node q ∧ E.doc.ElemAt q
      · obtain ⟨q, rfl, hq⟩ := hy
        obtain ⟨ys, h4, h5⟩ := htok q hq
        exact ⟨ys, fun q' h' _ => by cases h'; exact ⟨h4, notNumber_of_head h5⟩⟩
      · exact ⟨[], fun q h' h'' => absurd ⟨q, h', h''⟩ hy⟩
    obtain ⟨f, hf⟩ := Classical.axiomOfChoice hex
    classical
    have hq : ∀ y ∈ (ps.map .node : List (Item F)), ∃ q, y = .node q ∧ E.doc.ElemAt q := by
      intro y hy
      obtain ⟨q, hq, rfl⟩ := List.mem_map.1 hy
      exact ⟨q, rfl, h2 q hq⟩
    refine ⟨ps.filter fun q => decide (E.Ebv (f (.node q))), ?_, fun q hq' => h2 q (List.mem_filter.1 hq').1, ?_⟩
    · have := C50_boolean_predicate E n el t (.node p) (ps.map .node) .done h1
        (fun y hy => by obtain ⟨q, rfl, h4⟩ := hq y hy; exact truthy_elem E.fo h4) f
        (fun y hy => by obtain ⟨q, rfl, h4⟩ := hq y hy; exact (hf _ q rfl h4).1)
        (fun y hy => by obtain ⟨q, rfl, h4⟩ := hq y hy; exact (hf _ q rfl h4).2)
        (fun y => decide (E.Ebv (f y))) (fun y _ => decide_eq_true_iff)
      rw [Env.Yields, this, List.filter_map]
      rfl
    · have hb : ∀ k q c, q ∈ ps → h.locate t0 q = some c → decide (E.Ebv (f (.node q))) = pr k h c := by
        intro k q c hq' hc
        rw [Bool.eq_iff_iff, decide_eq_true_iff, hag k q c (h2 q hq') hc]
        constructor
        · intro h'; exact ⟨_, (hf _ q rfl (h2 q hq')).1, h'⟩
        · rintro ⟨ys, h4, h5⟩
          rwa [yields_unique h4 (hf _ q rfl (h2 q hq')).1] at h5
      have hk : ∀ k, ∀ c ∈ l.found h e, pr k h c = pr 0 h c := by
        intro k c hc
        have : some c ∈ ps.map (h.locate t0) := by rw [h3]; exact List.mem_map_of_mem hc
        obtain ⟨q, hq', hqc⟩ := List.mem_map.1 this
        rw [← hb k q c hq' hqc, ← hb 0 q c hq' hqc]
      simp only [LivePath.found]
      rw [holding_filter (b := fun c => pr 0 h c) _ 0 hk]
      exact filter_paths h3 fun q c hq' hc => hb 0 q c hq' hc

/-! ### an example: `a/b[@k="v"]` at `<r><a><b k="v">x</b><b/></a><a><b k="v"/></a></r>` -/

/-- The document in memory. -/
def exLive : Heap := ⟨8, fun i => match i with
  | 0 => some (.elem ['r'] [] [1, 2] none)
  | 1 => some (.elem ['a'] [] [3, 4] (some 0))
  | 2 => some (.elem ['a'] [] [5] (some 0))
  | 3 => some (.elem ['b'] [(['k'], ['v'])] [6] (some 1))
  | 4 => some (.elem ['b'] [] [] (some 1))
  | 5 => some (.elem ['b'] [(['k'], ['v'])] [] (some 2))
  | 6 => some (.text ['x'] (some 3))
  | _ => none⟩

def exLiveTree : Node := .elem ['r'] [] [.elem ['a'] [] [.elem ['b'] [(['k'], ['v'])] [.text ['x']], .elem ['b'] [] []],
  .elem ['a'] [] [.elem ['b'] [(['k'], ['v'])] []]]

theorem exLive_rep : Rep exLive none 0 exLiveTree :=
  ⟨[1, 2], none, rfl, rfl, by decide,
    1, [2], rfl, ⟨[3, 4], some 0, rfl, rfl, by decide,
      3, [4], rfl, ⟨[6], some 1, rfl, rfl, by decide, 6, [], rfl, ⟨some 3, rfl, rfl⟩, rfl⟩,
      4, [], rfl, ⟨[], some 1, rfl, rfl, by decide, rfl⟩, rfl⟩,
    2, [], rfl, ⟨[5], some 0, rfl, rfl, by decide, 5, [], rfl, ⟨[], some 2, rfl, rfl, by decide, rfl⟩, rfl⟩, rfl⟩

/-- `[@k="v"]`. -/
def attrIs (k v : Str) : Nat → Heap → Id → Bool := fun _ h i =>
  match h.obj i with
  | some (.elem _ as _ _) => as.any fun a => a == (k, v)
  | _ => false

/-- `a/b[@k="v"]`. -/
def exLivePath : LivePath := .filter (.slash (.step .child (.name ['a'])) (.step .child (.name ['b']))) (attrIs ['k'] ['v'])

/-- The first result is read, gets another name and loses its attributes and its text, and then the second is read. -/
example : exLivePath.found exLive 0 = [3, 5] ∧ ∃ h g, PathRun (OnlyResults exLive 0 exLivePath) exLive (exLivePath.start 0) [] h g [3, 5] ∧
    h.obj 3 = some (.elem ['z'] [] [] (some 1)) := by
  refine ⟨by decide, exLive.set 3 (.elem ['z'] [] [] (some 1)), .filter (.right (.step (.name ['a']) (.child 0 2))
    (.step .child (.name ['b'])) (.step (.name ['b']) (.child 2 1))) (attrIs ['k'] ['v']) 3, ?_, by decide⟩
  have r1 : PathRun (OnlyResults exLive 0 exLivePath) exLive (exLivePath.start 0) [] exLive
      (.filter (.right (.step (.name ['a']) (.child 0 1)) (.step .child (.name ['b'])) (.step (.name ['b']) (.child 1 1)))
        (attrIs ['k'] ['v']) 1) [3] := .next .refl (.pass rfl (.give rfl))
  refine .next (.change r1 ?_) (.pass rfl (.pass rfl (.pass rfl (.give rfl))))
  intro i _ hv
  have h3 : i ≠ 3 := by rintro rfl; exact hv 3 (by simp) (reach_self _ _)
  have ho : (exLive.set 3 (.elem ['z'] [] [] (some 1))).obj i = exLive.obj i := by simp [Heap.set, h3]
  refine ⟨⟨by simp only [Heap.children, ho], by rw [ho]⟩, ?_⟩
  intro p hp k
  simp only [exLivePath, LivePath.preds, List.append_nil, List.mem_singleton] at hp
  subst hp
  simp only [attrIs, ho]

/-- `[@k]`. -/
def attrThere (k : Str) : Nat → Heap → Id → Bool := fun _ h i =>
  match h.obj i with
  | some (.elem _ as _ _) => as.any fun a => a.1 == k
  | _ => false

/-- `l[@k]` in memory and on the document. -/
theorem sameQuery_attr (E : Env F) (n : Nat) {h : Heap} {t0 : Id} (hr : Rep h none t0 E.doc) {l : LivePath} {el : Expr F}
    (hs : SameQuery E n h t0 l el) {k : Str} (hk : k ≠ ['*']) :
    SameQuery E n h t0 (.filter l (attrThere k)) (.pred el [.step .attribute (.name k)]) := by
  have hy : ∀ {q m as cs}, E.doc.at? q = some (.elem m as cs) → E.Yields n (.step .attribute (.name k)) (.node q)
      ((as.filter fun kv => k = kv.1).map fun kv => .attr q kv.1 kv.2) := by
    intro q m as cs h1
    rw [Env.Yields, run_step]
    simp [stepRes, h1, Test.theName, hk]
  refine .test hs ?_ ?_
  · intro q ⟨m, as, cs, h1⟩
    refine ⟨_, hy h1, ?_⟩
    intro y hy'
    have := List.mem_of_mem_head? (by rw [hy']; rfl : y ∈ List.head? _)
    obtain ⟨kv, _, rfl⟩ := List.mem_map.1 this
    exact ⟨fun _ h => (by cases h), fun _ h => (by cases h)⟩
  · intro j q i ⟨m, as, cs, h1⟩ hl
    obtain ⟨s, hs', hrs, _⟩ := locate_rep q hr hl
    rw [h1] at hs'
    cases hs'
    obtain ⟨ids, pq, ho, _⟩ := hrs
    simp only [attrThere, ho, List.any_eq_true, beq_iff_eq]
    constructor
    · rintro ⟨a, ha, rfl⟩
      refine ⟨_, hy h1, ?_⟩
      have hm : a ∈ as.filter fun kv => a.1 = kv.1 := List.mem_filter.2 ⟨ha, by simp⟩
      cases hf : as.filter fun kv => a.1 = kv.1 with
      | nil => rw [hf] at hm; cases hm
      | cons b r => trivial
    · rintro ⟨ys, h2, h3⟩
      rw [yields_unique h2 (hy h1)] at h3
      cases hf : as.filter fun kv => k = kv.1 with
      | nil => rw [hf] at h3; cases h3
      | cons b r =>
        have hb : b ∈ as.filter fun kv => k = kv.1 := by rw [hf]; simp
        obtain ⟨hb1, hb2⟩ := List.mem_filter.1 hb
        exact ⟨b, hb1, (of_decide_eq_true hb2).symm⟩

/-- `a/b[@k]` is such a query. -/
example : SameQuery (F := NoF) { exEnv with doc := exLiveTree } 0 exLive 0
      (.filter (.slash (.step .child (.name ['a'])) (.step .child (.name ['b']))) (attrThere ['k']))
      (.pred (.slash (.step .child (.name ['a'])) (.step .child (.name ['b']))) [.step .attribute (.name ['k'])]) ∧
    exLive.locate 0 [] = some 0 ∧ exLiveTree.ElemAt [] :=
  ⟨sameQuery_attr (F := NoF) { exEnv with doc := exLiveTree } 0 exLive_rep (.slash (.step _) (.step _)) (by decide), rfl, _, _, _, rfl⟩

end Amara
