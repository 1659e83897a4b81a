import Verif.Lemmas.XPath
/-
C45-C58: MicroXPath.
-/
namespace Amara

variable {F : Type}

/-! ### evaluation, case by case -/

theorem run_eval (E : Env F) (n : Nat) :
    ∃ dyn, ∀ e x, E.run n e x = eval E.fo E.doc E.vars n dyn e x := by
  cases n with
  | zero => exact ⟨_, fun _ _ => rfl⟩
  | succ n => exact ⟨_, fun _ _ => rfl⟩

section
variable (E : Env F) (n : Nat) (x : Item F)

theorem run_lit (y : Item F) : E.run n (.lit y) x = ⟨[y], .done⟩ := by
  obtain ⟨dyn, h⟩ := run_eval E n; rw [h, eval]; rfl

theorem run_step (a : Axis) (t : Test) : E.run n (.step a t) x = stepRes E.fo E.doc n a t x := by
  obtain ⟨dyn, h⟩ := run_eval E n; rw [h, eval]

theorem run_dot : E.run n .dot x = ⟨[x], .done⟩ := by
  obtain ⟨dyn, h⟩ := run_eval E n; rw [h, eval]; rfl

theorem run_slash (l r : Expr F) :
    E.run n (.slash l r) x = (E.run n l x).bind fun y => E.run n r (y.orElse E.fo E.doc x) := by
  obtain ⟨dyn, h⟩ := run_eval E n
  simp only [h]; rw [eval]

theorem run_pred (l : Expr F) (p : Expr F) :
    E.run n (.pred l [p]) x = predLoop (fun pos y => predHolds E.fo E.doc pos (E.run n p (y.orElse E.fo E.doc x)))
      (E.run n l x).tail 1 (E.run n l x).items := by
  obtain ⟨dyn, h⟩ := run_eval E n
  simp only [h]; rw [eval]
  congr 1
  funext pos y
  rw [evalPreds]
  cases predHolds E.fo E.doc pos (eval E.fo E.doc E.vars n dyn p (y.orElse E.fo E.doc x)) with
  | inr t => rfl
  | inl b => cases b <;> simp [evalPreds]

theorem run_union (l r : Expr F) : E.run n (.union l r) x = unionRes E.doc x (E.run n l x) (E.run n r x) := by
  obtain ⟨dyn, h⟩ := run_eval E n
  simp only [h]; rw [eval]

theorem run_eq (l r : Expr F) : E.run n (.eq l r) x = eqRes E.fo E.doc (E.run n l x) (E.run n r x) := by
  obtain ⟨dyn, h⟩ := run_eval E n
  simp only [h]; rw [eval]

theorem run_or (l r : Expr F) : E.run n (.or l r) x = (E.run n l x).need fun a =>
    if a.truthy E.fo E.doc then .one a else (E.run n r x).need .one := by
  obtain ⟨dyn, h⟩ := run_eval E n
  simp only [h]; rw [eval]

theorem run_and (l r : Expr F) : E.run n (.and l r) x = (E.run n l x).need fun a =>
    if a.truthy E.fo E.doc then (E.run n r x).need .one else .one a := by
  obtain ⟨dyn, h⟩ := run_eval E n
  simp only [h]; rw [eval]

theorem run_absAll (r : Expr F) : E.run n (.absAll r) x = (x.getRoot E.doc).bind fun y =>
    .append (if r.isJustNode then .one y else .nil) (.append (E.run n r y)
      (match Item.below E.doc y with
        | none => .fail .attribute
        | some ys => Res.bindList (fun z => E.run n r (z.orElse E.fo E.doc x)) .done ys)) := by
  obtain ⟨dyn, h⟩ := run_eval E n
  simp only [h]; rw [eval]
  rfl

theorem run_abs (r : Expr F) : E.run n (.abs (some r)) x = (x.getRoot E.doc).bind fun y =>
    .append (if r.isJustNode then .one y else .nil) (E.run n r y) := by
  obtain ⟨dyn, h⟩ := run_eval E n
  simp only [h]; rw [eval]

theorem run_dslash (l : Expr F) (a : Axis) (t : Test) :
    E.run n (.dslash l (.step a t)) x = E.run n (.slash l (.step .descendantOrSelf t)) x := by
  obtain ⟨dyn, h⟩ := run_eval E n
  simp only [h]; rw [eval, eval]
  simp only [eval]

theorem run_seq_nil : E.run n (.seq []) x = ⟨[], .done⟩ := by
  obtain ⟨dyn, h⟩ := run_eval E n
  simp only [h]; rw [eval, evalSeq]; rfl

theorem run_seq_cons (e : Expr F) (es : List (Expr F)) :
    E.run n (.seq (e :: es)) x = Res.append (E.run n e x) (E.run n (.seq es) x) := by
  obtain ⟨dyn, h⟩ := run_eval E n
  simp only [h]; rw [eval, evalSeq, eval]

end

/-! ### examples used below -/

/-- No floats at all. -/
abbrev NoF : Type := _root_.Empty

/-- A document type without floats (`float(s)` always fails). -/
def noFloats : FloatOps NoF :=
  { parse := fun _ => none, show_ := _root_.Empty.elim, trunc := _root_.Empty.elim, isZero := _root_.Empty.elim, cmp := fun _ _ => none }

/-- `<a>x<b/><c i="1"><b>y</b></c></a>`. -/
def exTree : Node :=
  .elem ['a'] [] [.text ['x'], .elem ['b'] [] [], .elem ['c'] [(['i'], ['1'])] [.elem ['b'] [] [.text ['y']]]]

def exEnv : Env NoF := { fo := noFloats, doc := exTree, vars := fun _ => none, parse := fun _ => .error .runtime }

theorem at?_nil_text {x : Node} {p : Path} {y : Node} (h : x.at? p = some y) : y = x ∨ ∃ q ∈ x.under [], q = p := by
  cases p with
  | nil => cases h; exact .inl rfl
  | cons i p => exact .inr ⟨i :: p, (under_mem.1 _ _ _).2 ⟨i :: p, y, by simp, rfl, h⟩, rfl⟩

/-- A check of `NoEmptyText` (for the examples). -/
theorem noEmptyText_of {x : Node} (h : x ≠ .text []) (h' : ∀ q ∈ x.under [], x.at? q ≠ some (.text [])) :
    x.NoEmptyText := by
  intro p hp
  rcases at?_nil_text hp with h1 | ⟨q, h1, rfl⟩
  · exact h h1.symm
  · exact h' _ h1 hp

theorem exTree_plain : exTree.NoEmptyText := noEmptyText_of (by decide) (by decide)

theorem exTree_elem : exTree.ElemAt [2] := ⟨_, _, _, rfl⟩

/-! ### C45 -/

theorem bindList_append (f : Item F → Res F) (t : Tail) (a b : List (Item F)) :
    Res.bindList f t (a ++ b) = Res.append (Res.bindList f .done a) (Res.bindList f t b) := by
  induction a with
  | nil => rfl
  | cons x a ih =>
    simp only [List.cons_append, Res.bindList, ih]
    cases h : (f x).tail <;> simp only [Res.append, h]
    cases (Res.bindList f .done a).tail <;> simp

theorem append_done {a b : Res F} (h : a.tail = .done) : Res.append a b = ⟨a.items ++ b.items, b.tail⟩ := by
  simp [Res.append, h]

theorem append_stop {a b : Res F} (h : a.tail ≠ .done) : Res.append a b = a := by
  obtain ⟨i, t⟩ := a
  cases t <;> simp_all [Res.append]

theorem append_assoc (a b c : Res F) : Res.append (Res.append a b) c = Res.append a (Res.append b c) := by
  by_cases ha : a.tail = .done
  · rw [append_done ha, append_done (b := Res.append b c) ha]
    by_cases hb : b.tail = .done
    · rw [append_done (by exact hb), append_done hb]; simp
    · rw [append_stop hb, append_stop (by exact hb)]
  · rw [append_stop ha, append_stop ha, append_stop ha]

theorem bindList_done {f : Item F → Res F} {g : Item F → List (Item F)} (t : Tail) (xs : List (Item F))
    (h : ∀ y ∈ xs, f y = ⟨g y, .done⟩) : Res.bindList f t xs = ⟨xs.flatMap g, t⟩ := by
  induction xs with
  | nil => rfl
  | cons x xs ih =>
    rw [Res.bindList, h x (by simp), ih (fun y hy => h y (by simp [hy]))]
    simp [Res.append]

theorem orElse_truthy {E : Env F} {x y : Item F} (h : E.Truthy y) : y.orElse E.fo E.doc x = y := if_pos h

/-- C45: `left/right` yields, for each item of `left` in order, the items of `right` with it as context,
concatenated. -/
theorem C45_steps_compose (E : Env F) (n : Nat) (l r : Expr F) (x : Item F) (xs : List (Item F))
    (f : Item F → List (Item F)) (hl : E.Yields n l x xs) (ht : ∀ y ∈ xs, E.Truthy y)
    (hr : ∀ y ∈ xs, E.Yields n r y (f y)) : E.Yields n (.slash l r) x (xs.flatMap f) := by
  rw [Env.Yields, run_slash, hl, Res.bind]
  exact bindList_done _ _ (fun y hy => by rw [orElse_truthy (ht y hy)]; exact hr y hy)

/-- C45: if `left` raises after some items, or `right` at one of them, `left/right` yields what comes before and
raises the same exception. -/
theorem C45_steps_compose_errors (E : Env F) (n : Nat) (l r : Expr F) (x : Item F) (xs : List (Item F))
    (f : Item F → List (Item F)) (ht : ∀ y ∈ xs, E.Truthy y) (hr : ∀ y ∈ xs, E.Yields n r y (f y)) (t : Tail) :
    (E.run n l x = ⟨xs, t⟩ → E.run n (.slash l r) x = ⟨xs.flatMap f, t⟩) ∧
    (∀ y zs more t', t ≠ .done → E.run n l x = ⟨xs ++ y :: more, t'⟩ → E.Truthy y → E.run n r y = ⟨zs, t⟩ →
      E.run n (.slash l r) x = ⟨xs.flatMap f ++ zs, t⟩) := by
  have hd : ∀ t, Res.bindList (fun y => E.run n r (y.orElse E.fo E.doc x)) t xs = ⟨xs.flatMap f, t⟩ := fun t =>
    bindList_done _ _ (fun y hy => by rw [orElse_truthy (ht y hy)]; exact hr y hy)
  constructor
  · intro hl
    rw [run_slash, hl, Res.bind]
    exact hd t
  · intro y zs more t' htt hl hy hry
    rw [run_slash, hl, Res.bind]
    simp only
    rw [bindList_append, hd, append_done rfl, Res.bindList, orElse_truthy hy, hry, append_stop (by exact htt)]

/-- C45: a step on an empty sequence is empty. -/
theorem C45_empty (E : Env F) (n : Nat) (l r : Expr F) (x : Item F) (hl : E.Yields n l x []) :
    E.Yields n (.slash l r) x [] := C45_steps_compose E n l r x [] (fun _ => []) hl (by simp) (by simp)

theorem bindList_congr {f g : Item F → Res F} (t : Tail) (xs : List (Item F)) (h : ∀ y ∈ xs, f y = g y) :
    Res.bindList f t xs = Res.bindList g t xs := by
  induction xs with
  | nil => rfl
  | cons x xs ih => rw [Res.bindList, Res.bindList, h x (by simp), ih (fun y hy => h y (by simp [hy]))]

theorem bind_append (a b : Res F) (f : Item F → Res F) (h : a.tail = .done) :
    (Res.append a b).bind f = Res.append (a.bind f) (b.bind f) := by
  rw [append_done h, Res.bind, Res.bind, Res.bind, h]
  exact bindList_append f _ _ _

theorem bindList_bind (f g : Item F → Res F) (t : Tail) (xs : List (Item F)) :
    (Res.bindList f t xs).bind g = Res.bindList (fun y => (f y).bind g) t xs := by
  induction xs with
  | nil => rfl
  | cons x xs ih =>
    rw [Res.bindList, Res.bindList]
    by_cases h : (f x).tail = .done
    · rw [bind_append _ _ _ h, ih]
    · rw [append_stop h]
      have : ∀ (ys : List (Item F)), (Res.bindList g (f x).tail ys).tail ≠ .done := by
        intro ys
        induction ys with
        | nil => exact h
        | cons y ys ih =>
          rw [Res.bindList]
          by_cases hy : (g y).tail = .done
          · rw [append_done hy]; exact ih
          · rw [append_stop hy]; exact hy
      rw [append_stop]
      exact this _

/-- C45: `/` is associative, exceptions included, if the items of the first two operands are truthy
(`C45_full_statement_is_false` shows that this is needed). -/
theorem C45_associative_partial (E : Env F) (n : Nat) (a b c : Expr F) (x : Item F)
    (ha : ∀ y ∈ (E.run n a x).items, E.Truthy y)
    (hb : ∀ y ∈ (E.run n a x).items, ∀ z ∈ (E.run n b y).items, E.Truthy z) :
    E.run n (.slash (.slash a b) c) x = E.run n (.slash a (.slash b c)) x := by
  simp only [run_slash]
  rw [Res.bind.eq_def (E.run n a x), bindList_bind, Res.bind.eq_def (E.run n a x)]
  refine bindList_congr _ _ (fun y hy => ?_)
  rw [orElse_truthy (ha y hy), Res.bind, Res.bind]
  refine bindList_congr _ _ (fun z hz => ?_)
  rw [orElse_truthy (hb y hy z hz), orElse_truthy (hb y hy z hz)]

/-- C45 as stated is false: an empty string among the items loses the context.  At the root of `<a/>`,
`(a/string())/.` yields the root node and `a/(string()/.)` the element. -/
theorem C45_full_statement_is_false :
    ∃ (E : Env NoF) (a b c : Expr NoF) (x : Item NoF),
      E.Yields 0 (.slash (.slash a b) c) x [.root] ∧ E.Yields 0 (.slash a (.slash b c)) x [.node []] := by
  refine ⟨{ exEnv with doc := .elem ['a'] [] [] }, .step .child (.name ['a']), .call "string".toList [], .dot, .root, ?_, ?_⟩
  · unfold Env.Yields; decide
  · unfold Env.Yields; decide

example : exEnv.Yields 0 (.slash (.step .child (.name ['c'])) (.step .child (.name ['b']))) (.node []) [.node [2, 0]] := by
  unfold Env.Yields; decide

/-- The hypotheses of `C45_steps_compose`. -/
example : exEnv.Yields 0 (.step .child .star) (.node []) [.node [1], .node [2]] ∧
    (∀ y ∈ [Item.node [1], Item.node [2]], exEnv.Truthy y) ∧
    exEnv.Yields 0 (.step .child .node) (.node [1]) [] ∧ exEnv.Yields 0 (.step .child .node) (.node [2]) [.node [2, 0]] := by
  unfold Env.Yields Env.Truthy; decide

/-! ### C46 -/

theorem filter_all {α} (l : List α) : l.filter (fun _ => true) = l := List.filter_eq_self.2 (fun _ _ => rfl)


/-- C46: the forward axes with `node()`, from an element: exactly the nodes the axis denotes, in document order. -/
theorem C46_forward_axes (E : Env F) (hd : E.doc.NoEmptyText) {p : Path} (hp : E.doc.ElemAt p) (n : Nat) (a : Axis)
    (ha : a = .self ∨ a = .child ∨ a = .descendant ∨ a = .descendantOrSelf ∨ a = .followingSibling) :
    ∃ ps : List Path, E.Yields n (.step a .node) (.node p) (ps.map .node) ∧
      (∀ q, q ∈ ps ↔ OnAxis a p q ∧ E.doc.Has q) ∧ ps.Pairwise docLt := by
  have hs : a.sound = true := by rcases ha with rfl | rfl | rfl | rfl | rfl <;> rfl
  have hr : a.reverse = false := by rcases ha with rfl | rfl | rfl | rfl | rfl <;> rfl
  have ht : rootTail (F := F) a p = [] := by rcases ha with rfl | rfl | rfl | rfl | rfl <;> rfl
  refine ⟨axisCands E.doc a p, ?_, axisCands_mem hp hs, ?_⟩
  · rw [Env.Yields, run_step, step_elem E.fo hd hp n hs, ht]
    simp [Test.sel, Item.isNode, Test.isName, filter_all]
  · have := axisCands_order (doc := E.doc) (p := p) a
    rw [hr] at this
    exact this

/-- C46: the preceding siblings, nearest first. -/
theorem C46_preceding_sibling (E : Env F) (hd : E.doc.NoEmptyText) {p : Path} (hp : E.doc.ElemAt p) (n : Nat) :
    ∃ ps : List Path, E.Yields n (.step .precedingSibling .node) (.node p) (ps.map .node) ∧
      (∀ q, q ∈ ps ↔ OnAxis .precedingSibling p q ∧ E.doc.Has q) ∧ ps.Pairwise (fun x y => docLt y x) := by
  refine ⟨axisCands E.doc .precedingSibling p, ?_, axisCands_mem hp rfl, by have := axisCands_order (doc := E.doc) (p := p) .precedingSibling; exact this⟩
  rw [Env.Yields, run_step, step_elem E.fo hd hp n rfl]
  simp [Test.sel, Item.isNode, rootTail, filter_all]

/-- C46: the parent, and the root node for the document element. -/
theorem C46_parent (E : Env F) (hd : E.doc.NoEmptyText) {p : Path} (hp : E.doc.ElemAt p) (n : Nat) :
    (∀ u i, p = u ++ [i] → E.Yields n (.step .parent .node) (.node p) [.node u]) ∧
    (p = [] → E.Yields n (.step .parent .node) (.node p) [.root]) := by
  constructor
  · rintro u i rfl
    rw [Env.Yields, run_step, step_elem E.fo hd hp n rfl]
    simp [Test.sel, Item.isNode, axisCands, rootTail]
  · rintro rfl
    rw [Env.Yields, run_step, step_elem E.fo hd hp n rfl]
    simp [axisCands, rootTail]

/-- C46: the ancestors, nearest first, the root node last. -/
theorem C46_ancestor (E : Env F) (hd : E.doc.NoEmptyText) {p : Path} (hp : E.doc.ElemAt p) (n : Nat) :
    ∃ ps : List Path, E.Yields n (.step .ancestor .node) (.node p) (ps.map .node ++ [.root]) ∧
      (∀ q, q ∈ ps ↔ OnAxis .ancestor p q ∧ E.doc.Has q) ∧ ps.Pairwise (fun x y => docLt y x) := by
  refine ⟨axisCands E.doc .ancestor p, ?_, axisCands_mem hp rfl, by have := axisCands_order (doc := E.doc) (p := p) .ancestor; exact this⟩
  rw [Env.Yields, run_step, step_elem E.fo hd hp n rfl]
  simp [Test.sel, Item.isNode, rootTail, filter_all]

/-- C46: the axes from the root node. -/
theorem C46_root (E : Env F) (hd : E.doc.NoEmptyText) (n : Nat) :
    E.Yields n (.step .self .node) .root [.root] ∧
    E.Yields n (.step .child .node) .root [.node []] ∧
    (∃ ps : List Path, E.Yields n (.step .descendant .node) .root (ps.map .node) ∧
      E.Yields n (.step .descendantOrSelf .node) .root (.root :: ps.map .node) ∧
      (∀ q, q ∈ ps ↔ E.doc.Has q) ∧ ps.Pairwise docLt) := by
  have hv : visit E.fo E.doc .node .root (.node [] :: (E.doc.under []).map .node) =
      ([] :: E.doc.under []).map (Item.node : Path → Item F) := by
    rw [show (Item.node [] : Item F) :: (E.doc.under []).map .node = ([] :: E.doc.under []).map .node from rfl,
      visit_nodes E.fo hd]
    simp [Test.sel, Item.isNode, filter_all]
  refine ⟨?_, ?_, [] :: E.doc.under [], ?_, ?_, ?_, ?_⟩
  · rw [Env.Yields, run_step]; rfl
  · rw [Env.Yields, run_step]
    have := visit_nodes E.fo hd .node .root [[]]
    simp only [List.map_cons, List.map_nil] at this
    simp only [stepRes, Item.children, Test.isName, Bool.false_eq_true, if_false]
    rw [this]
    rfl
  · rw [Env.Yields, run_step]
    simp only [stepRes, Item.below, hv]
  · rw [Env.Yields, run_step]
    simp only [stepRes, Item.below, hv]
    rfl
  · intro q
    rw [List.mem_cons, mem_under (p := []) rfl]
    constructor
    · rintro (rfl | h)
      · exact ⟨_, rfl⟩
      · exact h.2
    · intro h
      cases q with
      | nil => exact .inl rfl
      | cons i q => exact .inr ⟨⟨i :: q, by simp, rfl⟩, h⟩
  · refine List.pairwise_cons.2 ⟨?_, under_order.1 _ _⟩
    intro q hq
    obtain ⟨r, y, h1, h2, _⟩ := (under_mem.1 _ _ _).1 hq
    cases r with
    | nil => exact absurd rfl h1
    | cons i r => rw [h2]; trivial

/-- The axes `following` and `preceding` do not yield what they denote (they are not part of C46): from the
first `<b/>` of `<a><c><b/></c><d/></a>`, `following::node()` misses `<d/>`, and `preceding::node()` is always
empty. -/
theorem C46_following_and_preceding_are_incomplete :
    ∃ (E : Env NoF), E.doc.ElemAt [0, 0] ∧ OnAxis .following [0, 0] [1] ∧
      E.Yields 0 (.step .following .node) (.node [0, 0]) [] ∧
      OnAxis .preceding [1] [0] ∧ E.Yields 0 (.step .preceding .node) (.node [1]) [] := by
  refine ⟨{ exEnv with doc := .elem ['a'] [] [.elem ['c'] [] [.elem ['b'] [] []], .elem ['d'] [] []] },
    ⟨_, _, _, rfl⟩, ?_, ?_, ?_, ?_⟩
  · refine ⟨by simp [docLt], ?_⟩; rintro ⟨r, h⟩; cases h
  · unfold Env.Yields; decide
  · refine ⟨by simp [docLt], ?_⟩; rintro ⟨r, h⟩; cases h
  · unfold Env.Yields; decide

example : exEnv.Yields 0 (.step .descendant .node) (.node []) [.node [0], .node [1], .node [2], .node [2, 0], .node [2, 0, 0]]
    ∧ exEnv.Yields 0 (.step .precedingSibling .node) (.node [2]) [.node [1], .node [0]]
    ∧ exEnv.Yields 0 (.step .ancestor .node) (.node [2, 0]) [.node [2], .node [], .root] := by
  unfold Env.Yields; decide

example : exEnv.doc.NoEmptyText ∧ exEnv.doc.ElemAt [2] := ⟨exTree_plain, exTree_elem⟩

/-! ### C47 -/

/-- C47: on the axes self, child, descendant, descendant-or-self, following-sibling and preceding-sibling from an
element, a name test selects exactly the elements of that name. -/
theorem C47_name_tests (E : Env F) (hd : E.doc.NoEmptyText) {p : Path} (hp : E.doc.ElemAt p) (n : Nat) (a : Axis)
    (ha : a = .self ∨ a = .child ∨ a = .descendant ∨ a = .descendantOrSelf ∨ a = .followingSibling ∨
      a = .precedingSibling) (nm : Str) :
    ∃ ps : List Path, E.Yields n (.step a (.name nm)) (.node p) (ps.map .node) ∧
      (∀ q, q ∈ ps ↔ OnAxis a p q ∧ E.doc.Named nm q) ∧
      ps.Pairwise (fun x y => if a = .precedingSibling then docLt y x else docLt x y) := by
  have hs : a.sound = true := by rcases ha with rfl | rfl | rfl | rfl | rfl | rfl <;> rfl
  have ht : rootTail (F := F) a p = [] := by rcases ha with rfl | rfl | rfl | rfl | rfl | rfl <;> rfl
  have hr : ∀ x y, (if a.reverse = true then docLt y x else docLt x y) ↔
      (if a = .precedingSibling then docLt y x else docLt x y) := by
    intro x y; rcases ha with rfl | rfl | rfl | rfl | rfl | rfl <;> simp [Axis.reverse]
  refine ⟨_, by rw [Env.Yields, run_step, step_elem E.fo hd hp n hs, ht, List.append_nil], ?_, ?_⟩
  · intro q
    rw [List.mem_filter, axisCands_mem hp hs, Bool.and_eq_true, sel_name]
    constructor
    · rintro ⟨⟨h1, _⟩, h2, _⟩; exact ⟨h1, h2⟩
    · rintro ⟨h1, h2⟩
      refine ⟨⟨h1, h2.elemAt.has⟩, h2, ?_⟩
      rw [isElem_iff.2 h2.elemAt]; simp
  · refine List.Pairwise.filter _ ?_
    exact List.Pairwise.imp (fun h => (hr _ _).1 h) (axisCands_order a)

/-- C47: `child::*` selects exactly the child elements. -/
theorem C47_star_partial (E : Env F) (hd : E.doc.NoEmptyText) {p : Path} (hp : E.doc.ElemAt p) (n : Nat) :
    ∃ ps : List Path, E.Yields n (.step .child .star) (.node p) (ps.map .node) ∧
      (∀ q, q ∈ ps ↔ OnAxis .child p q ∧ E.doc.ElemAt q) ∧ ps.Pairwise docLt := by
  refine ⟨_, by rw [Env.Yields, run_step, step_elem E.fo hd hp n rfl, show rootTail (F := F) .child p = [] from rfl, List.append_nil], ?_, ?_⟩
  · intro q
    rw [List.mem_filter, axisCands_mem hp rfl]
    have : (Test.star.sel E.doc (.node q : Item F) && !(decide (Axis.child = .child) && Test.star.isName &&
        !(Item.node q : Item F).isElem E.doc)) = (Item.node q : Item F).isElem E.doc := by
      simp [Test.sel, Test.isName]
    rw [this, isElem_iff]
    constructor
    · rintro ⟨⟨h1, _⟩, h2⟩; exact ⟨h1, h2⟩
    · rintro ⟨h1, h2⟩; exact ⟨⟨h1, h2.has⟩, h2⟩
  · exact List.Pairwise.filter _ (axisCands_order .child)

/-- C47: `text()` selects exactly the text nodes on these axes. -/
theorem C47_text_tests (E : Env F) (hd : E.doc.NoEmptyText) {p : Path} (hp : E.doc.ElemAt p) (n : Nat) (a : Axis)
    (ha : a = .self ∨ a = .child ∨ a = .descendant ∨ a = .descendantOrSelf ∨ a = .followingSibling) :
    ∃ ps : List Path, E.Yields n (.step a .text) (.node p) (ps.map .node) ∧
      (∀ q, q ∈ ps ↔ OnAxis a p q ∧ ∃ s, E.doc.at? q = some (.text s)) ∧ ps.Pairwise docLt := by
  have hs : a.sound = true := by rcases ha with rfl | rfl | rfl | rfl | rfl <;> rfl
  have ht : rootTail (F := F) a p = [] := by rcases ha with rfl | rfl | rfl | rfl | rfl <;> rfl
  have hr : a.reverse = false := by rcases ha with rfl | rfl | rfl | rfl | rfl <;> rfl
  refine ⟨_, by rw [Env.Yields, run_step, step_elem E.fo hd hp n hs, ht, List.append_nil], ?_, ?_⟩
  · intro q
    rw [List.mem_filter, axisCands_mem hp hs]
    simp only [Test.isName, Bool.and_false, Bool.false_and, Bool.not_false, Bool.and_true]
    rw [sel_text]
    constructor
    · rintro ⟨⟨h1, _⟩, h2⟩; exact ⟨h1, h2⟩
    · rintro ⟨h1, s, h2⟩; exact ⟨⟨h1, _, h2⟩, s, h2⟩
  · refine List.Pairwise.filter _ ?_
    have := axisCands_order (doc := E.doc) (p := p) a
    rw [hr] at this
    exact this

/-- C47 as stated is false: `descendant::*` also yields text nodes; and `ancestor::nosuch` yields the root. -/
theorem C47_full_statement_is_false :
    exEnv.Yields 0 (.step .descendant .star) (.node [2]) [.node [2, 0], .node [2, 0, 0]] ∧
    exTree.at? [2, 0, 0] = some (.text ['y']) ∧ ¬ exTree.ElemAt [2, 0, 0] ∧
    exEnv.Yields 0 (.step .ancestor (.name "nosuch".toList)) (.node [2]) [.root] := by
  refine ⟨by unfold Env.Yields; decide, by decide, ?_, by unfold Env.Yields; decide⟩
  rintro ⟨m, as, cs, h⟩
  cases h

example : exEnv.Yields 0 (.step .descendant (.name ['b'])) (.node []) [.node [1], .node [2, 0]] := by
  unfold Env.Yields; decide

/-! ### C48 -/

theorem step_child_any (fo : FloatOps F) {doc : Node} (hd : doc.NoEmptyText) {q : Path} (hq : doc.Has q) (n : Nat)
    (t : Test) : stepRes fo doc n .child t (.node q) =
      ⟨((axisCands doc .child q).filter fun q => t.sel doc (.node q : Item F) &&
          !(decide (Axis.child = .child) && t.isName && !(Item.node q : Item F).isElem doc)).map .node, .done⟩ := by
  obtain ⟨y, hy⟩ := hq
  cases y with
  | elem m as cs =>
    rw [step_elem fo hd ⟨m, as, cs, hy⟩ n rfl, show rootTail (F := F) .child q = [] from rfl, List.append_nil]
  | text s => simp [stepRes, Item.children, axisCands, hy, visit]

theorem step_child_root (fo : FloatOps F) {doc : Node} (hd : doc.NoEmptyText) (n : Nat) (t : Test) :
    stepRes fo doc n .child t .root =
      ⟨([[]].filter fun q => t.sel doc (.node q : Item F) &&
          !(decide (Axis.child = .child) && t.isName && !(Item.node q : Item F).isElem doc)).map .node, .done⟩ := by
  simp only [stepRes, Item.children]
  congr 1
  have hm : ([Item.node []] : List (Item F)) = [[]].map .node := rfl
  rw [hm]
  cases ht : t.isName with
  | false =>
    simp only [Bool.false_eq_true, if_false, Bool.and_false, Bool.false_and, Bool.not_false, Bool.and_true]
    rw [visit_nodes fo hd]
  | true =>
    simp only [if_true, List.filter_map]
    rw [visit_nodes fo hd, List.filter_filter]
    simp

theorem getRoot_root (doc : Node) : (Item.root : Item F).getRoot doc = Res.one .root := rfl

theorem getRoot_elem {doc : Node} {p : Path} (h : doc.ElemAt p) :
    (Item.node p : Item F).getRoot doc = Res.one .root := by
  have : (Item.node p : Item F).isElem doc = true := isElem_iff.2 h
  simp [Item.getRoot, this]

theorem bind_one (x : Item F) (f : Item F → Res F) : (Res.one x).bind f = f x := by
  rw [Res.bind, Res.one, Res.bindList, Res.bindList]
  by_cases h : (f x).tail = .done
  · rw [append_done h, ← h]
    simp
  · exact append_stop h

/-- `//` followed by a child step with a test, from an element or the root. -/
theorem run_absAll_child' (E : Env F) (hd : E.doc.NoEmptyText) (n : Nat) (x : Item F)
    (hx : x = .root ∨ ∃ p, x = .node p ∧ E.doc.ElemAt p) (t : Test) :
    ∃ (f : Path → Bool) (ps : List Path),
      E.Yields n (.absAll (.step .child t)) x ((if t = .node then [.root] else []) ++ ps.map .node) ∧ ps.Nodup ∧
      (∀ q, q ∈ ps ↔ E.doc.Has q ∧ f q = true) ∧
      f = fun q => t.sel E.doc (.node q : Item F) &&
          !(decide (Axis.child = .child) && t.isName && !(Item.node q : Item F).isElem E.doc) := by
  generalize hf : (fun q => t.sel E.doc (.node q : Item F) &&
          !(decide (Axis.child = .child) && t.isName && !(Item.node q : Item F).isElem E.doc)) = f
  have hroot : x.getRoot E.doc = Res.one .root := by
    rcases hx with rfl | ⟨p, rfl, hp⟩
    · rfl
    · exact getRoot_elem hp
  have hj : (Expr.step .child t : Expr F).isJustNode = decide (t = .node) := by cases t <;> rfl
  refine ⟨f, [[]].filter f ++ ([] :: E.doc.under []).flatMap (fun q => (axisCands E.doc .child q).filter f), ?_, ?_, ?_, rfl⟩
  · rw [Env.Yields, run_absAll, hroot, bind_one]
    simp only [hj, Item.below, decide_eq_true_eq]
    rw [show (Item.node [] : Item F) :: (E.doc.under []).map .node = ([] :: E.doc.under []).map .node from rfl]
    rw [bindList_done (g := fun z => match z with
      | .node q => ((axisCands E.doc .child q).filter f).map .node
      | _ => [])]
    · rw [run_step, step_child_root E.fo hd, hf]
      have hm : (([[]].filter f ++ ([] :: E.doc.under []).flatMap (fun q => (axisCands E.doc .child q).filter f)).map
          (Item.node : Path → Item F)) = ([[]].filter f).map .node ++ (([] :: E.doc.under []).map (Item.node : Path → Item F)).flatMap
            (fun z => match z with
              | .node q => ((axisCands E.doc .child q).filter f).map .node
              | _ => []) := by
        rw [List.map_append, List.flatMap_map, List.map_flatMap]
      rw [hm]
      by_cases ht : t = .node
      · simp only [ht, if_true, Res.append, Res.one]
      · simp only [ht, if_false, Res.append, Res.nil, List.nil_append]
    · intro z hz
      obtain ⟨q, hq, rfl⟩ := List.mem_map.1 hz
      have hh : E.doc.Has q := by
        rcases List.mem_cons.1 hq with rfl | hq
        · exact ⟨_, rfl⟩
        · exact ((mem_under (p := []) rfl q).1 hq).2
      rw [run_step, Item.orElse, if_pos (truthy_node E.fo hd q), step_child_any E.fo hd hh, hf]
  · rw [List.nodup_append]
    refine ⟨List.Pairwise.filter _ (List.pairwise_singleton _ _), ?_, ?_⟩
    · rw [List.Nodup, List.pairwise_flatMap]
      constructor
      · intro q _
        exact List.Pairwise.filter _ (nodup_of_docLt (axisCands_order (doc := E.doc) (p := q) .child))
      · have hn : ([] :: E.doc.under []).Nodup := by
          refine List.nodup_cons.2 ⟨?_, nodup_of_docLt (under_order.1 _ _)⟩
          intro h
          obtain ⟨⟨r, h1, h2⟩, _⟩ := (mem_under (doc := E.doc) (p := []) rfl []).1 h
          exact h1 h2.symm
        refine List.Pairwise.imp ?_ hn
        intro a b hab u hu v hv huv
        subst huv
        have key : ∀ c, u ∈ (axisCands E.doc .child c).filter f → ∃ i, u = c ++ [i] := by
          intro c hc
          have := (List.mem_filter.1 hc).1
          simp only [axisCands] at this
          split at this
          · obtain ⟨i, _, rfl⟩ := List.mem_map.1 this; exact ⟨i, rfl⟩
          · cases this
        obtain ⟨i, hi⟩ := key a hu
        obtain ⟨j, hj⟩ := key b hv
        rw [hi] at hj
        exact hab (List.append_inj' hj rfl).1
    · intro a ha b hb hab
      subst hab
      have h1 := (List.mem_filter.1 ha).1
      rw [List.mem_singleton] at h1
      subst h1
      obtain ⟨c, _, hc⟩ := List.mem_flatMap.1 hb
      have := (List.mem_filter.1 hc).1
      simp only [axisCands] at this
      split at this
      · obtain ⟨i, _, h⟩ := List.mem_map.1 this; cases c <;> cases h
      · cases this
  · intro q
    rw [List.mem_append, List.mem_filter, List.mem_singleton, List.mem_flatMap]
    constructor
    · rintro (⟨rfl, h⟩ | ⟨c, _, hc⟩)
      · exact ⟨⟨_, rfl⟩, h⟩
      · obtain ⟨h1, h2⟩ := List.mem_filter.1 hc
        refine ⟨?_, h2⟩
        simp only [axisCands] at h1
        split at h1
        · rename_i m as cs hcs
          obtain ⟨i, hi, rfl⟩ := List.mem_map.1 h1
          exact (has_child hcs i).2 (List.mem_range.1 hi)
        · cases h1
    · rintro ⟨h1, h2⟩
      cases hl : q.getLast? with
      | none =>
        rw [List.getLast?_eq_none_iff] at hl
        subst hl
        exact .inl ⟨rfl, h2⟩
      | some i =>
        have hs := eq_snoc hl
        have hu : E.doc.ElemAt q.dropLast := Node.Has.parent (i := i) (by rw [← hs]; exact h1)
        refine .inr ⟨q.dropLast, ?_, List.mem_filter.2 ⟨(axisCands_mem hu rfl q).2 ⟨⟨i, hs⟩, h1⟩, h2⟩⟩
        rw [List.mem_cons, mem_under (p := []) rfl]
        cases hq : q.dropLast with
        | nil => exact .inl rfl
        | cons j r => exact .inr ⟨⟨j :: r, by simp, rfl⟩, hq ▸ hu.has⟩

theorem run_absAll_child (E : Env F) (hd : E.doc.NoEmptyText) (n : Nat) (x : Item F)
    (hx : x = .root ∨ ∃ p, x = .node p ∧ E.doc.ElemAt p) (t : Test) (ht : t ≠ .node) :
    ∃ (f : Path → Bool) (ps : List Path), E.Yields n (.absAll (.step .child t)) x (ps.map .node) ∧ ps.Nodup ∧
      (∀ q, q ∈ ps ↔ E.doc.Has q ∧ f q = true) ∧
      f = fun q => t.sel E.doc (.node q : Item F) &&
          !(decide (Axis.child = .child) && t.isName && !(Item.node q : Item F).isElem E.doc) := by
  obtain ⟨f, ps, h1, h2⟩ := run_absAll_child' E hd n x hx t
  rw [if_neg ht, List.nil_append] at h1
  exact ⟨f, ps, h1, h2⟩

/-- C48: `//name`, from any element or the root, yields every element of that name in the whole document, each
exactly once. -/
theorem C48_every_element_once (E : Env F) (hd : E.doc.NoEmptyText) (n : Nat) (x : Item F)
    (hx : x = .root ∨ ∃ p, x = .node p ∧ E.doc.ElemAt p) (nm : Str) :
    ∃ ps : List Path, E.Yields n (.absAll (.step .child (.name nm))) x (ps.map .node) ∧ ps.Nodup ∧
      ∀ q, q ∈ ps ↔ E.doc.Named nm q := by
  obtain ⟨f, ps, h1, h2, h3, h4⟩ := run_absAll_child E hd n x hx (.name nm) (by simp)
  refine ⟨ps, h1, h2, fun q => ?_⟩
  rw [h3, h4, Bool.and_eq_true, sel_name]
  constructor
  · rintro ⟨_, h, _⟩; exact h
  · intro h
    refine ⟨h.elemAt.has, h, ?_⟩
    rw [isElem_iff.2 h.elemAt]; simp

/-- C48: `//*` yields every element of the document, each exactly once. -/
theorem C48_star (E : Env F) (hd : E.doc.NoEmptyText) (n : Nat) (x : Item F)
    (hx : x = .root ∨ ∃ p, x = .node p ∧ E.doc.ElemAt p) :
    ∃ ps : List Path, E.Yields n (.absAll (.step .child .star)) x (ps.map .node) ∧ ps.Nodup ∧
      ∀ q, q ∈ ps ↔ E.doc.ElemAt q := by
  obtain ⟨f, ps, h1, h2, h3, h4⟩ := run_absAll_child E hd n x hx .star (by simp)
  refine ⟨ps, h1, h2, fun q => ?_⟩
  have : f q = (Item.node q : Item F).isElem E.doc := by rw [h4]; simp [Test.sel, Test.isName]
  rw [h3, this, isElem_iff]
  exact ⟨And.right, fun h => ⟨h.has, h⟩⟩

/-- C48: `//text()` yields every text node of the document, each exactly once. -/
theorem C48_text (E : Env F) (hd : E.doc.NoEmptyText) (n : Nat) (x : Item F)
    (hx : x = .root ∨ ∃ p, x = .node p ∧ E.doc.ElemAt p) :
    ∃ ps : List Path, E.Yields n (.absAll (.step .child .text)) x (ps.map .node) ∧ ps.Nodup ∧
      ∀ q, q ∈ ps ↔ ∃ s, E.doc.at? q = some (.text s) := by
  obtain ⟨f, ps, h1, h2, h3, h4⟩ := run_absAll_child E hd n x hx .text (by simp)
  refine ⟨ps, h1, h2, fun q => ?_⟩
  have : f q = Test.text.sel E.doc (Item.node q : Item F) := by rw [h4]; simp [Test.isName]
  rw [h3, this, sel_text]
  constructor
  · exact And.right
  · rintro ⟨s, h⟩; exact ⟨⟨_, h⟩, s, h⟩

/-- The order is not document order: a node's named children come before its other children's descendants. -/
example : exEnv.Yields 0 (.absAll (.step .child (.name ['b']))) (.node [2]) [.node [1], .node [2, 0]] ∧
    ({ exEnv with doc := .elem ['a'] [] [.elem ['c'] [] [.elem ['b'] [] []], .elem ['b'] [] []] } : Env NoF).Yields 0
      (.absAll (.step .child (.name ['b']))) .root [.node [1], .node [0, 0]] := by
  unfold Env.Yields; decide

/-! ### C49, C50 -/

theorem predLoop_pos (k : Int) (t : Tail) (pos : Nat) (xs : List (Item F)) :
    predLoop (fun pos _ => .inl ((pos : Int) == k)) t pos xs =
      ⟨(if (pos : Int) ≤ k then xs[(k - pos).toNat]? else none).toList, t⟩ := by
  induction xs generalizing pos with
  | nil => rw [predLoop]; split <;> rfl
  | cons x xs ih =>
    rw [predLoop]
    simp only [ih]
    by_cases h : (pos : Int) = k
    · subst h
      have : ¬ ((pos : Int) + 1 ≤ (pos : Int)) := by omega
      simp [this]
    · have hb : ((pos : Int) == k) = false := by simpa using h
      simp only [hb, Bool.false_eq_true, if_false]
      by_cases hle : (pos : Int) ≤ k
      · have h1 : (k - (pos : Int)).toNat = (k - ((pos : Int) + 1)).toNat + 1 := by omega
        have h2 : ((pos + 1 : Nat) : Int) ≤ k := by omega
        rw [if_pos hle, if_pos h2, h1, List.getElem?_cons_succ]
        simp
      · have h2 : ¬ ((pos + 1 : Nat) : Int) ≤ k := by omega
        rw [if_neg hle, if_neg h2]

/-- C49: `expr[k]` yields exactly the `k`-th item of `expr` (and then the exception of `expr` if it has one),
and nothing if there are fewer or `k < 1`. -/
theorem C49_positional (E : Env F) (n : Nat) (e : Expr F) (x : Item F) (k : Int) (xs : List (Item F)) (t : Tail)
    (h : E.run n e x = ⟨xs, t⟩) :
    E.run n (.pred e [.lit (.int k)]) x = ⟨(if 1 ≤ k then xs[k.toNat - 1]? else none).toList, t⟩ := by
  rw [run_pred, h]
  have := predLoop_pos (F := F) k t 1 xs
  simp only [run_lit]
  rw [show (k.toNat - 1) = (k - (1 : Nat)).toNat by omega]
  exact this

example : exEnv.run 0 (.pred (.step .child .node) [.lit (.int 2)]) (.node []) = ⟨[.node [1]], .done⟩ ∧
    exEnv.run 0 (.pred (.step .child .node) [.lit (.int 4)]) (.node []) = ⟨[], .done⟩ ∧
    exEnv.run 0 (.pred (.step .child .node) [.lit (.int 0)]) (.node []) = ⟨[], .done⟩ := by decide

/-- The result of a test that is not a number. -/
def NotNumber : List (Item F) → Prop
  | .int _ :: _ => False
  | .float _ :: _ => False
  | _ => True

theorem toBool_iff (E : Env F) (y : Item F) (ys : List (Item F)) :
    y.toBool E.fo E.doc = true ↔ E.Ebv (y :: ys) := by
  cases y with
  | node p =>
    simp only [Item.toBool, Item.strOf, Item.textOf, Env.Ebv]
    cases E.doc.at? p with
    | none => simp
    | some z =>
      cases z with
      | elem m as cs => simp
      | text s => cases s <;> simp
  | _ => simp [Item.toBool, Item.strOf, Item.textOf, Env.Ebv]

theorem truthy_iff (E : Env F) (y : Item F) (ys : List (Item F)) :
    y.truthy E.fo E.doc = true ↔ E.Ebv (y :: ys) := by
  rw [← toBool_iff]
  cases y with
  | node p =>
    simp only [Item.toBool, Item.truthy, Item.strOf, Item.textOf]
  | _ => simp [Item.toBool, Item.truthy, Item.strOf, Item.textOf]

theorem predHolds_bool (E : Env F) (pos : Nat) (ys : List (Item F)) (hn : NotNumber ys) (b : Bool)
    (hb : b = true ↔ E.Ebv ys) : predHolds E.fo E.doc pos ⟨ys, .done⟩ = .inl b := by
  cases ys with
  | nil =>
    cases b with
    | false => rfl
    | true => exact absurd (hb.1 rfl) (by simp [Env.Ebv])
  | cons y ys =>
    have hb' : y.toBool E.fo E.doc = b := by
      rw [Bool.eq_iff_iff, toBool_iff E y ys]; exact hb.symm
    cases y with
    | int i => exact hn.elim
    | float f => exact hn.elim
    | _ => simp only [predHolds, Res.first, hb']

theorem predLoop_bool (f : Nat → Item F → Bool ⊕ Tail) (b : Item F → Bool) (t : Tail) (pos : Nat) (xs : List (Item F))
    (h : ∀ pos, ∀ y ∈ xs, f pos y = .inl (b y)) : predLoop f t pos xs = ⟨xs.filter b, t⟩ := by
  induction xs generalizing pos with
  | nil => rfl
  | cons x xs ih =>
    rw [predLoop, h pos x (by simp)]
    simp only
    rw [ih (pos + 1) (fun pos y hy => h pos y (by simp [hy])), List.filter_cons]
    cases b x <;> rfl

/-- C50: `expr[test]` yields, in order, exactly the items of `expr` for which `test`, with the item as context,
has the effective boolean value true. -/
theorem C50_boolean_predicate (E : Env F) (n : Nat) (e test : Expr F) (x : Item F) (xs : List (Item F)) (t : Tail)
    (h : E.run n e x = ⟨xs, t⟩) (hx : ∀ y ∈ xs, E.Truthy y) (g : Item F → List (Item F))
    (hg : ∀ y ∈ xs, E.Yields n test y (g y)) (hn : ∀ y ∈ xs, NotNumber (g y)) (b : Item F → Bool)
    (hb : ∀ y ∈ xs, b y = true ↔ E.Ebv (g y)) :
    E.run n (.pred e [test]) x = ⟨xs.filter b, t⟩ := by
  rw [run_pred, h]
  refine predLoop_bool _ b _ _ _ (fun pos y hy => ?_)
  rw [orElse_truthy (hx y hy), hg y hy]
  exact predHolds_bool E pos _ (hn y hy) _ (hb y hy)

example : exEnv.run 0 (.pred (.step .child .star) [.step .child (.name ['b'])]) (.node []) = ⟨[.node [2]], .done⟩ := by
  decide

/-- An item that is an empty string is tested with the context of the whole expression instead (so C50 needs its
hypothesis on the items): `('')[b]` at an element with a child `b` yields the empty string. -/
theorem C50_full_statement_is_false :
    exEnv.Yields 0 (.seq [.lit (.str [])]) (.node []) [.str []] ∧
    exEnv.run 0 (.pred (.seq [.lit (.str [])]) [.step .child (.name ['b'])]) (.node []) = ⟨[.str []], .done⟩ ∧
    exEnv.run 0 (.step .child (.name ['b'])) (.str []) = ⟨[], .err .attribute⟩ := by
  unfold Env.Yields; decide

/-! ### C53 -/

section
variable (E : Env F) (n : Nat) (x : Item F)

theorem run_call1 (nm : Str) (a : Expr F) : ∃ dyn,
    E.run n (.call nm [a]) x = callFn E.fo E.doc dyn x nm [a] [E.run n a x] := by
  obtain ⟨dyn, h⟩ := run_eval E n
  refine ⟨dyn, ?_⟩
  simp only [h]; rw [eval, evalArgs, evalArgs]

theorem run_call2 (nm : Str) (a b : Expr F) : ∃ dyn,
    E.run n (.call nm [a, b]) x = callFn E.fo E.doc dyn x nm [a, b] [E.run n a x, E.run n b x] := by
  obtain ⟨dyn, h⟩ := run_eval E n
  refine ⟨dyn, ?_⟩
  simp only [h]; rw [eval, evalArgs, evalArgs, evalArgs]

theorem run_call3 (nm : Str) (a b c : Expr F) : ∃ dyn,
    E.run n (.call nm [a, b, c]) x =
      callFn E.fo E.doc dyn x nm [a, b, c] [E.run n a x, E.run n b x, E.run n c x] := by
  obtain ⟨dyn, h⟩ := run_eval E n
  refine ⟨dyn, ?_⟩
  simp only [h]; rw [eval, evalArgs, evalArgs, evalArgs, evalArgs]

theorem run_boolean (a : Expr F) : E.run n (.call "boolean".toList [a]) x =
    (E.run n a x).orDefault (.str []) fun y => .one (.bool (y.toBool E.fo E.doc)) := by
  obtain ⟨dyn, h⟩ := run_call1 E n x "boolean".toList a
  rw [h, callFn]
  repeat rw [if_neg (by decide)]
  rw [if_pos rfl]
  rfl

theorem run_not (a : Expr F) : E.run n (.call "not".toList [a]) x =
    (E.run n a x).orDefault (.bool false) fun y => .one (.bool (!y.toBool E.fo E.doc)) := by
  obtain ⟨dyn, h⟩ := run_call1 E n x "not".toList a
  rw [h, callFn]
  repeat rw [if_neg (by decide)]
  rw [if_pos rfl]
  rfl

end

/-- C53: `boolean(expr)` and `not(expr)` yield the effective boolean value of the result of `expr` and its
opposite. -/
theorem C53_boolean_and_not (E : Env F) (n : Nat) (e : Expr F) (x : Item F) (xs : List (Item F))
    (h : E.Yields n e x xs) :
    ∃ b : Bool, (b = true ↔ E.Ebv xs) ∧ E.Yields n (.call "boolean".toList [e]) x [.bool b] ∧
      E.Yields n (.call "not".toList [e]) x [.bool !b] := by
  cases xs with
  | nil =>
    refine ⟨false, by simp [Env.Ebv], ?_, ?_⟩
    · rw [Env.Yields, run_boolean, h]; rfl
    · rw [Env.Yields, run_not, h]; rfl
  | cons y ys =>
    refine ⟨y.toBool E.fo E.doc, toBool_iff E y ys, ?_, ?_⟩
    · rw [Env.Yields, run_boolean, h]; rfl
    · rw [Env.Yields, run_not, h]; rfl

example : exEnv.Yields 0 (.call "not".toList [.step .child (.name ['d'])]) (.node []) [.bool true] ∧
    exEnv.Yields 0 (.call "boolean".toList [.lit (.str [])]) (.node []) [.bool false] ∧
    exEnv.Yields 0 (.call "boolean".toList [.step .child (.name ['b'])]) (.node []) [.bool true] := by
  unfold Env.Yields; decide

/-! ### C54 -/

/-- C54: a sequence yields the results of its parts one after another. -/
theorem C54_sequence (E : Env F) (n : Nat) (x : Item F) (es : List (Expr F × List (Item F)))
    (h : ∀ e ∈ es, E.Yields n e.1 x e.2) : E.Yields n (.seq (es.map (·.1))) x (es.flatMap (·.2)) := by
  induction es with
  | nil => exact run_seq_nil E n x
  | cons e es ih =>
    have h1 := h e (by simp)
    have h2 := ih (fun e he => h e (by simp [he]))
    rw [Env.Yields] at h1 h2 ⊢
    rw [List.map_cons, run_seq_cons, h1, h2]
    rfl

theorem run_count (E : Env F) (n : Nat) (x : Item F) (a : Expr F) : E.run n (.call "count".toList [a]) x =
    if (E.run n a x).tail = .done then .one (.int (E.run n a x).items.length) else ⟨[], (E.run n a x).tail⟩ := by
  obtain ⟨dyn, h⟩ := run_call1 E n x "count".toList a
  rw [h, callFn]
  repeat rw [if_neg (by decide)]
  rw [if_pos rfl]
  rfl

/-- C54: `count(expr)` yields the number of items of `expr`. -/
theorem C54_count (E : Env F) (n : Nat) (e : Expr F) (x : Item F) (xs : List (Item F)) (h : E.Yields n e x xs) :
    E.Yields n (.call "count".toList [e]) x [.int xs.length] := by
  rw [Env.Yields, run_count, h]
  rfl

example : exEnv.Yields 0 (.seq [.lit (.int 7), .step .child .node]) (.node [])
      [.int 7, .node [0], .node [1], .node [2]] ∧
    exEnv.Yields 0 (.call "count".toList [.seq [.lit (.int 7), .step .child .node]]) (.node []) [.int 4] := by
  unfold Env.Yields; decide

/-! ### C57 -/

/-- C57: for operands that are not empty, the effective boolean values of `a or b` and `a and b` are the
disjunction and conjunction of those of the operands. -/
theorem C57_connectives_partial (E : Env F) (n : Nat) (a b : Expr F) (x y z : Item F) (ys zs : List (Item F))
    (ha : E.Yields n a x (y :: ys)) (hb : E.Yields n b x (z :: zs)) :
    (∃ r, E.Yields n (.or a b) x [r] ∧ (E.Ebv [r] ↔ E.Ebv (y :: ys) ∨ E.Ebv (z :: zs))) ∧
    (∃ r, E.Yields n (.and a b) x [r] ∧ (E.Ebv [r] ↔ E.Ebv (y :: ys) ∧ E.Ebv (z :: zs))) := by
  rw [← truthy_iff E y ys, ← truthy_iff E z zs]
  rw [Env.Yields] at ha hb
  simp only [Env.Yields, run_or, run_and, ha, hb, Res.need, Res.first]
  cases hy : y.truthy E.fo E.doc with
  | true =>
    refine ⟨⟨y, by simp [Res.one], ?_⟩, ⟨z, by simp [Res.one], ?_⟩⟩
    · rw [← truthy_iff, hy]; simp
    · rw [← truthy_iff]; simp
  | false =>
    refine ⟨⟨z, by simp [Res.one], ?_⟩, ⟨y, by simp [Res.one], ?_⟩⟩
    · rw [← truthy_iff]; simp
    · rw [← truthy_iff, hy]; simp

/-- C57: the right operand is not looked at when the left one decides. -/
theorem C57_short_circuit (E : Env F) (n : Nat) (a b : Expr F) (x y : Item F) (ys : List (Item F))
    (ha : E.Yields n a x (y :: ys)) :
    (E.Ebv (y :: ys) → E.Yields n (.or a b) x [y]) ∧ (¬ E.Ebv (y :: ys) → E.Yields n (.and a b) x [y]) := by
  rw [← truthy_iff E y ys]
  rw [Env.Yields] at ha
  simp only [Env.Yields, run_or, run_and, ha, Res.need, Res.first]
  constructor
  · intro h; rw [if_pos h]; rfl
  · intro h; rw [if_neg h]; rfl

/-- C57 as stated is false: an empty operand raises RuntimeError, here `b or nosuch` is fine but `nosuch or b`
is not. -/
theorem C57_full_statement_is_false :
    exEnv.run 0 (.or (.step .child (.name ['b'])) (.step .child (.name ['d']))) (.node []) = ⟨[.node [1]], .done⟩ ∧
    exEnv.run 0 (.or (.step .child (.name ['d'])) (.step .child (.name ['b']))) (.node []) = ⟨[], .err .runtime⟩ ∧
    exEnv.run 0 (.and (.step .child (.name ['b'])) (.step .child (.name ['d']))) (.node []) = ⟨[], .err .runtime⟩ := by
  decide

example : exEnv.Yields 0 (.and (.step .child (.name ['b'])) (.call "false".toList [])) (.node []) [.bool false] := by
  unfold Env.Yields; decide

end Amara
