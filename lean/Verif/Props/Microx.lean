import Verif.Spec.Microx
import Verif.Props.XPathOps
/-
C63: the command line tool.
-/
namespace Amara

variable {F : Type}

theorem printed_line (E : Env F) (x : Item F) (hx : x ≠ .root) : x.printed E.fo E.doc = some (E.line x) := by
  cases x with
  | root => exact absurd rfl hx
  | node p =>
    simp only [Item.printed, Env.line]
    cases E.doc.at? p with
    | none => rfl
    | some y => cases y <;> simp [Node.encode, Node.encodeI]
  | attr p k v => simp [Item.printed, Env.line]
  | bool b => cases b <;> rfl
  | _ => rfl

theorem printAll_lines (E : Env F) (t : Tail) {xs : List (Item F)} (h : .root ∉ xs) :
    printAll E.fo E.doc t xs = ⟨xs.map E.line, t⟩ := by
  induction xs with
  | nil => rfl
  | cons x r ih =>
    simp only [List.mem_cons, not_or] at h
    rw [printAll, printed_line E x (fun e => h.1 e.symm)]
    simp only [ih h.2, Printed.append]
    simp

theorem printForeach_lines (E : Env F) {n : Nat} {fe : Expr F} {g : Item F → List (Item F)} (t : Tail)
    {xs : List (Item F)} (h : ∀ y ∈ xs, E.Yields n fe y (g y) ∧ .root ∉ g y) :
    printForeach E.fo E.doc (E.run n fe) t xs = ⟨xs.flatMap fun y => (g y).map E.line, t⟩ := by
  induction xs with
  | nil => rfl
  | cons x r ih =>
    have hx := h x (by simp)
    rw [Env.Yields] at hx
    rw [printForeach, hx.1, printAll_lines E _ hx.2, ih (fun y hy => h y (by simp [hy]))]
    simp [Printed.append]

theorem everyElement_spec (doc : Node) (hd : doc.isText = false) :
    (∀ q x, (q, x) ∈ doc.everyElement ↔ doc.at? q = some x ∧ x.isText = false) ∧
    (doc.everyElement.map (·.1)).Pairwise docLt := by
  obtain ⟨h1, h2, _⟩ := C37_descendants doc
  constructor
  · intro q x
    simp only [Node.everyElement, List.mem_cons, h1]
    constructor
    · rintro (h | ⟨_, h⟩)
      · cases h; exact ⟨rfl, hd⟩
      · exact h
    · rintro ⟨h, hx⟩
      by_cases hq : q = []
      · subst hq; left; simp only [Node.at?, Option.some.injEq] at h; rw [h]
      · exact .inr ⟨hq, h, hx⟩
  · rw [List.pairwise_map]
    refine List.Pairwise.cons ?_ h2
    rintro ⟨q, x⟩ hq
    cases q with
    | nil => exact absurd rfl ((h1 _ _).1 hq).1
    | cons i q => trivial

theorem elemAt_iff {doc : Node} {q : Path} : doc.ElemAt q ↔ ∃ x, doc.at? q = some x ∧ x.isText = false := by
  constructor
  · rintro ⟨m, as, cs, h⟩; exact ⟨_, h, rfl⟩
  · rintro ⟨x, h, hx⟩
    cases x with
    | elem m as cs => exact ⟨m, as, cs, h⟩
    | text s => cases hx

theorem matchLoop_lines (E : Env F) (e : Item F → Res F) (inner) (f : Path → List Str) {ps : List (Path × Node)}
    (h : ∀ p ∈ ps, printResult E.fo E.doc inner (e (.node p.1)) = ⟨f p.1, .done⟩) (rest : List (Path × Node)) :
    matchLoop E.fo E.doc e inner (ps ++ rest) =
      Printed.append ⟨(ps.map (·.1)).flatMap f, .done⟩ (matchLoop E.fo E.doc e inner rest) := by
  induction ps with
  | nil => simp [Printed.append]
  | cons x r ih =>
    obtain ⟨p, y⟩ := x
    rw [List.cons_append, matchLoop, h (p, y) (by simp), ih (fun q hq => h q (by simp [hq]))]
    simp [Printed.append]

/-- C63 (partial).  `microx --match`: the expression is evaluated once at every element, the document element
first, in document order (`ps` lists the elements), and a line is printed for every item of every result;
with `--foreach`, for every item of the results of the second expression at every item.  It is assumed that
no evaluation raises and none yields the root.  Missing: the root node as an item, which cannot be printed. -/
theorem C63_match_partial (E : Env F) (hd : E.doc.isText = false) (n : Nat) (m : Expr F)
    (f : Path → List (Item F)) (hf : ∀ p, E.doc.ElemAt p → E.Yields n m (.node p) (f p)) :
    ∃ ps : List Path, (∀ q, q ∈ ps ↔ E.doc.ElemAt q) ∧ ps.Pairwise docLt ∧ ps.head? = some [] ∧
      ((∀ p, E.doc.ElemAt p → .root ∉ f p) →
        runMatch E.fo E.doc (E.run n m) none = ⟨ps.flatMap fun p => (f p).map E.line, .done⟩) ∧
      ∀ (fe : Expr F) (g : Item F → List (Item F)),
        (∀ p, E.doc.ElemAt p → ∀ y ∈ f p, E.Yields n fe y (g y) ∧ .root ∉ g y) →
        runMatch E.fo E.doc (E.run n m) (some (E.run n fe)) =
          ⟨ps.flatMap fun p => (f p).flatMap fun y => (g y).map E.line, .done⟩ := by
  obtain ⟨h1, h2⟩ := everyElement_spec E.doc hd
  have hel : ∀ p ∈ E.doc.everyElement, E.doc.ElemAt p.1 := fun p hp =>
    elemAt_iff.2 ⟨p.2, (h1 p.1 p.2).1 hp⟩
  refine ⟨E.doc.everyElement.map (·.1), fun q => ?_, h2, rfl, fun hr => ?_, fun fe g hg => ?_⟩
  · rw [List.mem_map, elemAt_iff]
    constructor
    · rintro ⟨⟨q, x⟩, h, rfl⟩; exact ⟨x, (h1 _ _).1 h⟩
    · rintro ⟨x, h⟩; exact ⟨(q, x), (h1 _ _).2 h, rfl⟩
  · have := matchLoop_lines E (E.run n m) none (fun p => (f p).map E.line) (ps := E.doc.everyElement)
      (fun p hp => by
        have hy := hf p.1 (hel p hp)
        rw [Env.Yields] at hy
        rw [printResult, hy]
        exact printAll_lines E _ (hr p.1 (hel p hp))) []
    simpa [runMatch, matchLoop, Printed.append] using this
  · have := matchLoop_lines E (E.run n m) (some (E.run n fe)) (fun p => (f p).flatMap fun y => (g y).map E.line)
      (ps := E.doc.everyElement)
      (fun p hp => by
        have hy := hf p.1 (hel p hp)
        rw [Env.Yields] at hy
        rw [printResult, hy]
        exact printForeach_lines E _ (hg p.1 (hel p hp))) []
    simpa [runMatch, matchLoop, Printed.append] using this

/-- `--match` when the evaluation raises at the element `q`: everything found at the elements before `q` has been
printed, then what was found at `q` before the exception, and nothing else. -/
theorem C63_match_exception (E : Env F) (hd : E.doc.isText = false) (n : Nat) (m : Expr F)
    (f : Path → List (Item F)) {q : Path} (hq : E.doc.ElemAt q) (xs : List (Item F)) (t : Tail) (ht : t ≠ .done)
    (hq' : E.run n m (.node q) = ⟨xs, t⟩) (hx : .root ∉ xs)
    (hf : ∀ p, E.doc.ElemAt p → docLt p q → E.Yields n m (.node p) (f p) ∧ .root ∉ f p) :
    ∃ ps : List Path, (∀ p, p ∈ ps ↔ E.doc.ElemAt p ∧ docLt p q) ∧ ps.Pairwise docLt ∧
      runMatch E.fo E.doc (E.run n m) none = ⟨(ps.flatMap fun p => (f p).map E.line) ++ xs.map E.line, t⟩ := by
  obtain ⟨h1, h2⟩ := everyElement_spec E.doc hd
  obtain ⟨x, hx1, hx2⟩ := elemAt_iff.1 hq
  obtain ⟨a, b, hab⟩ := List.append_of_mem ((h1 q x).2 ⟨hx1, hx2⟩)
  rw [hab] at h2
  simp only [List.map_append, List.map_cons, List.pairwise_append, List.pairwise_cons] at h2
  obtain ⟨h3, ⟨h4, _⟩, h5⟩ := h2
  have ha : ∀ p ∈ a, E.doc.ElemAt p.1 ∧ docLt p.1 q := fun p hp =>
    ⟨elemAt_iff.2 ⟨p.2, (h1 p.1 p.2).1 (by rw [hab]; simp [hp])⟩,
      h5 p.1 (List.mem_map.2 ⟨p, hp, rfl⟩) q (by simp)⟩
  have htr : ∀ p, docLt p q → docLt q p → False := fun p h h' => docLt_irrefl _ (docLt_trans h h')
  refine ⟨a.map (·.1), fun p => ?_, h3, ?_⟩
  · constructor
    · intro hp
      obtain ⟨y, hy, rfl⟩ := List.mem_map.1 hp
      exact ha y hy
    · rintro ⟨hp, hlt⟩
      obtain ⟨y, hy⟩ := elemAt_iff.1 hp
      have := (h1 p y).2 hy
      rw [hab, List.mem_append, List.mem_cons] at this
      rcases this with h | h | h
      · exact List.mem_map.2 ⟨_, h, rfl⟩
      · cases h; exact absurd hlt (docLt_irrefl _)
      · exact (htr p hlt (h4 p (List.mem_map.2 ⟨_, h, rfl⟩))).elim
  · rw [runMatch, hab, matchLoop_lines E _ _ (fun p => (f p).map E.line) (ps := a) (fun p hp => by
      have hy := hf p.1 (ha p hp).1 (ha p hp).2
      rw [Env.Yields] at hy
      rw [printResult, hy.1]
      exact printAll_lines E _ hy.2)]
    rw [matchLoop, hq', printResult, printAll_lines E _ hx]
    cases t with
    | done => exact absurd rfl ht
    | _ => simp [Printed.append]

/-- C63 in full is false: an item that is the root node cannot be printed.  `microx --match=/` raises
NotImplementedError and prints nothing, on every document. -/
theorem C63_full_statement_is_false (E : Env F) (hd : E.doc.isText = false) (n : Nat) :
    E.Yields n (.abs none) (.node []) [.root] ∧
    runMatch E.fo E.doc (E.run n (.abs none)) none = ⟨[], .err .notImplemented⟩ ∧
    runExpr E.fo E.doc (E.run n (.abs none)) none = ⟨[], .err .notImplemented⟩ := by
  obtain ⟨dyn, h⟩ := run_eval E n
  have he : (Item.node [] : Item F).isElem E.doc = true := by
    cases hdoc : E.doc with
    | elem m as cs => simp [Item.isElem, Node.at?]
    | text s => rw [hdoc] at hd; cases hd
  have hy : E.run n (.abs none) (.node []) = ⟨[.root], .done⟩ := by
    rw [h, eval, Item.getRoot, if_pos he]
    · rfl
    · exact fun h => nomatch h
  refine ⟨hy, ?_, ?_⟩
  · rw [runMatch, Node.everyElement, matchLoop, hy]; rfl
  · rw [runExpr, h, eval]; rfl

/-- C63, `--expr`: one evaluation, at the root. -/
theorem C63_expr (E : Env F) (n : Nat) (m : Expr F) (xs : List (Item F)) (t : Tail)
    (h : E.run n m .root = ⟨xs, t⟩) :
    (.root ∉ xs → runExpr E.fo E.doc (E.run n m) none = ⟨xs.map E.line, t⟩) ∧
    ∀ (fe : Expr F) (g : Item F → List (Item F)), (∀ y ∈ xs, E.Yields n fe y (g y) ∧ .root ∉ g y) →
      runExpr E.fo E.doc (E.run n m) (some (E.run n fe)) = ⟨xs.flatMap fun y => (g y).map E.line, t⟩ := by
  constructor
  · intro hr; rw [runExpr, h, printResult, printAll_lines E _ hr]
  · intro fe g hg; rw [runExpr, h, printResult, printForeach_lines E _ hg]

/-- `--match=b` on `<a>x<b/><c i="1"><b>y</b></c></a>`. -/
example : runMatch exEnv.fo exEnv.doc (exEnv.run 0 (.step .child (.name ['b']))) none =
    ⟨["<b></b>".toList, "<b>y</b>".toList], .done⟩ := by decide
example : runMatch exEnv.fo exEnv.doc (exEnv.run 0 (.step .child (.name ['b'])))
    (some (exEnv.run 0 (.step .child .text))) = ⟨["y".toList], .done⟩ := by decide

/-! ### `--find-text` -/

theorem joinSlash_intercalate (l : List Str) : joinSlash l = ['/'].intercalate l := by
  induction l with
  | nil => rfl
  | cons s r ih =>
    cases r with
    | nil => simp [joinSlash, List.intercalate]
    | cons t r =>
      rw [joinSlash, ih] <;> simp [List.intercalate]

theorem showAttrs_eq (attrs : List Str) (as : Attrs) :
    showAttrs attrs as = (attrs.filterMap fun k => (as.get k).map fun v =>
      "[@".toList ++ k ++ "=\"".toList ++ v ++ "\"]".toList).flatten := by
  induction attrs with
  | nil => rfl
  | cons k r ih =>
    simp only [showAttrs, List.flatMap_cons] at ih ⊢
    rw [ih, List.filterMap_cons]
    cases as.get k with
    | none => simp
    | some v => simp

theorem xpathTo_pathTo {doc : Node} {p : Path} (hp : doc.ElemAt p) (attrs : List Str) :
    xpathTo doc attrs p = doc.pathTo attrs p p.length := by
  rw [xpathTo, Node.pathTo, joinSlash_intercalate, ancestorsOf]
  congr 1
  rw [← List.map_reverse, ← List.map_reverse, List.reverse_reverse, List.map_map]
  refine List.map_congr_left (fun k hk => ?_)
  simp only [Function.comp_apply, Node.stepTo]
  have hk := List.mem_range.1 hk
  have hel : doc.ElemAt (p.take k) := by
    have : doc.Has (p.take (k + 1)) := by
      refine Node.Has.prefix (r := p.drop (k + 1)) ?_
      rw [List.take_append_drop]
      obtain ⟨m, as, cs, h⟩ := hp
      exact ⟨_, h⟩
    rw [List.take_succ_eq_append_getElem hk] at this
    exact this.parent
  obtain ⟨m, as, cs, h⟩ := hel
  rw [h]
  simp only [Node.xmlName, Node.xmlAttributes, showAttrs_eq]

/-- The positions of the text nodes that contain `s` in a list of children. -/
def hits (s : Str) : List Node → Nat → List Nat
  | [], _ => []
  | .text t :: r, k => if pyContains t s then k :: hits s r (k + 1) else hits s r (k + 1)
  | .elem _ _ _ :: r, k => hits s r (k + 1)

theorem hits_spec (s : Str) (cs : List Node) (k : Nat) :
    (∀ i, i ∈ hits s cs k ↔ ∃ j t, i = k + j ∧ cs[j]? = some (.text t) ∧ pyContains t s = true) ∧
    (hits s cs k).Pairwise (· < ·) := by
  induction cs generalizing k with
  | nil => simp [hits]
  | cons c r ih =>
    obtain ⟨h1, h2⟩ := ih (k + 1)
    have hs : ∀ i, (∃ j t, i = k + j ∧ (c :: r)[j]? = some (.text t) ∧ pyContains t s = true) ↔
        (i = k ∧ ∃ t, c = .text t ∧ pyContains t s = true) ∨ i ∈ hits s r (k + 1) := by
      intro i
      rw [h1]
      constructor
      · rintro ⟨j, t, rfl, hj, ht⟩
        cases j with
        | zero => left; exact ⟨rfl, t, by simpa using hj, ht⟩
        | succ j => right; exact ⟨j, t, by omega, by simpa using hj, ht⟩
      · rintro (⟨rfl, t, rfl, ht⟩ | ⟨j, t, rfl, hj, ht⟩)
        · exact ⟨0, t, rfl, rfl, ht⟩
        · exact ⟨j + 1, t, by omega, by simpa using hj, ht⟩
    have hlt : ∀ i ∈ hits s r (k + 1), k < i := by
      intro i hi
      obtain ⟨j, t, rfl, _⟩ := (h1 i).1 hi
      omega
    constructor
    · intro i
      rw [hs]
      cases c with
      | elem m as cs => simp [hits]
      | text t =>
        rw [hits]
        split
        · next h => simp [h]
        · next h => simp [h]
    · cases c with
      | elem m as cs => rw [hits]; exact h2
      | text t =>
        rw [hits]
        split
        · exact List.pairwise_cons.2 ⟨hlt, h2⟩
        · exact h2

theorem hits_flatMap {α : Type} (s : Str) (x : α) (cs : List Node) (k : Nat) :
    (cs.flatMap fun c => match c with
      | .text t => if pyContains t s then [x] else []
      | .elem _ _ _ => []) = (hits s cs k).map fun _ => x := by
  induction cs generalizing k with
  | nil => rfl
  | cons c r ih =>
    rw [List.flatMap_cons, ih (k + 1)]
    cases c with
    | elem m as cs => rfl
    | text t => simp only [hits]; split <;> rfl

/-- C63 (partial), `--find-text`: one line for each text node that contains the string (`ts` lists them, grouped
by the element they are in, the elements in document order).  The line is the path from the document element
down to, but not including, the element that contains the text. -/
theorem C63_find_text_partial (doc : Node) (hd : doc.isText = false) (attrs : List Str) (s : Str) :
    ∃ ts : List Path,
      (∀ t, t ∈ ts ↔ ∃ u v, doc.at? t = some (.text (u ++ s ++ v))) ∧
      ts.Pairwise (fun t t' => docLt t.dropLast t'.dropLast ∨ (t.dropLast = t'.dropLast ∧ docLt t t')) ∧
      runFindText doc attrs s = ts.map fun t => doc.pathTo attrs t (t.length - 1) := by
  obtain ⟨h1, h2⟩ := everyElement_spec doc hd
  refine ⟨doc.everyElement.flatMap fun pe => (hits s pe.2.xmlChildren 0).map fun i => pe.1 ++ [i], ?_, ?_, ?_⟩
  · intro t
    simp only [List.mem_flatMap, List.mem_map]
    constructor
    · rintro ⟨⟨p, x⟩, hp, i, hi, rfl⟩
      obtain ⟨hx, hxt⟩ := (h1 p x).1 hp
      obtain ⟨j, t, hij, hj, ht⟩ := ((hits_spec s x.xmlChildren 0).1 i).1 hi
      obtain ⟨u, v, rfl⟩ := (pyContains_iff _ _).1 ht
      refine ⟨u, v, ?_⟩
      rw [Nat.zero_add] at hij
      subst hij
      rw [Node.at?_append, hx]
      simp only [Option.bind_some, Node.at?]
      rw [hj]
    · rintro ⟨u, v, h⟩
      rcases List.eq_nil_or_concat t with rfl | ⟨p, i, rfl⟩
      · simp only [Node.at?, Option.some.injEq] at h
        rw [h] at hd; cases hd
      · rw [List.concat_eq_append] at h
        obtain ⟨m, as, cs, hp⟩ := Node.Has.parent ⟨_, h⟩
        refine ⟨(p, .elem m as cs), (h1 _ _).2 ⟨hp, rfl⟩, i, ?_, by simp⟩
        refine ((hits_spec s _ 0).1 i).2 ⟨i, _, by simp, ?_, (pyContains_iff _ _).2 ⟨u, v, rfl⟩⟩
        rw [Node.at?_append, hp] at h
        simp only [Option.bind_some, Node.at?] at h
        cases hc : (Node.elem m as cs).xmlChildren[i]? with
        | none => rw [hc] at h; cases h
        | some y => rw [hc] at h; simpa [Node.at?] using h
  · rw [List.pairwise_flatMap]
    constructor
    · rintro ⟨p, x⟩ hp
      rw [List.pairwise_map]
      refine (hits_spec s x.xmlChildren 0).2.imp ?_
      intro i j hij
      right
      refine ⟨by simp, ?_⟩
      exact docLt_snoc p hij
    · refine (List.pairwise_map.1 h2).imp ?_
      intro a b hab x hx y hy
      obtain ⟨i, _, rfl⟩ := List.mem_map.1 hx
      obtain ⟨j, _, rfl⟩ := List.mem_map.1 hy
      left
      simpa using hab
  · rw [runFindText, List.map_flatMap]
    have : ∀ l : List (Path × Node), (∀ pe ∈ l, doc.ElemAt pe.1) →
        (l.flatMap fun pe => pe.2.xmlChildren.flatMap fun c => match c with
          | .text t => if pyContains t s then [xpathTo doc attrs pe.1] else []
          | .elem _ _ _ => []) =
        l.flatMap fun pe => ((hits s pe.2.xmlChildren 0).map fun i => pe.1 ++ [i]).map
          fun t => doc.pathTo attrs t (t.length - 1) := by
      intro l hl
      induction l with
      | nil => rfl
      | cons pe r ih =>
        rw [List.flatMap_cons, List.flatMap_cons, ih (fun q hq => hl q (by simp [hq])),
          hits_flatMap s _ _ 0, List.map_map, xpathTo_pathTo (hl pe (by simp))]
        congr 1
        refine List.map_congr_left (fun i _ => ?_)
        simp only [Function.comp_apply, List.length_append, List.length_singleton, Nat.add_sub_cancel, Node.pathTo]
        congr 1
        refine List.map_congr_left (fun k hk => ?_)
        rw [List.take_append_of_le_length (by have := List.mem_range.1 hk; omega)]
    exact this _ (fun pe hpe => elemAt_iff.2 ⟨pe.2, (h1 pe.1 pe.2).1 hpe⟩)

/-- The element that contains the text is missing from the path: in `<a><b>x</b></a>` the line for `x` is `a`, and
for a text in the document element it is empty. -/
theorem C63_find_text_stops_above :
    runFindText (.elem ['a'] [] [.elem ['b'] [] [.text ['x']]]) [] ['x'] = [['a']] ∧
    runFindText (.elem ['a'] [] [.text ['x']]) [] ['x'] = [[]] := by decide

/-- `--find-text=y --find-text-show-attrs=i`. -/
example : runFindText (.elem ['a'] [(['i'], ['1'])] [.elem ['c'] [(['i'], ['2'])] [.elem ['b'] [] [.text ['x', 'y']]]])
    [['i']] ['y'] = ["a[@i=\"1\"]/c[@i=\"2\"]".toList] := by decide

end Amara
