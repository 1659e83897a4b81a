import Verif.Lemmas.Down
import Verif.Props.Query
import Verif.Props.TreeIter
import Verif.Model.Printing
/-
C152: a query that only looks down gives the same wherever the element is.
-/
namespace Amara

variable {F : Type}

/-- C152: evaluated at anything inside an element of a document, an expression that only looks down yields what it yields inside that
element alone, whatever the rest of the document is: the same items, in the same order, with the same end, be it an exception. -/
theorem C152_only_the_element_counts (E : Env F) {sub : Node} {p : Path} (hp : E.doc.at? p = some sub) {e : Expr F} (he : E.LooksDown e)
    (n : Nat) {x : Item F} (hx : x ≠ .root) :
    E.run n e (x.moved p) = (({ E with doc := sub } : Env F).run n e x).moved p :=
  (down_run E hp n he x hx).1

/-- C152: moving an item does not change what it says: its string value, its name, its truth value and the text `xml_encode` gives. -/
theorem C152_moved_items (E : Env F) {sub : Node} {p : Path} (hp : E.doc.at? p = some sub) (x : Item F) :
    E.strVal (x.moved p) = ({ E with doc := sub } : Env F).strVal x ∧ (x.moved p).nameOf E.doc = x.nameOf sub ∧
    (E.Truthy (x.moved p) ↔ ({ E with doc := sub } : Env F).Truthy x) ∧ (x.moved p).xmlEncode E.doc = x.xmlEncode sub := by
  refine ⟨?_, moved_nameOf hp x, ?_, ?_⟩
  · cases x with
    | bool b => cases b <;> rfl
    | _ => simp only [Item.moved, Env.strVal, moved_at hp] <;> rfl
  · unfold Env.Truthy
    rw [moved_truthy E.fo hp]
  · cases x <;> simp only [Item.moved, Item.xmlEncode, moved_at hp]

theorem star_at_root (fo : FloatOps F) (vars : Str → Option (Item F)) (n : Nat) {sub : Node} (hs : sub.isText = false) (e : Expr F) :
    (queryEnv fo vars sub).run n (.slash (.step .child .star) e) .root = (queryEnv fo vars sub).run n e (.node []) := by
  have hst : (queryEnv fo vars sub).run n (.step .child .star) .root = ⟨[.node []], .done⟩ := by
    obtain ⟨m, as, cs, rfl⟩ : ∃ m as cs, sub = .elem m as cs := by
      cases sub with
      | text _ => cases hs
      | elem m as cs => exact ⟨m, as, cs, rfl⟩
    cases n <;> (unfold Env.run evalN; simp only [eval]; rfl)
  have hr : ∀ r : Res F, r.append ⟨[], .done⟩ = r := by
    rintro ⟨xs, t⟩
    cases t <;> simp [Res.append]
  have ho : (Item.node [] : Item F).orElse fo sub .root = .node [] := by
    cases sub with
    | text _ => cases hs
    | elem m as cs => rfl
  have hu : ∀ m, (queryEnv fo vars sub).run m (.slash (.step .child .star) e) .root =
      ((queryEnv fo vars sub).run m (.step .child .star) .root).bind
        fun y => (queryEnv fo vars sub).run m e (y.orElse fo sub .root) := by
    intro m
    cases m <;> (unfold Env.run evalN; simp only [eval]; rfl)
  rw [hu, hst]
  simp only [Res.bind, Res.bindList, hr, ho]

theorem looksDown_doc {E : Env F} {e : Expr F} (h : E.LooksDown e) (d : Node) : ({ E with doc := d } : Env F).LooksDown e := by
  induction h with
  | lit h => exact .lit h
  | var h => exact .var h
  | dot => exact .dot
  | test => exact .test
  | step h => exact .step h
  | slash _ _ h1 h2 => exact .slash h1 h2
  | dslash _ _ h1 h2 => exact .dslash h1 h2
  | dslashStep _ h1 => exact .dslashStep h1
  | pred _ _ h1 h2 => exact .pred h1 h2
  | union _ _ h1 h2 => exact .union h1 h2
  | eq _ _ h1 h2 => exact .eq h1 h2
  | ne _ _ h1 h2 => exact .ne h1 h2
  | rel _ _ h1 h2 => exact .rel h1 h2
  | and _ _ h1 h2 => exact .and h1 h2
  | or _ _ h1 h2 => exact .or h1 h2
  | neg _ h1 => exact .neg h1
  | arith => exact .arith
  | seq _ h1 => exact .seq h1
  | call hm _ h1 => exact .call hm h1
  | each _ _ h1 h2 => exact .each h1 h2

/-- C152: whatever is changed in a document, a query that only looks down gives at an element that is not touched what it gave before. -/
theorem C152_changes_elsewhere (fo : FloatOps F) (vars : Str → Option (Item F)) (n : Nat) {doc doc' : Node} {p : Path} (hne : p ≠ [])
    (h : ∃ sub, doc.at? p = some sub ∧ doc'.at? p = some sub) {e : Expr F} (he : (queryEnv fo vars doc).LooksDown e) :
    xmlXPath fo vars n doc p (.parsed e) = xmlXPath fo vars n doc' p (.parsed e) := by
  obtain ⟨sub, h1, h2⟩ := h
  have he' : (queryEnv fo vars doc').LooksDown e := looksDown_doc he doc'
  have a := C152_only_the_element_counts (queryEnv fo vars doc) h1 he n (x := .node []) (by intro h; cases h)
  have b := C152_only_the_element_counts (queryEnv fo vars doc') h2 he' n (x := .node []) (by intro h; cases h)
  simp only [Item.moved, List.append_nil] at a b
  simp only [xmlXPath, contextItem, if_neg hne]
  exact a.trans b.symm

/-- C152, partial: an element of a document and the same element alone (as the sink of a `sender` gets it, or parsed from its own text)
give the same, if the query that is asked of the element alone begins with `*/`.  Missing: the same query, for which it is false,
`C152_full_statement_is_false`: without a parent the context item is the root, of which the element is the child. -/
theorem C152_alone_partial (fo : FloatOps F) (vars : Str → Option (Item F)) (n : Nat) {doc sub : Node} {p : Path} (hne : p ≠ [])
    (hp : doc.at? p = some sub) (hs : sub.isText = false) {e : Expr F} (he : (queryEnv fo vars doc).LooksDown e) :
    xmlXPath fo vars n doc p (.parsed e) = (xmlXPath fo vars n sub [] (.parsed (.slash (.step .child .star) e))).moved p := by
  have a := C152_only_the_element_counts (queryEnv fo vars doc) hp he n (x := .node []) (by intro h; cases h)
  simp only [Item.moved, List.append_nil] at a
  simp only [xmlXPath, contextItem, if_neg hne, if_true]
  rw [star_at_root fo vars n hs]
  exact a

/-- C152: so a sink that queries each subtree it is sent finds, in a document of which the whole tree is never there, what the queries
at the matching elements find in the tree of the document. -/
theorem C152_streaming_partial (fo : FloatOps F) (vars : Str → Option (Item F)) (n : Nat) {d : Node} {w : Str} (h : IsDoc d w)
    (pat : List (Stage Event)) (hne : pat ≠ []) (hs : Safe pat) {e : Expr F} (he : (queryEnv fo vars d).LooksDown e) :
    ∃ os l, (newSender [pat]).parse w = (os, some (newSender [pat])) ∧ (os.map (sentTo 0)).flatten = l.map Prod.snd ∧ InDocOrder l ∧
      (∀ q x, (q, x) ∈ l ↔ d.at? q = some x ∧ x.isText = false ∧ ∃ t, d.opened [] q = some t ∧ Outermost Event.look pat t) ∧
      ∀ q x, (q, x) ∈ l → (queryEnv fo vars d).run n e (.node q) =
        (xmlXPath fo vars n x [] (.parsed (.slash (.step .child .star) e))).moved q := by
  obtain ⟨os, l, h1, h2, h3, h4⟩ := C33_all_sent_partial h pat hne hs
  refine ⟨os, l, h1, h2, h3, h4, fun q x hq => ?_⟩
  obtain ⟨hx, ht, _⟩ := (h4 q x).1 hq
  have a := C152_only_the_element_counts (queryEnv fo vars d) hx he n (x := .node []) (by intro h; cases h)
  simp only [Item.moved, List.append_nil] at a
  simp only [xmlXPath, contextItem, if_true]
  rw [star_at_root fo vars n ht]
  exact a

/-- C152 as stated is false: in `<d><a><b/></a></d>` the query `b` at `a` yields the `b`; on `a` alone it yields nothing, as its context
item is then the root, and `*/b` is what yields it. -/
theorem C152_full_statement_is_false :
    let a : Node := .elem ['a'] [] [.elem ['b'] [] []]
    let b : Expr NoF := .step .child (.name ['b'])
    (queryEnv noFloats (fun _ => none) (.elem ['d'] [] [a])).LooksDown b ∧
    xmlXPath noFloats (fun _ => none) 0 (.elem ['d'] [] [a]) [0] (.parsed b) = ⟨[.node [0, 0]], .done⟩ ∧
    xmlXPath noFloats (fun _ => none) 0 a [] (.parsed b) = ⟨[], .done⟩ ∧
    xmlXPath noFloats (fun _ => none) 0 a [] (.parsed (.slash (.step .child .star) b)) = ⟨[.node [0]], .done⟩ :=
  ⟨.step (by simp [Axis.Down]), rfl, rfl, rfl⟩

-- a query with most of the language in it: `descendant::c[@i = 'x'][2] | b[not(count(.//c) = 0)]/text()`, and `for-each(b, 'c')`
example (fo : FloatOps F) (vars : Str → Option (Item F)) (d : Node) :
    (queryEnv fo vars d).LooksDown (.union
      (.pred (.step .descendant (.name ['c'])) [.eq (.step .attribute (.name ['i'])) (.lit (.str ['x'])), .lit (.int 2)])
      (.slash (.pred (.step .child (.name ['b'])) [.call "not".toList [.eq (.call "count".toList [.dslash .dot (.step .child (.name ['c']))])
        (.lit (.int 0))]]) (.step .child .text))) := by
  refine .union (.pred (.step (by simp [Axis.Down])) fun q hq => ?_) (.slash (.pred (.step (by simp [Axis.Down])) fun q hq => ?_)
    (.step (by simp [Axis.Down])))
  · simp only [List.mem_cons, List.not_mem_nil, or_false] at hq
    rcases hq with rfl | rfl
    · exact .eq (.step (by simp [Axis.Down])) (.lit trivial)
    · exact .lit trivial
  · simp only [List.mem_cons, List.not_mem_nil, or_false] at hq
    subst hq
    refine .call (by decide) fun q hq => ?_
    simp only [List.mem_cons, List.not_mem_nil, or_false] at hq
    subst hq
    refine .eq (.call (by decide) fun q hq => ?_) (.lit trivial)
    simp only [List.mem_cons, List.not_mem_nil, or_false] at hq
    subst hq
    exact .dslashStep .dot
example : let E : Env NoF := { fo := noFloats, doc := .elem ['a'] [] [], vars := fun _ => none, parse := fun _ => .ok (.step .child (.name ['c'])) }
    E.LooksDown (.call "for-each".toList [.step .child (.name ['b']), .lit (.str ['c'])]) :=
  .each (.step (by simp [Axis.Down])) fun _ h => by cases h; exact .step (by simp [Axis.Down])

end Amara
