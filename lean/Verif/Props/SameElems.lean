import Verif.Lemmas.SameElems
import Verif.Lemmas.XSender
/-
C171: queries in two documents with the same elements.
-/
namespace Amara

variable {F : Type}

/-- C171: in two documents with the same elements and attributes a query of C166 that does not ask for text nodes, nor looks at the text in
elements, finds the same elements and attributes in the same order, from the same place; if the text in corresponding elements is the same
(`v`), it may look at that. -/
theorem C171_same_found (E E' : Env F) (hd : E.doc.NoEmptyText) (hd' : E'.doc.NoEmptyText) (hdict : E.doc.Dicts) (hdict' : E'.doc.Dicts)
    (hb : E.doc.bones = E'.doc.bones) (ht : E.doc.isText = false) (ht' : E'.doc.isText = false) {v : Prop} (hv : v → SameTexts E.doc E'.doc) (n n' : Nat)
    {l : TestedList} (hl : l.Ok) (hw : l.Within v) {u u' : Spot} (hu : SameSpot E.doc E'.doc u u') :
    ∃ fs fs' : List Found, E.Yields n l.expr u.item (fs.map Found.item) ∧ E'.Yields n' l.expr u'.item (fs'.map Found.item) ∧
      All2 (SameFound E.doc E'.doc) fs fs' := by
  have hp : E.doc.Place u ∧ E'.doc.Place u' := by
    cases u <;> cases u' <;> first | exact ⟨trivial, trivial⟩ | exact hu.elim | exact ⟨hu.1, hu.2.1⟩
  obtain ⟨fs, h1⟩ := C166_one_list hd hdict hl hp.1
  obtain ⟨fs', h2, h3⟩ := corr_testedList l (v := v) ⟨hb, ht, ht', hv⟩ hw u u' hu fs ((h1 fs).2 rfl)
  exact ⟨fs, fs', (C166_exactly E hd hdict n hl hp.1 _).2 ⟨fs, (h1 fs).2 rfl, rfl⟩, (C166_exactly E' hd' hdict' n' hl hp.2 _).2 ⟨fs', h3, rfl⟩, h2⟩

theorem corr_lineOf {d d' : Node} (C : Corr True d d') (hn : d.norm = d'.norm) : ∀ {f f' : Found}, SameFound d d' f f' → ∀ s, d.LineOf f s → d'.LineOf f' s
  | .node .root, .node _, _, _, h => h.elim
  | .node (.at p), .node (.at p'), h, s, hs => by
    obtain ⟨m, as, cs, cs', h1, h2, _⟩ := corr_elem C h
    rcases hs with hs | ⟨_, _, _, hs, rfl⟩
    · rw [h1] at hs; cases hs
    · rw [h1] at hs
      cases hs
      refine .inr ⟨m, as, cs', h2, ?_⟩
      have h3 := walk_norm (d.among p) d
      rw [walk_among p h1, hn, walk_norm, h.2.2, walk_among p' h2] at h3
      simp only [Option.map_some, Option.some.injEq] at h3
      rw [Node.encode, Node.encode, ← encode_norm.1 _ 0 rfl, ← encode_norm.1 (.elem m as cs') 0 rfl, h3]
  | .attr p k x, .attr p' k' x', h, s, hs => by
    cases h.2.2
    exact hs

theorem corr_linesOf {d d' : Node} (C : Corr True d d') (hn : d.norm = d'.norm) {fs fs' : List Found} (h : All2 (SameFound d d') fs fs') :
    ∀ ls, d.LinesOf fs ls → d'.LinesOf fs' ls := by
  induction h with
  | nil => exact fun _ h => h
  | cons h1 _ ih =>
    rintro _ ⟨x, ls, rfl, h3, h4⟩
    exact ⟨x, ls, rfl, corr_lineOf C hn h1 x h3, ih ls h4⟩

theorem corr_norm {d d' : Node} (hn : d.norm = d'.norm) (ht : d.isText = false) : Corr True d d' := by
  refine ⟨by rw [← bones_norm.1, hn, bones_norm.1], ht, ?_, fun _ => sameTexts_norm hn⟩
  cases d with
  | text s => cases ht
  | elem n as cs => cases d' with
    | text s => simp [Node.norm] at hn
    | elem => rfl

theorem corr_linesOf_attrs {d d' : Node} {fs fs' : List Found} (h : All2 (SameFound d d') fs fs') (ha : AllAttrs fs) :
    ∀ ls, d.LinesOf fs ls → d'.LinesOf fs' ls := by
  induction h with
  | nil => exact fun _ h => h
  | cons h1 _ ih =>
    rintro _ ⟨s, ls, rfl, h3, h4⟩
    refine ⟨s, ls, rfl, ?_, ih (fun f hf => ha f (by simp [hf])) ls h4⟩
    rename_i f f' _ _ _
    obtain ⟨p, k, x, rfl⟩ := ha f (by simp)
    cases f' with
    | node => exact h1.elim
    | attr p' k' x' =>
      cases h1.2.2
      exact h3

theorem corr_prints {v : Prop} {d d' : Node} (C : Corr v d d') {q : TestedQuery} (hw : q.Within v)
    (hq : ∀ l, q = .list l → l.OfAttrs ∨ (Corr True d d' ∧ d.norm = d'.norm)) {u u' : Spot} (hu : SameSpot d d' u u') {ls : List Str} (h : q.Prints d u ls) :
    q.Prints d' u' ls := by
  cases q with
  | list l =>
    obtain ⟨fs, h1, h2⟩ := h
    obtain ⟨fs', h3, h4⟩ := corr_testedList l C hw u u' hu fs h1
    refine ⟨fs', h4, ?_⟩
    rcases hq l rfl with ha | ⟨C', hn⟩
    · exact corr_linesOf_attrs h3 (testedList_allAttrs l ha u fs h1) ls h2
    · exact corr_linesOf C' hn h3 ls h2
  | count l =>
    obtain ⟨fs, h1, rfl⟩ := h
    obtain ⟨fs', h3, h4⟩ := corr_testedList l C hw u u' hu fs h1
    exact ⟨fs', h4, by rw [all2_length h3]⟩
  | string l =>
    obtain ⟨fs, h1, rfl⟩ := h
    obtain ⟨fs', h3, h4⟩ := corr_testedList l C hw.1 u u' hu fs h1
    exact ⟨fs', h4, by rw [(corr_argText C hw.2 h1 h3).2]⟩
  | name p =>
    obtain ⟨vs, h1, m, rfl, h2⟩ := h
    obtain ⟨vs', h3, h4⟩ := corr_tested p C hw u u' hu vs h1
    refine ⟨vs', h4, m, rfl, ?_⟩
    cases h3 with
    | nil => exact h2
    | cons h5 _ => exact (corr_nameAt C h5 m).1 h2

/-- C171: such a query prints the same lines however the text of the document is cut into text nodes. -/
theorem C171_same_lines {d d' : Node} (hn : d.norm = d'.norm) (ht : d.isText = false) {q : TestedQuery} (hw : q.Within True) {u u' : Spot}
    (hu : SameSpot d d' u u') (ls : List Str) : q.Prints d u ls ↔ q.Prints d' u' ls :=
  have C := corr_norm hn ht
  ⟨corr_prints C hw (fun _ _ => .inr ⟨C, hn⟩) hu, corr_prints C.symm hw (fun _ _ => .inr ⟨C.symm, hn.symm⟩) hu.symm⟩

/-- C171: and whatever text there is between the elements, if it prints attributes, counts or names. -/
theorem C171_same_lines_any_text {d d' : Node} (hb : d.bones = d'.bones) (ht : d.isText = false) (ht' : d'.isText = false) {q : TestedQuery}
    (hw : q.Within False) (hq : ∀ l, q = .list l → l.OfAttrs) {u u' : Spot} (hu : SameSpot d d' u u') (ls : List Str) :
    q.Prints d u ls ↔ q.Prints d' u' ls :=
  have C : Corr False d d' := ⟨hb, ht, ht', False.elim⟩
  ⟨corr_prints C hw (fun l h => .inl (hq l h)) hu, corr_prints C.symm hw (fun l h => .inl (hq l h)) hu.symm⟩

theorem all2_flip {α β : Type} {R : α → β → Prop} {S : β → α → Prop} {xs : List α} {ys : List β} (h : All2 R xs ys) (hs : ∀ x y, R x y → S y x) : All2 S ys xs := by
  induction h with
  | nil => exact .nil
  | cons h _ ih => exact .cons (hs _ _ h) ih

theorem SameFound.symm {d d' : Node} : ∀ {f f' : Found}, SameFound d d' f f' → SameFound d' d f' f
  | .node _, .node _, h => SameSpot.symm h
  | .attr _ _ _, .attr _ _ _, h => ⟨SameElem.symm h.1, h.2.1.symm, h.2.2.symm⟩

theorem corr_dicts {v : Prop} {d d' : Node} (C : Corr v d d') (h : d'.Dicts) : d.Dicts := by
  intro p m as cs hp
  obtain ⟨p', hpp⟩ := corr_total C ⟨m, as, cs, hp⟩
  obtain ⟨m', as', cs', cs'', h1, h2, _⟩ := corr_elem C hpp
  rw [h1] at hp
  cases hp
  exact h _ _ _ _ h2

theorem asked_direct (fo : FloatOps F) (vars : Str → Option (Item F)) (n : Nat) {e : Node} (hd : e.NoEmptyText) (hdict : e.Dicts) {l : TestedList} (hl : l.Ok)
    {s : Str} (hs : X.xparse fo s = some (.ok l.expr)) {fs : List Found} (hf : l.Gives e .root fs) :
    xmlXPath fo vars n e [] (.str s) = ⟨fs.map Found.item, .done⟩ := by
  have h1 := (C166_exactly (queryEnv fo vars e) hd hdict n hl (u := .root) trivial _).2 ⟨fs, hf, rfl⟩
  simp only [xmlXPath, parseText_eq hs, contextItem, if_true]
  exact h1

theorem asked_twice (fo : FloatOps F) (vars : Str → Option (Item F)) (n : Nat) {e e' : Node} {d : Str} (hd : e.NoEmptyText) (he : IsDoc e' d) {v : Prop}
    (C : Corr v e e') {l : TestedList} (hl : l.Ok) (hw : l.Within v) {s : Str} (hs : X.xparse fo s = some (.ok l.expr)) :
    ∃ fs fs' : List Found, xmlXPath fo vars n e [] (.str s) = ⟨fs.map Found.item, .done⟩ ∧
      (∀ a, QQuery fo vars n (.str d) (.str s) a ↔ a = .items e' ⟨fs'.map Found.item, .done⟩) ∧ All2 (SameFound e e') fs fs' := by
  have hdict : e.Dicts := corr_dicts C fun p m as cs hp => doc_dicts he hp
  obtain ⟨fs, h1⟩ := C166_one_list hd hdict hl (u := .root) trivial
  obtain ⟨fs', h2, h3⟩ := corr_testedList l C hw .root .root trivial fs ((h1 fs).2 rfl)
  exact ⟨fs, fs', asked_direct fo vars n hd hdict hl hs ((h1 fs).2 rfl), C166_on_a_text fo vars n he hl hs h3, h2⟩

/-- C171: a tree (built or edited by a program, say) and the text it is saved as give the same results: `xml_xpath` on its top element finds
what the query finds in the text, and the results have the same serialisations. -/
theorem C171_save_and_ask_again (fo : FloatOps F) (vars : Str → Option (Item F)) (n : Nat) {e : Node} (hwr : e.Writable) (ht : e.isText = false)
    (hd : e.NoEmptyText) {b : Bool} {w : List (X.Tok F)} {l : TestedList} (h : WritesTestedList b w l) (hl : l.Ok) (hw : l.Within True) {s : Str}
    (hs : X.Written fo w s) :
    ∃ fs fs' : List Found, xmlXPath fo vars n e [] (.str s) = ⟨fs.map Found.item, .done⟩ ∧
      (∀ a, QQuery fo vars n (.str e.encode) (.str s) a ↔ a = .items e.norm ⟨fs'.map Found.item, .done⟩) ∧
      All2 (SameFound e e.norm) fs fs' ∧ ∀ ls, e.LinesOf fs ls ↔ e.norm.LinesOf fs' ls := by
  have hdoc := encode_isDoc hwr ht
  have hnn : e.norm = e.norm.norm := (norm_again.1 e).symm
  have C := corr_norm hnn ht
  obtain ⟨fs, fs', h1, h2, h3⟩ := asked_twice fo vars n hd hdoc C hl hw (C167_is_read fo h hs)
  exact ⟨fs, fs', h1, h2, h3, fun ls => ⟨corr_linesOf C hnn h3 ls, corr_linesOf C.symm hnn.symm (all2_flip h3 fun _ _ h => h.symm) ls⟩⟩

/-- C171: and so does the text it is written as with indentation, for queries that do not look at the text in elements. -/
theorem C171_indent_and_ask_again (fo : FloatOps F) (vars : Str → Option (Item F)) (n : Nat) {e : Node} (hwr : e.Writable) (ht : e.isText = false)
    (hd : e.NoEmptyText) {ind : Str} (hi : BlankIndent ind) (depth : Nat) {b : Bool} {w : List (X.Tok F)} {l : TestedList} (h : WritesTestedList b w l)
    (hl : l.Ok) (hw : l.Within False) {s : Str} (hs : X.Written fo w s) :
    ∃ (e' : Node) (fs fs' : List Found), e.bones = e'.bones ∧ xmlXPath fo vars n e [] (.str s) = ⟨fs.map Found.item, .done⟩ ∧
      (∀ a, QQuery fo vars n (.str (e.encodeI ind depth)) (.str s) a ↔ a = .items e' ⟨fs'.map Found.item, .done⟩) ∧
      All2 (SameFound e e') fs fs' := by
  have key : ∃ x : Node, x.Writable ∧ x.isText = false ∧ x.squeeze = e.squeeze ∧ e.encodeI ind depth = x.encode := by
    by_cases h0 : ind = []
    · subst h0
      exact ⟨e, hwr, ht, rfl, encode_depth.1 e depth⟩
    · refine ⟨e.withIndent ind depth, (writable_withIndent hi).1 e depth hwr, by rw [isText_withIndent, ht],
        (squeeze_withIndent hi).1 e depth, C19_indent_is_added_text h0 ?_ e depth⟩
      intro c hc
      rcases hi c hc with rfl | rfl | rfl <;> decide
  obtain ⟨x, h1, h2, h3, h4⟩ := key
  have hb : e.bones = x.norm.bones := by rw [bones_norm.1, ← bones_squeeze.1 _ ht, ← bones_squeeze.1 _ h2, h3]
  have hx : x.norm.isText = false := by
    cases x with
    | text s => cases h2
    | elem => rfl
  obtain ⟨fs, fs', i1, i2, i3⟩ := asked_twice fo vars n hd (encode_isDoc h1 h2) (v := False) ⟨hb, ht, hx, False.elim⟩ hl hw (C167_is_read fo h hs)
  exact ⟨x.norm, fs, fs', hb, i1, h4 ▸ i2, i3⟩

/-- `<a>…<b>` with an empty text node in it, as `xml_append('')` makes it. -/
def exEmptyText : Node := .elem ['a'] [] [.text [], .elem ['b'] [] []]

/-- C171 is about trees without empty text nodes: with one, `//a` finds the top element twice, and once when the tree is saved and read. -/
theorem C171_not_with_empty_text :
    (queryEnv noFloats (fun _ => none) exEmptyText).Yields 0 (TestedList.path (.core (.anywhere (.step .child ['a'])))).expr .root [.node [], .node []] ∧
    (queryEnv noFloats (fun _ => none) exEmptyText.norm).Yields 0 (TestedList.path (.core (.anywhere (.step .child ['a'])))).expr .root [.node []] := by
  constructor <;> (unfold Env.Yields; decide +kernel)

-- the hypotheses are met: `//b[. = 'xy']/@k` and `count(//c)` in a tree with adjacent texts, and in it indented
example :
    let d : Node := .elem ['a'] [] [.elem ['b'] [(['k'], ['1'])] [.text ['x'], .text ['y']], .elem ['c'] [] []]
    let d' : Node := .elem ['a'] [] [.text ['\n'], .elem ['b'] [(['k'], ['1'])] [.text ['x', 'y']], .elem ['c'] [] []]
    let l : TestedList := .seq (.filter (.core (.anywhere (.step .child ['b']))) (.one (.is (.path (.core .here)) ['x', 'y']))) (.last (.attr ['k']))
    d.Writable ∧ d.norm ≠ d ∧ d.bones = d'.bones ∧ l.Ok ∧ l.Within True ∧ ¬ l.Within False ∧
      (TestedQuery.count (.core (.path (.anywhere (.step .child ['c']))))).Within False ∧ SameElem d d' [1] [2] := by
  refine ⟨?_, by decide, by simp [Node.bones, Node.bonesList], ?_, ?_, ?_, ?_, ⟨_, _, _, rfl⟩, ⟨_, _, _, rfl⟩, by decide⟩
  · refine ⟨by decide, by simp, by simp, ⟨by decide, ?_, by decide, ?_, ?_, trivial⟩, ⟨by decide, by simp, by simp, trivial⟩, trivial⟩
    · intro p hp
      rw [List.mem_singleton.1 hp]
      exact ⟨by decide, by unfold AttrValue; decide⟩
    · intro c hc
      rw [List.mem_singleton.1 hc]
      decide
    · intro c hc
      rw [List.mem_singleton.1 hc]
      decide
  · simp [TestedList.Ok, TestedPath.Ok, Tests.Ok, ValueTest.Ok, CoreList.Ok, CoreEnd.Ok, CorePath.Ok, CorePath.startsDown]
  · simp [TestedList.Within, TestedPath.Within, Tests.Within, ValueTest.Within, CoreList.Within, CoreEnd.OfAttrs, CorePath.Within]
  · simp [TestedList.Within, TestedPath.Within, Tests.Within, ValueTest.Within, TestedList.OfAttrs, CorePath.Within]
  · simp [TestedQuery.Within, TestedList.Within, CoreList.Within, CorePath.Within]

end Amara
