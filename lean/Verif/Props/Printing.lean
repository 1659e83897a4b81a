import Verif.Spec.Printing
import Verif.Props.Pieces
/-
C150: printing what a query finds.
-/
namespace Amara

variable {F : Type}

theorem collect_ok {f : Item F → Except XErr Str} : ∀ {xs : List (Item F)} {ss : List Str} (t : Tail),
    xs.map f = ss.map .ok → collect f xs t = (ss, t)
  | [], [], _, _ => rfl
  | [], _ :: _, _, h => by cases h
  | _ :: _, [], _, h => by cases h
  | x :: xs, s :: ss, t, h => by
    simp only [List.map_cons, List.cons.injEq] at h
    rw [collect, h.1]
    simp only
    rw [collect_ok t h.2]

/-- C150: which items can be serialised, and which can be written. -/
theorem C150_which_items (doc : Node) (x : Item F) :
    ((∃ s, x.xmlEncode doc = .ok s) ↔ x.IsNode doc ∨ x.IsAttr) ∧ ((∃ s, x.xmlWrite doc = .ok s) ↔ x.IsNode doc) ∧
    (∀ s, x.xmlWrite doc = .ok s → x.xmlEncode doc = .ok s) := by
  cases x with
  | node p =>
    cases h : doc.at? p <;> simp [Item.xmlEncode, Item.xmlWrite, Item.IsNode, Item.IsAttr, h]
  | _ => simp [Item.xmlEncode, Item.xmlWrite, Item.IsNode, Item.IsAttr]

/-- C150: what the others raise: the root NotImplementedError, an attribute that is written NotImplementedError, and a string, number
or boolean, which has no such method, AttributeError. -/
theorem C150_what_is_raised (doc : Node) : (Item.root : Item F).xmlEncode doc = .error .notImplemented ∧
    (Item.root : Item F).xmlWrite doc = .error .notImplemented ∧ (∀ p k v, (Item.attr p k v : Item F).xmlWrite doc = .error .notImplemented) ∧
    ∀ x : Item F, (∀ p, x ≠ .node p) → (∀ p k v, x ≠ .attr p k v) → x ≠ .root →
      x.xmlEncode doc = .error .attribute ∧ x.xmlWrite doc = .error .attribute := by
  refine ⟨rfl, rfl, fun _ _ _ => rfl, fun x h1 h2 h3 => ?_⟩
  cases x with
  | node p => exact absurd rfl (h1 p)
  | attr p k v => exact absurd rfl (h2 p k v)
  | root => exact absurd rfl h3
  | _ => exact ⟨rfl, rfl⟩

/-- C150: a loop that prints the results prints those before the first one that cannot be serialised, in order, and then raises what
that one raises; if there is none such, it ends as the query does. -/
theorem C150_up_to_the_first_that_cannot (E : Env F) (n : Nat) (e : Expr F) (x : Item F) :
    (∃ ss, (E.run n e x).items.map (Item.xmlEncode E.doc) = ss.map .ok ∧ E.Prints n e x ss (E.run n e x).tail) ∨
    (∃ xs y ys ss er, (E.run n e x).items = xs ++ y :: ys ∧ xs.map (Item.xmlEncode E.doc) = ss.map .ok ∧
      y.xmlEncode E.doc = .error er ∧ E.Prints n e x ss (.err er)) := by
  unfold Env.Prints
  generalize (E.run n e x).tail = t
  induction (E.run n e x).items with
  | nil => exact .inl ⟨[], rfl, rfl⟩
  | cons z zs ih =>
    cases hz : z.xmlEncode E.doc with
    | error er => exact .inr ⟨[], z, zs, [], er, rfl, rfl, hz, by rw [collect, hz]⟩
    | ok s =>
      rcases ih with ⟨ss, h1, h2⟩ | ⟨xs, y, ys, ss, er, h1, h2, h3, h4⟩
      · exact .inl ⟨s :: ss, by rw [List.map_cons, List.map_cons, hz, h1], by rw [collect, hz]; simp only; rw [h2]⟩
      · exact .inr ⟨z :: xs, y, ys, s :: ss, er, by rw [h1]; rfl, by rw [List.map_cons, List.map_cons, hz, h2], h3,
          by rw [collect, hz]; simp only; rw [h4]⟩

/-- C150: results that are nodes of the document are all printed, and written, each as `xml_encode` gives it. -/
theorem C150_nodes (E : Env F) (n : Nat) (e : Expr F) (x : Item F) {ps : List Path} {xs : List Node} (h : E.Yields n e x (ps.map .node))
    (hx : ps.map E.doc.at? = xs.map some) :
    E.Prints n e x (xs.map Node.encode) .done ∧ E.Writes n e x (xs.map Node.encode) .done := by
  have key : ∀ (ps : List Path) (xs : List Node), ps.map E.doc.at? = xs.map some →
      (ps.map (.node : Path → Item F)).map (Item.xmlEncode E.doc) = (xs.map Node.encode).map .ok ∧
      (ps.map (.node : Path → Item F)).map (Item.xmlWrite E.doc) = (xs.map Node.encode).map .ok := by
    intro ps
    induction ps with
    | nil => intro xs h; cases xs with
      | nil => exact ⟨rfl, rfl⟩
      | cons _ _ => cases h
    | cons p ps ih => intro xs h; cases xs with
      | nil => cases h
      | cons y ys =>
        simp only [List.map_cons, List.cons.injEq] at h
        obtain ⟨i1, i2⟩ := ih ys h.2
        simp only [List.map_cons, List.cons.injEq]
        exact ⟨⟨by simp [Item.xmlEncode, h.1], i1⟩, ⟨by simp [Item.xmlWrite, Item.xmlEncode, h.1], i2⟩⟩
  unfold Env.Prints Env.Writes
  rw [show E.run n e x = ⟨ps.map .node, .done⟩ from h]
  exact ⟨collect_ok _ (key ps xs hx).1, collect_ok _ (key ps xs hx).2⟩

theorem route_ends_at_element (E : Env F) (n : Nat) : ∀ {ss : List (PathStep F)} {p : Path} {r : List Path}, E.doc.ElemAt p →
    E.Route n ss p r → E.doc.ElemAt (routeEnd p r)
  | [], p, r, hp, h => by
    cases (show r = [] from h)
    exact hp
  | s :: ss, p, r, _, h => by
    obtain ⟨q, r', rfl, hl, hr⟩ := h
    have := route_ends_at_element E n hl.2.1.elemAt hr
    rwa [show routeEnd p (q :: r') = routeEnd q r' by simp [routeEnd, List.getLast?_cons]]

/-- C150 for queries: a path along elements, with any tests and `//`, prints one text for each route, in their order: the serialisation
of the element the route ends at. -/
theorem C150_paths_print (E : Env F) (hd : E.doc.NoEmptyText) (n : Nat) {a : Axis} (ha : ElementAxis a) (m : Str)
    {ss : List (PathStep F)} (hss : ∀ s ∈ ss, E.StepOk n s) {p : Path} (hp : E.doc.ElemAt p) :
    ∃ (rs : List (List Path)) (xs : List Node), E.Prints n (relPath a m ss) (.node p) (xs.map Node.encode) .done ∧
      (rs.map fun r => E.doc.at? (routeEnd p r)) = xs.map some ∧ (∀ x ∈ xs, x.isText = false) ∧
      (∀ r, r ∈ rs ↔ E.Route n (.plain a m :: ss) p r) ∧ rs.Pairwise (RouteBefore (.plain a m :: ss)) := by
  obtain ⟨rs, h1, h2, h3⟩ := C141_from_an_element E hd n ha m hss hp
  have key : ∀ rs : List (List Path), (∀ r ∈ rs, E.doc.ElemAt (routeEnd p r)) →
      ∃ xs : List Node, (rs.map fun r => E.doc.at? (routeEnd p r)) = xs.map some ∧ ∀ x ∈ xs, x.isText = false := by
    intro rs
    induction rs with
    | nil => intro _; exact ⟨[], rfl, by simp⟩
    | cons r rs ih =>
      intro h
      obtain ⟨xs, i1, i2⟩ := ih fun r hr => h r (by simp [hr])
      obtain ⟨k, as, cs, hk⟩ := h r (by simp)
      refine ⟨.elem k as cs :: xs, by rw [List.map_cons, List.map_cons, hk, i1], ?_⟩
      intro x hx
      rcases List.mem_cons.1 hx with rfl | hx
      · rfl
      · exact i2 x hx
  obtain ⟨xs, k1, k2⟩ := key rs fun r hr => route_ends_at_element E n hp ((h2 r).1 hr)
  refine ⟨rs, xs, (C150_nodes E n _ _ h1 ?_).1, k1, k2, h2, h3⟩
  rw [List.map_map]
  exact k1

theorem escChar_length (c : Char) : 1 ≤ (escChar c).length := by
  unfold escChar
  split
  · decide
  split
  · decide
  split
  · decide
  · exact Nat.le_refl _

theorem escape_length : ∀ s : Str, s.length ≤ (escape s).length
  | [] => Nat.le_refl _
  | c :: s => by
    have := escape_length s
    have := escChar_length c
    rw [escape_cons, List.length_append, List.length_cons]
    omega

/-- The hypotheses of `C150_paths_print` are met, and `descendant::b` prints both `b`. -/
example :
    let doc : Node := .elem ['a'] [] [.elem ['b'] [] [.text ['1', '<']], .elem ['c'] [] [.elem ['b'] [] []]]
    let E : Env NoF := { fo := noFloats, doc := doc, vars := fun _ => none, parse := fun _ => .error .runtime }
    doc.ElemAt [] ∧ ElementAxis .descendant ∧
    E.Prints 0 (relPath .descendant ['b'] []) (.node []) ["<b>1&lt;</b>".toList, "<b></b>".toList] .done :=
  ⟨⟨_, _, _, rfl⟩, .inr (.inr (.inl rfl)), by simp only [Env.Prints]; decide +kernel⟩

/-- C150, texts: what `xml_encode` gives for a text is what stands for it in the document exactly if it has none of `&`, `<` and
`>`. -/
theorem C150_text_is_what_is_written_iff (s : Str) : (Node.text s).encode = escape s ↔ ∀ c ∈ s, c ≠ '&' ∧ c ≠ '<' ∧ c ≠ '>' := by
  rw [show (Node.text s).encode = s by simp [Node.encode, Node.encodeI]]
  refine ⟨?_, fun h => (escape_plain h).symm⟩
  induction s with
  | nil => intro _ c hc; cases hc
  | cons d s ih =>
    intro h
    have hl := congrArg List.length h
    rw [escape_cons] at h
    rw [escape_cons, List.length_append, List.length_cons] at hl
    have h1 := escape_length s
    have hd : d ≠ '&' ∧ d ≠ '<' ∧ d ≠ '>' := by
      refine ⟨?_, ?_, ?_⟩ <;> (intro e; subst e; simp [escChar] at hl; omega)
    rw [show escChar d = [d] by simp [escChar, hd]] at h
    have ht := ih (List.cons.inj h).2
    intro c hc
    rcases List.mem_cons.1 hc with rfl | hc
    · exact hd
    · exact ht c hc

/-- C150, attributes: of an attribute the value can be told from what is printed, and nothing else: not its name, nor its element. -/
theorem C150_attributes (doc : Node) (p q : Path) (k k' v v' : Str) :
    (Item.attr p k v : Item F).xmlEncode doc = (Item.attr q k' v' : Item F).xmlEncode doc ↔ v = v' := by
  simp [Item.xmlEncode]

/-- C150: each text printed for an element, parsed by itself, gives the element; so elements that print alike are equal, adjacent
texts merged. -/
theorem C150_elements_read_back {doc : Node} (hw : doc.Writable) {p : Path} {x : Node} (hx : doc.at? p = some x) (ht : x.isText = false)
    {s : Str} (hs : (Item.node p : Item F).xmlEncode doc = .ok s) {b r b'} (hp : TreeParse b s r b') :
    ∃ i, r = .returned (some i) ∧ Rep b'.heap none i x.norm := by
  simp only [Item.xmlEncode, hx, Except.ok.injEq] at hs
  subst hs
  exact C15_serialise_then_parse (writable_at p hw hx) ht hp

/-- C150 as stated is false: in `<a i="1"><b></b></a>` the query `(b, @*, count(b), b)` prints two lines, the second without the name
of the attribute, and then raises an AttributeError; the root cannot be printed, and attributes cannot be written. -/
theorem C150_full_statement_is_false :
    let b : Expr NoF := .step .child (.name ['b'])
    let doc : Node := .elem ['a'] [(['i'], ['1'])] [.elem ['b'] [] []]
    let E : Env NoF := { fo := noFloats, doc := doc, vars := fun _ => none, parse := fun _ => .error .runtime }
    E.Yields 0 (.seq [b, .step .attribute .star, .call "count".toList [b], b]) (.node []) [.node [0], .attr [] ['i'] ['1'], .int 1, .node [0]] ∧
    E.Prints 0 (.seq [b, .step .attribute .star, .call "count".toList [b], b]) (.node []) ["<b></b>".toList, "{=\"1\"}".toList] (.err .attribute) ∧
    E.Prints 0 (.abs none) (.node []) [] (.err .notImplemented) ∧
    E.Writes 0 (.seq [b, .step .attribute .star, b]) (.node []) ["<b></b>".toList] (.err .notImplemented) := by
  refine ⟨?_, ?_, ?_, ?_⟩ <;> (simp only [Env.Prints, Env.Yields, Env.Writes]; decide +kernel)

end Amara
