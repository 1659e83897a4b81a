import Verif.Lemmas.Control
import Verif.Lemmas.Builder
import Verif.Props.Parser
/-
Properties C15 to C21, C23 (and the tree half of C11): serialisation, string values, and the tree
builder.

Vocabulary: `e.encode` is `e.xml_encode()`, `e.encodeI ind d` is `e.xml_encode(ind, d)`.
`TreeParse b doc r b'`: the call `treebuilder.parse(doc)` on a builder `b` in any state can end with
result `r` and builder `b'`, for some behaviour of the garbage collector.  `Rep h none i t`: object `i`
is the tree `t`, with all links right.
-/
namespace Amara

/-! ### the two calls of `send` -/

theorem drive_eq (doc : Str) : drive doc = ((send newParser doc false).1, (send newParser doc false).2.1) := by
  simp only [drive]
  by_cases hd : doc = []
  · subst hd; rfl
  · rw [send_new doc hd]
    cases hx : (exec false { PState.init with rest := doc }).2 with
    | paused s' => simp [send]
    | raised e => rfl
    | running s' => rfl

theorem drive_wellNested (doc : Str) : WellNested (drive doc).1 := by
  rw [drive_eq]
  have := C03_events_well_nested [(doc, false)]
  simpa [sends] using this

/-- C20, C21, C23 for every text: the outcome and the tree built depend only on the text. -/
theorem treeParse_result (doc : Str) : ∃ t, Described (drive doc).1 t ∧ ∀ b r b', TreeParse b doc r b' →
    IsTree b'.heap b'.root t ∧
    (r = match (drive doc).2 with
      | .returned => .returned b'.root
      | .raised e => .raised e
      | .stopIteration => .stopIteration
      | .never => .never) := by
  obtain ⟨t, ht, h⟩ := events_tree (drive doc).1 (drive_wellNested doc)
  exact ⟨t, ht, fun b r b' hp => ⟨h b.reset b' ⟨rfl, rfl⟩ hp.1, hp.2⟩⟩

/-! ### C20 -/

/-- C20 (with C21 and C23 built in: any earlier state of the builder, any behaviour of the collector).
Parsing any spelling of an element returns that element, with all parent links right. -/
theorem C20_builder_builds_the_tree {e : Node} {w : Str} (h : IsDoc e w) {b r b'}
    (hp : TreeParse b w r b') : ∃ i, r = .returned (some i) ∧ Rep b'.heap none i e := by
  obtain ⟨t, ht, hall⟩ := treeParse_result w
  obtain ⟨h1, h2⟩ := hall b r b' hp
  obtain ⟨⟨p, hs, _⟩, _⟩ := C01_valid_text_delivers_its_events h
  have hd : drive w = (e.events [], .returned) := by rw [drive_eq, hs]
  rw [hd] at ht h2
  have he : Described (e.events []) (some e) :=
    ⟨h.1, (by cases e with | elem => simp [Node.events] | text => exact absurd h.1 (by simp [Node.isText])),
      [], by simp, by simp⟩
  rw [described_unique ht he] at h1
  obtain ⟨i, hi, hr⟩ := h1
  exact ⟨i, by rw [h2, hi], hr⟩

/-- There is always an execution (the collector need not run). -/
theorem treeParse_exists (b : Builder) (doc : Str) : ∃ r b', TreeParse b doc r b' := by
  have hex : ∀ (ops : List Op) (b : Builder), ∃ b', Runs ops b b' := by
    intro ops
    induction ops with
    | nil => intro b; exact ⟨b, .done⟩
    | cons o ops ih => intro b; obtain ⟨b', h⟩ := ih (o.exec b); exact ⟨b', .op h⟩
  obtain ⟨b', h⟩ := hex ((drive doc).1.flatMap Event.ops) b.reset
  exact ⟨_, b', h, rfl⟩

example : ∃ r b', TreeParse (Builder.new ⟨0, fun _ => none⟩) exText r b' ∧
    ∃ i, r = .returned (some i) ∧ Rep b'.heap none i exElem := by
  obtain ⟨r, b', h⟩ := treeParse_exists (Builder.new ⟨0, fun _ => none⟩) exText
  exact ⟨r, b', h, C20_builder_builds_the_tree exText_isDoc h⟩

/-! ### C21, C23 -/

/-- C21.  For every text, complete or not, there is one outcome: any two builders, whatever they were
used for before and in whatever state a previous parse left them, end the same way, with equal trees. -/
theorem C21_builder_reuse (doc : Str) : ∃ t, ∀ b r b', TreeParse b doc r b' →
    IsTree b'.heap b'.root t ∧
    ((drive doc).2 = .returned → r = .returned b'.root) ∧
    (∀ e, (drive doc).2 = .raised e → r = .raised e) ∧
    ((drive doc).2 = .never → r = .never) := by
  obtain ⟨t, _, hall⟩ := treeParse_result doc
  refine ⟨t, fun b r b' hp => ?_⟩
  obtain ⟨h1, h2⟩ := hall b r b' hp
  refine ⟨h1, ?_, ?_, ?_⟩
  · intro hd; rw [h2, hd]
  · intro e hd; rw [h2, hd]
  · intro hd; rw [h2, hd]

/-- C21, spelt out for a builder that has already been used for `doc1`, to whatever end. -/
theorem C21_second_parse {doc1 : Str} {e : Node} {w : Str} (h : IsDoc e w) {b r1 b1 r b'}
    (_ : TreeParse b doc1 r1 b1) (hp : TreeParse b1 w r b') :
    ∃ i, r = .returned (some i) ∧ Rep b'.heap none i e :=
  C20_builder_builds_the_tree h hp

/-- The first document makes the parser raise in the middle. -/
example : ∃ r1 b1 r b', TreeParse (Builder.new ⟨0, fun _ => none⟩) "<a></b>".toList r1 b1 ∧
    r1 = .raised .runtime ∧ TreeParse b1 exText r b' := by
  obtain ⟨r1, b1, h1⟩ := treeParse_exists (Builder.new ⟨0, fun _ => none⟩) "<a></b>".toList
  obtain ⟨r, b', h⟩ := treeParse_exists b1 exText
  refine ⟨r1, b1, r, b', h1, ?_, h⟩
  rw [h1.2, show (drive "<a></b>".toList).2 = .raised .runtime by decide]

/-- C23.  Two executions of the same parse from the same builder, with any two behaviours of the
collector, give the same result, and equal trees. -/
theorem C23_collector_cannot_be_noticed (doc : Str) (b : Builder) {r1 b1 r2 b2}
    (h1 : TreeParse b doc r1 b1) (h2 : TreeParse b doc r2 b2) :
    ∃ t, IsTree b1.heap b1.root t ∧ IsTree b2.heap b2.root t ∧
      ((∃ i, r1 = .returned i) ↔ (∃ i, r2 = .returned i)) ∧ (∀ e, r1 = .raised e ↔ r2 = .raised e) := by
  obtain ⟨t, _, hall⟩ := treeParse_result doc
  obtain ⟨a1, a2⟩ := hall b r1 b1 h1
  obtain ⟨c1, c2⟩ := hall b r2 b2 h2
  refine ⟨t, a1, c1, ?_, ?_⟩
  · rw [a2, c2]; cases (drive doc).2 <;> simp
  · intro e; rw [a2, c2]; cases (drive doc).2 <;> simp

/-- The collector has something to do: an unreachable object really can disappear during a parse. -/
example : ∃ b b' : Builder, Runs [] b b' ∧ b.heap.obj 0 ≠ none ∧ b'.heap.obj 0 = none := by
  let b : Builder := ⟨⟨1, fun i => if i = 0 then some (.text [] none) else none⟩, none, none, none, none⟩
  have hc : Collected b.roots b.heap ⟨1, fun _ => none⟩ := ?_
  · exact ⟨b, { b with heap := ⟨1, fun _ => none⟩ }, .collect hc .done, by simp [b], rfl⟩
  refine ⟨rfl, fun i => ?_⟩
  by_cases h : i = 0
  · right
    refine ⟨rfl, fun hr => ?_⟩
    have : ∀ j, Reachable b.heap b.roots j → False := by
      intro j hj
      induction hj with
      | root h => simp [b, Builder.roots] at h
      | child _ _ ih => exact ih
    exact this i hr
  · left; simp [b, h]

/-! ### C11, the tree half -/

/-- C11.  Parsing a truncated document into a tree raises nothing: the result is None or the tree of
the events seen so far. -/
theorem C11_truncated_tree {e : Node} {x y : Str} (h : IsDoc e (x ++ y)) {b r b'}
    (hp : TreeParse b x r b') :
    ∃ evs t, evs <+: e.events [] ∧ Described evs t ∧ r = .returned b'.root ∧ IsTree b'.heap b'.root t := by
  obtain ⟨t, ht, hall⟩ := treeParse_result x
  obtain ⟨h1, h2⟩ := hall b r b' hp
  obtain ⟨h3, h4⟩ := C11_truncated_document_is_silent h
  rw [drive_eq] at ht h2
  rw [h4] at h2
  exact ⟨_, t, h3, ht, h2, h1⟩

example : IsDoc exElem ("<a x='1'>b&l".toList ++ "t;<c></c></a>".toList) := by
  have : "<a x='1'>b&l".toList ++ "t;<c></c></a>".toList = exText := by decide
  rw [this]; exact exText_isDoc

/-! ### C15 -/

/-- `<a x='"&'>1<2<b></b></a>`, with the text in two pieces and an empty one. -/
def exWritable : Node :=
  .elem ['a'] [(['x'], ['"', '&'])] [.text ['1', '<'], .text [], .text ['2'], .elem ['b'] [] []]

theorem exWritable_writable : exWritable.Writable := by
  have h : ∀ c ∈ ['1', '<', '2'], Legal c := by decide
  refine ⟨by decide, ?_, by decide, ?_, ?_, ?_, ?_, trivial⟩
  · intro p hp
    rw [List.mem_singleton.1 hp]
    exact ⟨by decide, by unfold AttrValue; decide⟩
  · intro c hc; exact h c (by revert hc; simp; intro hc; rcases hc with h | h <;> simp [h])
  · intro c hc; cases hc
  · intro c hc; exact h c (by revert hc; simp; intro hc; simp [hc])
  · exact ⟨by decide, by simp, by simp, trivial⟩

/-- C15.  Parsing what `xml_encode` writes gives back the element, with adjacent text merged and empty
text dropped. -/
theorem C15_serialise_then_parse {e : Node} (h : e.Writable) (he : e.isText = false) {b r b'}
    (hp : TreeParse b e.encode r b') : ∃ i, r = .returned (some i) ∧ Rep b'.heap none i e.norm :=
  C20_builder_builds_the_tree (encode_isDoc h he) hp

/-- C15, second half: elements with the same serialisation are equal up to merging text. -/
theorem C15_serialisation_is_injective {e e' : Node} (h : e.Writable) (h' : e'.Writable)
    (he : e.isText = false) (he' : e'.isText = false) (heq : e.encode = e'.encode) : e.norm = e'.norm := by
  obtain ⟨⟨p, h1, _⟩, _⟩ := C01_valid_text_delivers_its_events (encode_isDoc h he)
  obtain ⟨⟨p', h2, _⟩, _⟩ := C01_valid_text_delivers_its_events (encode_isDoc h' he')
  rw [heq] at h1
  rw [h1] at h2
  exact events_injective (encode_isDoc h he).1 (encode_isDoc h' he').1 (congrArg Prod.fst h2)

/-- The serialisation of an element and of its normal form are the same text. -/
theorem encode_norm :
    (∀ x : Node, ∀ d, x.isText = false → x.norm.encodeI [] d = x.encodeI [] d) ∧
    (∀ xs : List Node, ∀ d, Node.encodeChildren [] d (Node.normList xs) = Node.encodeChildren [] d xs) := by
  have hct : ∀ (s : Str) (ns : List Node) d, Node.encodeChildren [] d (consText s ns) =
      escape s ++ Node.encodeChildren [] d ns := by
    intro s ns d
    by_cases hs : s = []
    · simp [hs, consText]
    · cases ns with
      | nil => simp [consText, hs, Node.encodeChildren]
      | cons x r => cases x <;> simp [consText, hs, Node.encodeChildren, escape_append]
  apply Node.induct
  · intro n as cs ih d _; simp [Node.norm, Node.encodeI, ih]
  · intro s d h; cases h
  · intro d; rfl
  · intro x xs ihx ihxs d
    cases x with
    | text s => simp [Node.normList, hct, Node.encodeChildren, ihxs]
    | elem n as cs =>
      have := ihx (d + 1) rfl
      simp only [Node.norm] at this
      simp [Node.normList, Node.norm, Node.encodeChildren, ihxs, this]

/-- C15: on normal forms, having the same serialisation is the same as being equal up to merging. -/
theorem C15_same_text_iff_same_tree {e e' : Node} (h : e.Writable) (h' : e'.Writable)
    (he : e.isText = false) (he' : e'.isText = false) : e.encode = e'.encode ↔ e.norm = e'.norm := by
  refine ⟨C15_serialisation_is_injective h h' he he', fun hn => ?_⟩
  rw [Node.encode, Node.encode, ← encode_norm.1 e 0 he, ← encode_norm.1 e' 0 he', hn]

example : exWritable.encode = "<a x='\"&amp;'>1&lt;2<b></b></a>".toList := by decide
example : exWritable.norm =
    .elem ['a'] [(['x'], ['"', '&'])] [.text ['1', '<', '2'], .elem ['b'] [] []] := by decide

/-! ### C16 -/

/-- C16, text: whatever the string, what is written contains no '<' or '>', is the string with each
special character replaced by a reference and nothing else changed (so '&' occurs only as the first
character of `&amp;`, `&lt;` or `&gt;`), and can be read back in one way only, as the string. -/
theorem C16_text_cannot_inject (s : Str) :
    Refs textRefs (fun c => c ≠ '&' ∧ c ≠ '<' ∧ c ≠ '>') s (escape s) ∧
    '<' ∉ escape s ∧ '>' ∉ escape s ∧
    ∀ s', Refs textRefs (fun c => c ≠ '&' ∧ c ≠ '<' ∧ c ≠ '>') s' (escape s) → s' = s := by
  have h := escape_refs s
  refine ⟨h, h.not_mem (by decide) (by simp [Plain]), h.not_mem (by decide) (by simp [Plain]), ?_⟩
  intro s' h'
  exact (h.unique (prefixFree_of (by decide)) (by
    intro p hp
    have : ∀ p ∈ textRefs, ∃ r, p.1.toList = '&' :: r := by
      intro p hp
      simp only [textRefs, List.mem_cons, List.not_mem_nil, or_false] at hp
      rcases hp with rfl | rfl | rfl
      · exact ⟨"amp;".toList, by decide⟩
      · exact ⟨"gt;".toList, by decide⟩
      · exact ⟨"lt;".toList, by decide⟩
    exact this p hp) (by simp [Plain]) h').symm

/-- C16, attribute values: whatever the string, it is written between two equal quote characters that
do not occur in between, with no '<', '>' and no '&' except for references, and can be read back in
one way only. -/
theorem C16_attribute_cannot_inject (v : Str) : ∃ q raw, (q = '"' ∨ q = '\'') ∧
    quoteattr v = q :: (raw ++ [q]) ∧ q ∉ raw ∧ '<' ∉ raw ∧ '>' ∉ raw ∧
    Refs attrRefs (fun c => (c ≠ '&' ∧ c ≠ '<' ∧ c ≠ '>') ∧ c ≠ q) v raw ∧
    ∀ v', Refs attrRefs (fun c => (c ≠ '&' ∧ c ≠ '<' ∧ c ≠ '>') ∧ c ≠ q) v' raw → v' = v := by
  obtain ⟨q, raw, hq, he, h⟩ := quoteattr_refs v
  refine ⟨q, raw, hq, he, h.not_mem ?_ (by simp), h.not_mem (by decide) (by simp [Plain]),
    h.not_mem (by decide) (by simp [Plain]), h, ?_⟩
  · rcases hq with rfl | rfl <;> decide
  · intro v' h'
    refine (h.unique (prefixFree_of (by decide)) ?_ (by simp [Plain]) h').symm
    intro p hp
    simp only [attrRefs, textRefs, List.cons_append, List.nil_append, List.mem_cons, List.not_mem_nil,
      or_false] at hp
    rcases hp with rfl | rfl | rfl | rfl | rfl | rfl | rfl
    · exact ⟨"amp;".toList, by decide⟩
    · exact ⟨"gt;".toList, by decide⟩
    · exact ⟨"lt;".toList, by decide⟩
    · exact ⟨"quot;".toList, by decide⟩
    · exact ⟨"#10;".toList, by decide⟩
    · exact ⟨"#13;".toList, by decide⟩
    · exact ⟨"#9;".toList, by decide⟩

example : escape "a<b>&amp;".toList = "a&lt;b&gt;&amp;amp;".toList := by decide
example : quoteattr "\"'\n".toList = "\"&quot;'&#10;\"".toList := by decide

/-! ### C17 -/

/-- C17.  If some attribute value anywhere in the element contains a tab, a newline or a carriage
return, parsing the element's own serialisation delivers exactly the events before the first start tag
with such a value, and nothing is raised. -/
theorem C17_control_characters_stop_the_parser {e : Node} (hw : e.WritableWith LooseValue)
    (he : e.isText = false) (hc : ∃ ev ∈ e.norm.events [], ¬ CleanStart ev) :
    (send newParser e.encode false).1 =
      (e.norm.events []).takeWhile (fun ev => decide (CleanStart ev)) ∧
    (send newParser e.encode false).2.1 = .returned := by
  obtain ⟨s', h⟩ := exec_encode_control hw he (by
    intro hall
    obtain ⟨ev, h1, h2⟩ := hc
    exact h2 (hall ev h1))
  have hne : e.encode ≠ [] := by
    cases e with
    | elem => simp [Node.encode, Node.encodeI]
    | text => cases he
  rw [send_new _ hne, h]
  exact ⟨rfl, rfl⟩

/-- C17, for the tree: if the value is on the document element itself, `tree.parse` of the
serialisation is None. -/
theorem C17_parse_gives_none {n as cs} (hw : (Node.elem n as cs).WritableWith LooseValue)
    (hc : ∃ p ∈ as, HasControl p.2) {b r b'} (hp : TreeParse b (Node.elem n as cs).encode r b') :
    r = .returned none := by
  have hns : ¬ CleanStart (.start n as []) := by
    obtain ⟨p, h1, h2⟩ := hc; exact fun h => h p h1 h2
  obtain ⟨h1, h2⟩ := C17_control_characters_stop_the_parser hw rfl
    ⟨.start n as [], by simp [Node.norm, Node.events], hns⟩
  have h3 : (send newParser (Node.elem n as cs).encode false).1 = [] := by
    rw [h1]; simp [Node.norm, Node.events, hns]
  obtain ⟨t, ht, hall⟩ := treeParse_result (Node.elem n as cs).encode
  obtain ⟨h4, h5⟩ := hall b r b' hp
  rw [drive_eq, h3] at ht
  rw [drive_eq, h2] at h5
  cases t with
  | none => rw [h5]; simp only [IsTree] at h4; rw [h4]
  | some t => exact absurd rfl ht.2.1

/-- `<r><a x="1&#9;2"></a></r>` -/
def exControl : Node := .elem ['r'] [] [.elem ['a'] [(['x'], ['1', '\t', '2'])] []]

example : exControl.WritableWith LooseValue ∧ (∃ ev ∈ exControl.norm.events [], ¬ CleanStart ev) ∧
    exControl.encode = "<r><a x=\"1&#9;2\"></a></r>".toList := by
  refine ⟨⟨by decide, by simp, by simp, ⟨by decide, ?_, by decide, trivial⟩, trivial⟩,
    ⟨.start ['a'] [(['x'], ['1', '\t', '2'])] [['r']], by decide, by decide⟩, by decide⟩
  intro p hp
  rw [List.mem_singleton.1 hp]
  exact ⟨by decide, by unfold LooseValue; decide⟩

/-! ### C18 -/

theorem xmlValue_texts :
    (∀ x : Node, x.xmlValue = x.texts.flatten) ∧
    (∀ xs : List Node, Node.xmlValues xs = (Node.textsList xs).flatten) := by
  apply Node.induct
  · intro n as cs ih; simp [Node.xmlValue, Node.texts, ih]
  · intro s; simp [Node.xmlValue, Node.texts]
  · rfl
  · intro x xs ihx ihxs; simp [Node.xmlValues, Node.textsList, ihx, ihxs]

theorem strvalAcc_texts :
    (∀ x : Node, x.strvalAcc = x.texts) ∧ (∀ xs : List Node, Node.strvalAccs xs = Node.textsList xs) := by
  apply Node.induct
  · intro n as cs ih; simp [Node.strvalAcc, Node.texts, ih]
  · intro s; simp [Node.strvalAcc, Node.texts]
  · rfl
  · intro x xs ihx ihxs
    cases x with
    | text s => simp [Node.strvalAccs, Node.textsList, ihxs, Node.texts]
    | elem n as cs => rw [Node.strvalAccs, Node.textsList, ihx, ihxs]

/-- C18.  `xml_value` and `strval` are the concatenation, in document order, of all text below. -/
theorem C18_string_value (e : Node) : e.xmlValue = e.texts.flatten ∧ e.strval = e.texts.flatten := by
  refine ⟨xmlValue_texts.1 e, ?_⟩
  cases e with
  | text s => simp [Node.strval, Node.texts]
  | elem n as cs => rw [Node.strval, strvalAcc_texts.1]

/-- C18: it is the concatenation of the characters events of the element. -/
theorem C18_string_value_of_events (e : Node) (anc : List Str) :
    e.xmlValue = ((e.events anc).map Event.charsOf).flatten := by
  have H : (∀ x : Node, ∀ anc, ((x.events anc).map Event.charsOf).flatten = x.texts.flatten) ∧
      (∀ xs : List Node, ∀ anc, ((Node.eventsList anc xs).map Event.charsOf).flatten =
        (Node.textsList xs).flatten) := by
    apply Node.induct
    · intro n as cs ih anc; simp [Node.events, Node.texts, Event.charsOf, ih]
    · intro s anc; simp [Node.events, Node.texts, Event.charsOf]
    · intro anc; rfl
    · intro x xs ihx ihxs anc; simp [Node.eventsList, Node.textsList, ihx, ihxs]
  rw [H.1 e anc, xmlValue_texts.1]

/-- C18: it does not depend on how text is split into adjacent text nodes. -/
theorem C18_string_value_ignores_splitting (e e' : Node) (h : e.norm = e'.norm) :
    e.xmlValue = e'.xmlValue := by
  have hct : ∀ (s : Str) (ns : List Node), Node.xmlValues (consText s ns) = s ++ Node.xmlValues ns := by
    intro s ns
    by_cases hs : s = []
    · simp [hs, consText]
    · cases ns with
      | nil => simp [consText, hs, Node.xmlValues, Node.xmlValue]
      | cons x r => cases x <;> simp [consText, hs, Node.xmlValues, Node.xmlValue]
  have H : (∀ x : Node, x.norm.xmlValue = x.xmlValue) ∧
      (∀ xs : List Node, Node.xmlValues (Node.normList xs) = Node.xmlValues xs) := by
    apply Node.induct
    · intro n as cs ih; simp [Node.norm, Node.xmlValue, ih]
    · intro s; rfl
    · rfl
    · intro x xs ihx ihxs
      cases x with
      | text s => simp [Node.normList, hct, Node.xmlValues, Node.xmlValue, ihxs]
      | elem n as cs => rw [Node.normList, Node.xmlValues, Node.xmlValues, ihx, ihxs]
  rw [← H.1 e, h, H.1 e']

example : exWritable.xmlValue = "1<2".toList ∧ exElem.strval = "b<".toList := by decide

/-! ### C19 -/

theorem repeatStr_eq (ind : Str) (n : Nat) : repeatStr ind n = copies n ind := by
  induction n with
  | zero => rfl
  | succ n ih => simp [repeatStr, copies, ih, List.replicate_succ]

theorem escape_plain {s : Str} (h : ∀ c ∈ s, c ≠ '&' ∧ c ≠ '<' ∧ c ≠ '>') : escape s = s := by
  induction s with
  | nil => rfl
  | cons c s ih =>
    have hc := h c (by simp)
    rw [escape_cons, ih (fun d hd => h d (by simp [hd])), escChar, if_neg hc.1, if_neg hc.2.2, if_neg hc.2.1]
    rfl

theorem copies_mem {n : Nat} {u : Str} {c : Char} (h : c ∈ copies n u) : c ∈ u := by
  simp only [copies, List.mem_flatten, List.mem_replicate] at h
  obtain ⟨l, ⟨_, rfl⟩, h⟩ := h
  exact h

/-- C19.  Serialising with an indent is serialising, without one, the element with text nodes added: a
newline and as many indents as the depth, as first child and after each child element.  So the result
differs from `xml_encode()` only in inserted runs, which lie outside tags. -/
theorem C19_indent_is_added_text {ind : Str} (h0 : ind ≠ []) (h : ∀ c ∈ ind, c ≠ '&' ∧ c ≠ '<' ∧ c ≠ '>')
    (e : Node) (depth : Nat) : e.encodeI ind depth = (e.withIndent ind depth).encode := by
  have hrun : ∀ d, escape ('\n' :: copies d ind) = '\n' :: repeatStr ind d := by
    intro d
    rw [repeatStr_eq]
    apply escape_plain
    intro c hc
    rcases List.mem_cons.1 hc with rfl | hc
    · decide
    · exact h c (copies_mem hc)
  have H : (∀ x : Node, ∀ d d', x.encodeI ind d = (x.withIndent ind d).encodeI [] d') ∧
      (∀ xs : List Node, ∀ d d', Node.encodeChildren ind d xs =
        Node.encodeChildren [] d' (Node.withIndents ind d xs)) := by
    apply Node.induct
    · intro n as cs ih d d'
      simp only [Node.encodeI, Node.withIndent, Node.encodeChildren, indentRun, h0, if_false, if_true,
        hrun, ih d d', List.nil_append, List.append_assoc]
    · intro s d d'; rfl
    · intro d d'; rfl
    · intro x xs ihx ihxs d d'
      cases x with
      | text s => simp only [Node.encodeChildren, Node.withIndents, ihxs d d']
      | elem n as cs =>
        rw [Node.encodeChildren, ihx (d + 1) (d' + 1), Node.withIndents, Node.withIndent,
          Node.encodeChildren, Node.encodeChildren, ihxs d d']
        simp [indentRun, h0, hrun]
  exact H.1 e depth 0

/-- C19: with the inserted runs removed the two are equal, for every starting depth: each run is a
newline and some number of indents and comes directly after a '>'. -/
theorem C19_indent_only_inserts_runs {ind : Str} (e : Node) (depth : Nat) :
    InsertedAtTags (fun u => ∃ k, u = '\n' :: copies k ind) e.encode (e.encodeI ind depth) := by
  -- a piece of text followed by an insertion
  have app : ∀ (s : Str) {P w w'}, InsertedAtTags P w w' → InsertedAtTags P (s ++ w) (s ++ w') := by
    intro s P w w' h
    induction s with
    | nil => exact h
    | cons c s ih => exact .char ih
  have tag : ∀ (u : Str) {w w'}, (u = [] ∨ ∃ k, u = '\n' :: copies k ind) →
      InsertedAtTags (fun u => ∃ k, u = '\n' :: copies k ind) w w' →
      InsertedAtTags (fun u => ∃ k, u = '\n' :: copies k ind) ('>' :: w) ('>' :: (u ++ w')) := by
    intro u w w' hu h
    rcases hu with rfl | hu
    · exact .char h
    · exact .run hu h
  have hrun : ∀ d, indentRun ind d = [] ∨ ∃ k, indentRun ind d = '\n' :: copies k ind := by
    intro d
    by_cases h0 : ind = []
    · left; simp [indentRun, h0]
    · right; exact ⟨d, by simp [indentRun, h0, repeatStr_eq]⟩
  have H : (∀ x : Node, ∀ d d' w w' u, (x.isText = false ∨ u = []) →
        (u = [] ∨ ∃ k, u = '\n' :: copies k ind) →
        InsertedAtTags (fun u => ∃ k, u = '\n' :: copies k ind) w w' →
        InsertedAtTags (fun u => ∃ k, u = '\n' :: copies k ind) (x.encodeI [] d' ++ w)
          (x.encodeI ind d ++ (u ++ w'))) ∧
      (∀ xs : List Node, ∀ d d' w w', InsertedAtTags (fun u => ∃ k, u = '\n' :: copies k ind) w w' →
        InsertedAtTags (fun u => ∃ k, u = '\n' :: copies k ind)
          (Node.encodeChildren [] d' xs ++ w) (Node.encodeChildren ind d xs ++ w')) := by
    apply Node.induct
    · intro n as cs ih d d' w w' u _ hu h
      have e1 := ih d d' _ _ (app ('<' :: '/' :: n) (tag u hu h))
      have e2 := app ('<' :: (n ++ encodeAttrs as)) (tag _ (hrun d) e1)
      simpa [Node.encodeI, show ∀ d, indentRun [] d = [] from fun d => rfl] using e2
    · intro s d d' w w' u hu _ h
      rcases hu with hu | rfl
      · cases hu
      · exact app s h
    · intro d d' w w' h; exact h
    · intro x xs ihx ihxs d d' w w' h
      cases x with
      | text s =>
        have := app (escape s) (ihxs d d' w w' h)
        simpa [Node.encodeChildren] using this
      | elem n as cs =>
        have := ihx (d + 1) (d' + 1) _ _ _ (.inl rfl) (hrun d) (ihxs d d' w w' h)
        simpa [Node.encodeChildren, show ∀ d, indentRun [] d = [] from fun d => rfl] using this
  have := H.1 e depth 0 [] [] [] (.inr rfl) (.inl rfl) .nil
  simpa [Node.encode] using this

example : (Node.elem ['a'] [] [.elem ['b'] [] []]).encodeI [' ', ' '] 0 = "<a>\n<b>\n  </b>\n</a>".toList := by
  decide

end Amara
