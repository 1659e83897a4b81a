import Verif.Spec.IndentBack
import Verif.Props.Writer
import Verif.Lemmas.XSender
/-
C138: what was written with indentation, read back.
-/
namespace Amara

/-! ### White space in trees -/

theorem noBlanks_append (s t : Str) : noBlanks (s ++ t) = noBlanks s ++ noBlanks t := by simp [noBlanks]

theorem noBlanks_blank {ind : Str} (h : BlankIndent ind) (d : Nat) : noBlanks ('\n' :: copies d ind) = [] := by
  rw [noBlanks, List.filter_eq_nil_iff]
  intro c hc
  rcases List.mem_cons.1 hc with rfl | hc
  · simp
  · rcases h c (copies_mem hc) with rfl | rfl | rfl <;> simp

theorem squeezeList_consText (s : Str) (l : List Node) :
    Node.squeezeList (consText s l) = consText (noBlanks s) (Node.squeezeList l) := by
  by_cases hs : s = []
  · subst hs; simp [consText, noBlanks]
  · cases l with
    | nil => simp [consText, hs, Node.squeezeList]
    | cons x r =>
      cases x with
      | elem n as cs => simp [consText, hs, Node.squeezeList]
      | text t =>
        rw [show consText s (.text t :: r) = .text (s ++ t) :: r by simp [consText, hs]]
        simp only [Node.squeezeList, noBlanks_append]
        rw [consText_append]

theorem squeeze_norm : (∀ x : Node, x.norm.squeeze = x.squeeze) ∧
    (∀ cs : List Node, Node.squeezeList (Node.normList cs) = Node.squeezeList cs) := by
  apply Node.induct
  · intro n as cs ih; simp only [Node.norm, Node.squeeze, ih]
  · intro s; rfl
  · rfl
  · intro x cs ih1 ih2
    cases x with
    | text s => simp only [Node.normList, squeezeList_consText, Node.squeezeList, ih2]
    | elem n as ds =>
      simp only [Node.norm, Node.squeeze, Node.elem.injEq, true_and] at ih1
      simp only [Node.normList, Node.norm, Node.squeezeList, Node.squeeze, ih1, ih2]

theorem squeezeList_cons_blank {ind : Str} (h : BlankIndent ind) (d : Nat) (r : List Node) :
    Node.squeezeList (.text ('\n' :: copies d ind) :: r) = Node.squeezeList r := by
  rw [Node.squeezeList, noBlanks_blank h, consText_nil]

theorem squeeze_withIndent {ind : Str} (h : BlankIndent ind) :
    (∀ (x : Node) (d : Nat), (x.withIndent ind d).squeeze = x.squeeze) ∧
    (∀ (cs : List Node) (d : Nat), Node.squeezeList (Node.withIndents ind d cs) = Node.squeezeList cs) := by
  apply Node.induct
  · intro n as cs ih d
    simp only [Node.withIndent, Node.squeeze, squeezeList_cons_blank h, ih]
  · intro s d; rfl
  · intro d; rfl
  · intro x cs ih1 ih2 d
    cases x with
    | text s => simp only [Node.withIndents, Node.squeezeList, ih2]
    | elem n as ds =>
      have h1 := ih1 (d + 1)
      simp only [Node.withIndents]
      rw [show Node.withIndent ind (d + 1) (.elem n as ds) =
        .elem n as (.text ('\n' :: copies (d + 1) ind) :: Node.withIndents ind (d + 1) ds) from rfl] at h1 ⊢
      rw [Node.squeezeList, squeezeList_cons_blank h, h1, ih2, Node.squeezeList]

/-! ### What is written is writable -/

theorem legal_blank {ind : Str} (h : BlankIndent ind) (d : Nat) : ∀ c ∈ '\n' :: copies d ind, Legal c := by
  intro c hc
  rcases List.mem_cons.1 hc with rfl | hc
  · decide
  · rcases h c (copies_mem hc) with rfl | rfl | rfl <;> decide

theorem writable_withIndent {ind : Str} (h : BlankIndent ind) {ok : Str → Prop} :
    (∀ (x : Node) (d : Nat), x.WritableWith ok → (x.withIndent ind d).WritableWith ok) ∧
    (∀ (cs : List Node) (d : Nat), Node.WritableList ok cs → Node.WritableList ok (Node.withIndents ind d cs)) := by
  apply Node.induct
  · intro n as cs ih d hw
    simp only [Node.withIndent, Node.WritableWith, Node.WritableList] at hw ⊢
    exact ⟨hw.1, hw.2.1, hw.2.2.1, legal_blank h d, ih d hw.2.2.2⟩
  · intro s d hw; exact hw
  · intro d hw; exact hw
  · intro x cs ih1 ih2 d hw
    cases x with
    | text s => exact ⟨hw.1, ih2 d hw.2⟩
    | elem n as ds => exact ⟨ih1 (d + 1) hw.1, legal_blank h d, ih2 d hw.2⟩

theorem isText_withIndent (ind : Str) (d : Nat) (x : Node) : (x.withIndent ind d).isText = x.isText := by
  cases x <;> rfl

theorem encode_depth : (∀ e : Node, ∀ d, e.encodeI [] d = e.encodeI [] 0) ∧
    (∀ es : List Node, ∀ d, Node.encodeChildren [] d es = Node.encodeChildren [] 0 es) := by
  apply Node.induct
  · intro n as cs ih d; simp only [Node.encodeI, ih d, indentRun]; rfl
  · intro s d; rfl
  · intro d; rfl
  · intro x cs ih1 ih2 d
    cases x with
    | text s => simp only [Node.encodeChildren, ih2 d]
    | elem n as ds => simp only [Node.encodeChildren, ih1 (d + 1), ih1 (0 + 1), ih2 d, indentRun]; rfl

/-- C138 for `xml_encode(indent=...)`: the text, parsed, gives a tree that differs from the element only in white space. -/
theorem C138_xml_encode {e : Node} (h : e.Writable) (he : e.isText = false) {ind : Str} (hi : BlankIndent ind) (d : Nat) :
    ∃ e' : Node, e'.squeeze = e.squeeze ∧
      send newParser (e.encodeI ind d) true = (e'.events [], .returned, .finished) ∧
      ∀ b r b', TreeParse b (e.encodeI ind d) r b' → ∃ i, r = .returned (some i) ∧ Rep b'.heap none i e' := by
  have key : ∃ x : Node, x.Writable ∧ x.isText = false ∧ x.squeeze = e.squeeze ∧ e.encodeI ind d = x.encode := by
    by_cases h0 : ind = []
    · subst h0
      exact ⟨e, h, he, rfl, encode_depth.1 e d⟩
    · refine ⟨e.withIndent ind d, (writable_withIndent hi).1 e d h, by rw [isText_withIndent, he],
        (squeeze_withIndent hi).1 e d, C19_indent_is_added_text h0 ?_ e d⟩
      intro c hc
      rcases hi c hc with rfl | rfl | rfl <;> decide
  obtain ⟨x, h1, h2, h3, h4⟩ := key
  refine ⟨x.norm, by rw [squeeze_norm.1, h3], ?_, ?_⟩
  · rw [h4]; exact (C01_valid_text_delivers_its_events (encode_isDoc h1 h2)).2
  · rw [h4]; exact fun b r b' hp => C20_builder_builds_the_tree (encode_isDoc h1 h2) hp

/-! ### The writer -/

mutual
  /-- What an indenting writer writes for an element that is begun at depth `d`. -/
  def Node.wPad (ind : Str) (d : Nat) : Node → Node
    | .elem n as cs => .elem n as (Node.wPads ind (d + 1) true cs)
    | .text s => .text s
  /-- The same for the children of an element, at depth `d`; `fresh` tells that no child element was begun yet. -/
  def Node.wPads (ind : Str) (d : Nat) (fresh : Bool) : List Node → List Node
    | [] => []
    | .text s :: r => .text s :: Node.wPads ind d fresh r
    | .elem n as cs :: r =>
      (if fresh then [.text ('\n' :: copies d ind)] else []) ++
        Node.wPad ind d (.elem n as cs) :: .text ('\n' :: copies (d + 1) ind) :: Node.wPads ind d false r
end

theorem padded_append (ind : Str) (d0 : Int) (a b : List Call) : ∀ before,
    padded ind d0 before (a ++ b) = padded ind d0 before a ++ padded ind d0 (before ++ a) b := by
  induction a with
  | nil => intro before; simp [padded]
  | cons c a ih =>
    intro before
    simp only [List.cons_append, padded, ih, List.append_assoc, List.nil_append]

theorem callsList_append (a b : List Node) : Node.callsList (a ++ b) = Node.callsList a ++ Node.callsList b := by
  induction a with
  | nil => rfl
  | cons x a ih => simp only [List.cons_append, Node.callsList, ih, List.append_assoc]

theorem padded_calls (ind : Str) (d0 : Int) :
    (∀ (x : Node) (before : List Call) (d : Nat), depthAfter d0 before = d →
      depthAfter d0 (before ++ x.calls) = d ∧
      justOpened (before ++ x.calls) = (x.isText && justOpened before) ∧
      padded ind d0 before x.calls = if x.isText then x.calls else
        (if justOpened before then [.text ('\n' :: copies d ind)] else []) ++ (x.wPad ind d).calls ++
          [.text ('\n' :: copies (d + 1) ind)]) ∧
    (∀ (cs : List Node) (before : List Call) (d : Nat), depthAfter d0 before = d →
      depthAfter d0 (before ++ Node.callsList cs) = d ∧
      padded ind d0 before (Node.callsList cs) = Node.callsList (Node.wPads ind d (justOpened before) cs)) := by
  apply Node.induct
  · intro n as cs ih before d hd
    have h1 : depthAfter d0 (before ++ [.start n as false]) = (d + 1 : Nat) := by
      rw [depthAfter_snoc, hd]; simp
    obtain ⟨i1, i2⟩ := ih (before ++ [.start n as false]) (d + 1) h1
    have hb : before ++ Node.calls (.elem n as cs) = (before ++ [.start n as false] ++ Node.callsList cs) ++ [.stop n] := by
      simp [Node.calls]
    refine ⟨?_, ?_, ?_⟩
    · rw [hb, depthAfter_snoc, i1]; simp; omega
    · rw [hb, justOpened_snoc]; rfl
    · rw [show Node.calls (.elem n as cs) = [.start n as false] ++ (Node.callsList cs ++ [.stop n]) from rfl,
        padded_append, padded_append, i2]
      simp only [padded, i1, hd, Node.isText, justOpened_snoc, Int.toNat_natCast, Node.wPad, Node.calls]
      simp
  · intro s before d hd
    refine ⟨?_, ?_, ?_⟩
    · rw [show Node.calls (.text s) = [.text s] from rfl, depthAfter_snoc, hd]; simp
    · rw [show Node.calls (.text s) = [.text s] from rfl, justOpened_snoc]; simp [Node.isText]
    · simp [padded, Node.calls, Node.isText]
  · intro before d hd; exact ⟨by simpa [Node.callsList] using hd, rfl⟩
  · intro x cs ih1 ih2 before d hd
    obtain ⟨a1, a2, a3⟩ := ih1 before d hd
    obtain ⟨b1, b2⟩ := ih2 (before ++ x.calls) d a1
    refine ⟨by rw [Node.callsList, ← List.append_assoc]; exact b1, ?_⟩
    rw [Node.callsList, padded_append, a3, b2, a2]
    cases x with
    | text s => simp [Node.isText, Node.wPads, Node.callsList, Node.calls]
    | elem n as ds =>
      simp only [Node.isText, Bool.false_and, Bool.false_eq_true, if_false, Node.wPads, Node.wPad, callsList_append]
      cases justOpened before <;> simp [Node.callsList, Node.calls]

theorem squeeze_wPad {ind : Str} (h : BlankIndent ind) :
    (∀ (x : Node) (d : Nat), (x.wPad ind d).squeeze = x.squeeze) ∧
    (∀ (cs : List Node) (d : Nat) (f : Bool), Node.squeezeList (Node.wPads ind d f cs) = Node.squeezeList cs) := by
  apply Node.induct
  · intro n as cs ih d
    simp only [Node.wPad, Node.squeeze, ih]
  · intro s d; rfl
  · intro d f; rfl
  · intro x cs ih1 ih2 d f
    cases x with
    | text s => simp only [Node.wPads, Node.squeezeList, ih2]
    | elem n as ds =>
      have h1 := ih1 d
      rw [Node.wPad] at h1
      cases f <;>
        simp [Node.wPads, Node.wPad, Node.squeezeList, h1, ih2, noBlanks_blank h, consText_nil]

theorem writable_wPad {ind : Str} (h : BlankIndent ind) {ok : Str → Prop} :
    (∀ (x : Node) (d : Nat), x.WritableWith ok → (x.wPad ind d).WritableWith ok) ∧
    (∀ (cs : List Node) (d : Nat) (f : Bool), Node.WritableList ok cs → Node.WritableList ok (Node.wPads ind d f cs)) := by
  apply Node.induct
  · intro n as cs ih d hw
    simp only [Node.wPad, Node.WritableWith] at hw ⊢
    exact ⟨hw.1, hw.2.1, hw.2.2.1, ih _ _ hw.2.2.2⟩
  · intro s d hw; exact hw
  · intro d f hw; exact hw
  · intro x cs ih1 ih2 d f hw
    cases x with
    | text s => exact ⟨hw.1, ih2 d f hw.2⟩
    | elem n as ds =>
      have h1 := ih1 d hw.1
      cases f
      · exact ⟨h1, legal_blank h (d + 1), ih2 d false hw.2⟩
      · exact ⟨legal_blank h d, h1, legal_blank h (d + 1), ih2 d false hw.2⟩

theorem leaf_wPad (ind : Str) :
    (∀ (x : Node) (d : Nat), (x.wPad ind d).leafElems = x.leafElems) ∧
    (∀ (cs : List Node) (d : Nat) (f : Bool), Node.leafElemsList (Node.wPads ind d f cs) = Node.leafElemsList cs ∧
      (cs.all Node.isText = true → Node.wPads ind d f cs = cs) ∧ (Node.wPads ind d f cs).all Node.isText = cs.all Node.isText) := by
  apply Node.induct
  · intro n as cs ih d
    obtain ⟨h1, h2, h3⟩ := ih (d + 1) true
    simp only [Node.wPad, Node.leafElems, h3, h1]
    by_cases ht : cs.all Node.isText = true
    · rw [if_pos ht, if_pos ht, h2 ht]
    · rw [if_neg ht, if_neg ht]
  · intro s d; rfl
  · intro d f; exact ⟨rfl, fun _ => rfl, rfl⟩
  · intro x cs ih1 ih2 d f
    cases x with
    | text s =>
      obtain ⟨h1, h2, h3⟩ := ih2 d f
      refine ⟨by simp only [Node.wPads, Node.leafElemsList, h1], fun ht => ?_, ?_⟩
      · simp only [List.all_cons, Bool.and_eq_true] at ht
        rw [Node.wPads, h2 ht.2]
      · simp only [Node.wPads, List.all_cons, h3]
    | elem n as ds =>
      obtain ⟨h1, h2, h3⟩ := ih2 d false
      have h4 := ih1 d
      rw [Node.wPad] at h4
      refine ⟨?_, fun ht => ?_, ?_⟩
      · cases f <;> simp [Node.wPads, Node.wPad, Node.leafElemsList, h4, h1, Node.leafElems.eq_2]
      · simp [Node.isText] at ht
      · cases f <;> simp [Node.wPads, Node.wPad, Node.isText]

theorem leaf_consText (s : Str) (l : List Node) :
    Node.leafElemsList (consText s l) = Node.leafElemsList l ∧ (consText s l).all Node.isText = l.all Node.isText := by
  by_cases hs : s = []
  · subst hs; rw [consText_nil]; exact ⟨rfl, rfl⟩
  · cases l with
    | nil => simp [consText, hs, Node.leafElemsList, Node.leafElems, Node.isText]
    | cons x r => cases x <;> simp [consText, hs, Node.leafElemsList, Node.leafElems.eq_2, Node.isText]

theorem leaf_norm :
    (∀ x : Node, x.norm.leafElems = x.leafElems.map Node.norm) ∧
    (∀ cs : List Node, Node.leafElemsList (Node.normList cs) = (Node.leafElemsList cs).map Node.norm ∧
      (Node.normList cs).all Node.isText = cs.all Node.isText) := by
  apply Node.induct
  · intro n as cs ih
    simp only [Node.norm, Node.leafElems, ih.2, ih.1]
    split
    · simp [Node.norm]
    · rfl
  · intro s; rfl
  · exact ⟨rfl, rfl⟩
  · intro x cs ih1 ih2
    cases x with
    | text s =>
      simp only [Node.normList, leaf_consText, ih2, Node.leafElemsList, Node.leafElems, List.nil_append, List.all_cons,
        Node.isText, Bool.true_and, and_self]
    | elem n as ds =>
      simp only [Node.norm] at ih1
      simp only [Node.normList, Node.norm, Node.leafElemsList, ih1, ih2.1, List.map_append, List.all_cons, Node.isText,
        Bool.false_and, and_self]

/-- The text a writer with an indent writes for an element. -/
theorem writer_text {e : Node} (he : e.isText = false) {ind : Str} (h0 : ind ≠ []) (d : Nat) :
    rawText ind d e.calls = some ((e.wPad ind d).encode ++ escape ('\n' :: copies (d + 1) ind)) := by
  rw [(C32_indentation_is_added_text ind h0 d e.calls).1, rawText_plain,
    ((padded_calls ind d).1 e [] d (by simp [depthAfter])).2.2, he]
  cases e with
  | text s => cases he
  | elem n as cs =>
    have hj : justOpened [] = false := rfl
    simp only [hj, Bool.false_eq_true, if_false, List.nil_append, List.flatMap_append, Option.some.injEq]
    rw [plain_calls.1 (Node.wPad ind d (.elem n as cs)) n as (Node.wPads ind (d + 1) true cs) rfl]
    simp [Call.plain]

theorem blank_space {ind : Str} (h : BlankIndent ind) (d : Nat) :
    Space (escape ('\n' :: copies d ind)) ∧ escape ('\n' :: copies d ind) = '\n' :: copies d ind := by
  have he : escape ('\n' :: copies d ind) = '\n' :: copies d ind := by
    apply escape_plain
    intro c hc
    rcases List.mem_cons.1 hc with rfl | hc
    · decide
    · rcases h c (copies_mem hc) with rfl | rfl | rfl <;> decide
  rw [he]
  refine ⟨fun c hc => ?_, rfl⟩
  rcases List.mem_cons.1 hc with rfl | hc
  · simp
  · rcases h c (copies_mem hc) with rfl | rfl | rfl <;> simp

/-- C138 for the writer: the text it writes for an element, parsed, gives a tree that differs from the element only in
white space, and not at all in the elements that contain no elements. -/
theorem C138_writer {e : Node} (h : e.Writable) (he : e.isText = false) {ind : Str} (h0 : ind ≠ []) (hi : BlankIndent ind)
    (d : Nat) :
    ∃ (w : Str) (e' : Node), rawText ind d e.calls = some w ∧ e'.squeeze = e.squeeze ∧
      e'.leafElems = e.leafElems.map Node.norm ∧
      send newParser w true = (e'.events [], .returned, .finished) ∧
      ∀ b r b', TreeParse b w r b' → ∃ i, r = .returned (some i) ∧ Rep b'.heap none i e' := by
  have hw : (e.wPad ind d).Writable := (writable_wPad hi).1 e d h
  have ht : (e.wPad ind d).isText = false := by
    cases e with
    | elem => rfl
    | text => cases he
  obtain ⟨a1, w0, w1, w2, a2, a3, a4, a5⟩ := encode_isDoc hw ht
  have hd : IsDoc (e.wPad ind d).norm ((e.wPad ind d).encode ++ escape ('\n' :: copies (d + 1) ind)) := by
    refine ⟨a1, w0, w1, w2 ++ escape ('\n' :: copies (d + 1) ind), a2, ?_, a4, by rw [a5]; simp⟩
    intro c hc
    rcases List.mem_append.1 hc with hc | hc
    · exact a3 c hc
    · exact (blank_space hi (d + 1)).1 c hc
  refine ⟨_, (e.wPad ind d).norm, writer_text he h0 d, ?_, ?_, (C01_valid_text_delivers_its_events hd).2,
    fun b r b' hp => C20_builder_builds_the_tree hd hp⟩
  · rw [squeeze_norm.1, (squeeze_wPad hi).1]
  · rw [leaf_norm.1, (leaf_wPad ind).1]

/-- The elements without elements are where the two ways to indent differ: `xml_encode` puts a newline and indents before
the text of every one of them, so the text read back is another one. -/
theorem C138_encode_changes_texts (n : Str) (as : Attrs) (s : Str) {ind : Str} (h0 : ind ≠ []) (hi : BlankIndent ind) (d : Nat)
    (h : (Node.elem n as [.text s]).Writable) :
    send newParser ((Node.elem n as [.text s]).encodeI ind d) true =
      ((Node.elem n as [.text ('\n' :: (copies d ind ++ s))]).events [], .returned, .finished) := by
  rw [C19_indent_is_added_text h0 ?_ _ d]
  · have := (C01_valid_text_delivers_its_events
      (encode_isDoc ((writable_withIndent hi).1 (.elem n as [.text s]) d h) rfl)).2
    rw [this]
    congr 2
    show Node.norm (.elem n as (.text ('\n' :: copies d ind) :: [.text s])) = _
    simp only [Node.norm, Node.normList]
    by_cases hs : s = []
    · subst hs; simp [consText]
    · simp [consText, hs]
  · intro c hc
    rcases hi c hc with rfl | rfl | rfl <;> decide

/-- Where the writer puts siblings: the first child element of an element begun at depth `d` is indented `d + 1` times, every
later one and the end tag `d + 2` times. -/
theorem C138_writer_alignment (a b c : Str) {ind : Str} (h0 : ind ≠ []) (hi : BlankIndent ind) (d : Nat) :
    rawText ind d (Node.elem a [] [.elem b [] [], .elem c [] []]).calls = some
      ('<' :: a ++ '>' :: '\n' :: copies (d + 1) ind ++ '<' :: b ++ '>' :: '<' :: '/' :: b ++ '>' ::
        '\n' :: copies (d + 2) ind ++ '<' :: c ++ '>' :: '<' :: '/' :: c ++ '>' ::
        '\n' :: copies (d + 2) ind ++ '<' :: '/' :: a ++ '>' :: '\n' :: copies (d + 1) ind) := by
  rw [writer_text rfl h0 d]
  simp [Node.wPad, Node.wPads, Node.encode, Node.encodeI, Node.encodeChildren, encodeAttrs, indentRun,
    (blank_space hi _).2]

/-- `<a><b>x</b>y<c></c></a>`, whose texts and names are fine to write. -/
def indentWitness : Node := .elem "a".toList [] [.elem "b".toList [] [.text "x".toList], .text "y".toList, .elem "c".toList [] []]

example : indentWitness.Writable := by
  simp [indentWitness, Node.Writable, Node.WritableWith, Node.WritableList]; decide

example : BlankIndent "  ".toList ∧ "  ".toList ≠ [] := ⟨by intro c hc; simp at hc; exact .inl hc, by decide⟩

example : rawText "  ".toList 0 indentWitness.calls =
    some "<a>\n  <b>x</b>\n    y<c></c>\n    </a>\n  ".toList := by decide +kernel

example : indentWitness.encodeI "  ".toList 0 = "<a>\n<b>\n  x</b>\ny<c>\n  </c>\n</a>".toList := by decide +kernel

/-- An element with blanks in its text is told apart from one with other letters, so the comparison is not empty. -/
example : (Node.elem "a".toList [] [.text "x y".toList]).squeeze = (Node.elem "a".toList [] [.text " xy".toList]).squeeze ∧
    (Node.elem "a".toList [] [.text "x".toList]).squeeze ≠ (Node.elem "a".toList [] [.text "y".toList]).squeeze := by
  decide +kernel

end Amara
