import Verif.Spec.Writer
import Verif.Props.Tree
/-
Properties C28 to C32: the writers.
-/
namespace Amara

/-! ### helper lemmas -/

theorem Writer.write_raw {w : Writer} (h : w.ns = none) (ctx : Ctx) (a : WArg) :
    w.write ctx a = w.put (if ctx = .text then escape a.str' else a.str') := by
  simp only [Writer.write, h]
  by_cases hc : ctx = .text
  · simp [hc, WArg.str']
  · simp [hc]

@[simp] theorem Writer.put_ns (w : Writer) (s) : (w.put s).ns = w.ns := rfl
@[simp] theorem Writer.put_out (w : Writer) (s) : (w.put s).out = w.out ++ s := rfl
@[simp] theorem Writer.put_indent (w : Writer) (s) : (w.put s).indent = w.indent := rfl
@[simp] theorem Writer.put_depth (w : Writer) (s) : (w.put s).depth = w.depth := rfl
@[simp] theorem Writer.put_awaiting (w : Writer) (s) : (w.put s).awaiting = w.awaiting := rfl
theorem Writer.put_put (w : Writer) (s t) : (w.put s).put t = w.put (s ++ t) := by
  simp [Writer.put]

theorem Writer.put_nil (w : Writer) : w.put [] = w := by simp [Writer.put]

theorem Writer.attrs_raw {w : Writer} (h : w.ns = none) (first : Bool) (as : Attrs) :
    w.attrs first as = w.put (encodeAttrs as) := by
  induction as generalizing w first with
  | nil => simp [Writer.attrs, encodeAttrs, Writer.put_nil]
  | cons p r ih =>
    obtain ⟨k, v⟩ := p
    have ht : (WArg.tok (if first then Tok.preAttr else Tok.betweenAttr)).str' = [' '] := by
      cases first <;> rfl
    rw [Writer.attrs, ih (by simp [Writer.write_raw, h])]
    simp only [Writer.write_raw, h, Writer.put_ns]
    rw [ht]
    simp [Writer.put_put, WArg.str', Tok.str, encodeAttrs]

/-- The text of a start tag. -/
def startTag (n : Str) (as : Attrs) (e : Bool) : Str :=
  '<' :: (n ++ (encodeAttrs as ++ (if e then ['/', '>'] else ['>'])))

/-- The newline and indent written by an indenting writer. -/
def pad (ind : Str) (d : Int) : Str := escape ['\n'] ++ escape (repeatStr ind d.toNat)

theorem Writer.newline_raw {w : Writer} (h : w.ns = none) : w.newline = w.put (pad w.indent w.depth) := by
  simp [Writer.newline, Writer.write_raw, h, Writer.put_put, WArg.str', pad]

/-- One call of a raw writer. -/
theorem Writer.start_raw {w : Writer} (h : w.ns = none) (n as e) :
    w.start n as e = some
      { w with
        out := w.out ++ ((if w.awaiting = true ∧ w.indent ≠ [] then pad w.indent w.depth else []) ++
          (startTag n as e ++ (if e = true ∧ w.indent ≠ [] then pad w.indent w.depth else []))),
        depth := if e then w.depth else w.depth + 1,
        awaiting := if e then (if w.indent ≠ [] then false else w.awaiting) else true } := by
  simp only [Writer.start, h, Writer.rawStart, Option.some.injEq]
  by_cases ha : w.awaiting = true ∧ w.indent ≠ []
  · rw [if_pos ha, if_pos ha]
    cases e
    · simp [startTag, Writer.newline_raw, Writer.write_raw, Writer.attrs_raw, Writer.put, WArg.str', Tok.str, h]
    · simp [startTag, Writer.newline_raw, Writer.write_raw, Writer.attrs_raw, Writer.put, WArg.str', Tok.str, h, ha.2]
  · rw [if_neg ha, if_neg ha]
    cases e
    · simp [startTag, Writer.write_raw, Writer.attrs_raw, Writer.put, WArg.str', Tok.str, h]
    · by_cases hi : w.indent = []
      · simp [startTag, Writer.write_raw, Writer.attrs_raw, Writer.put, WArg.str', Tok.str, h, hi]
      · have : w.awaiting = false := by
          cases hw : w.awaiting with
          | false => rfl
          | true => exact absurd ⟨hw, hi⟩ ha
        simp [startTag, Writer.newline_raw, Writer.write_raw, Writer.attrs_raw, Writer.put, WArg.str', Tok.str, h,
          hi, this]

theorem Writer.stop_raw {w : Writer} (h : w.ns = none) (n) :
    w.stop n = { w with
      out := w.out ++ ('<' :: '/' :: (n ++ ('>' :: (if w.indent ≠ [] then pad w.indent w.depth else [])))),
      depth := w.depth - 1, awaiting := false } := by
  simp only [Writer.stop]
  by_cases hi : w.indent = []
  · simp [Writer.write_raw, Writer.put, WArg.str', Tok.str, hi, h]
  · simp [Writer.newline_raw, Writer.write_raw, Writer.put, WArg.str', Tok.str, hi, h]

theorem Writer.text_raw {w : Writer} (h : w.ns = none) (s) : w.text s = w.put (escape s) := by
  simp [Writer.text, Writer.write_raw h, WArg.str']

/-- What an unindented call writes. -/
def Call.plain : Call → Str
  | .start n as e => startTag n as e
  | .text s => escape s
  | .stop n => '<' :: '/' :: (n ++ ['>'])

theorem Writer.call_plain {w : Writer} (h : w.ns = none) (hi : w.indent = []) (c : Call) :
    ∃ w', w.call c = some w' ∧ w'.ns = none ∧ w'.indent = [] ∧ w'.out = w.out ++ c.plain := by
  cases c with
  | start n as e =>
    refine ⟨_, Writer.start_raw h n as e, ?_⟩
    simp [h, hi, Call.plain]
  | text s => exact ⟨_, rfl, by simp [Writer.text_raw h, h], by simp [Writer.text_raw h, hi],
      by simp [Writer.text_raw h, Call.plain]⟩
  | stop n => exact ⟨_, rfl, by simp [Writer.stop_raw h, h], by simp [Writer.stop_raw h, hi],
      by simp [Writer.stop_raw h, Call.plain, hi]⟩

theorem Writer.calls_plain {w : Writer} (h : w.ns = none) (hi : w.indent = []) (cs : List Call) :
    ∃ w', w.calls cs = some w' ∧ w'.ns = none ∧ w'.indent = [] ∧ w'.out = w.out ++ cs.flatMap Call.plain := by
  induction cs generalizing w with
  | nil => exact ⟨w, rfl, h, hi, by simp⟩
  | cons c cs ih =>
    obtain ⟨w1, h1, h2, h3, h4⟩ := Writer.call_plain h hi c
    obtain ⟨w2, g1, g2, g3, g4⟩ := ih h2 h3
    exact ⟨w2, by simp [Writer.calls, h1, g1], g2, g3, by simp [g4, h4]⟩

theorem rawText_plain (d : Int) (cs : List Call) : rawText [] d cs = some (cs.flatMap Call.plain) := by
  obtain ⟨w, h1, _, _, h4⟩ := Writer.calls_plain (w := Writer.raw [] d) rfl rfl cs
  rw [rawText, h1, Option.map_some, h4]; rfl

theorem calls_append (w : Writer) (a b : List Call) :
    w.calls (a ++ b) = (w.calls a).bind fun w' => w'.calls b := by
  induction a generalizing w with
  | nil => rfl
  | cons c a ih =>
    simp only [List.cons_append, Writer.calls]
    cases w.call c with
    | none => rfl
    | some w' => simp [ih]

/-- Writing an element is making its calls. -/
theorem writeElem_calls : ∀ e : Node, (∀ n as cs, e = .elem n as cs → ∀ w : Writer, w.writeElem e = w.calls e.calls) := by
  have key : (∀ e : Node, ∀ n as cs, e = .elem n as cs → ∀ w : Writer, w.writeElem e = w.calls e.calls) ∧
      (∀ es : List Node, ∀ w : Writer, w.writeChildren es = w.calls (Node.callsList es)) := by
    apply Node.induct
    case elem =>
      intro n as cs ih n' as' cs' he w
      cases he
      simp only [Writer.writeElem, Node.calls, Writer.calls, Writer.call]
      cases w.start n as false with
      | none => rfl
      | some w' =>
        simp only [Option.bind_some, ih, calls_append]
        cases w'.calls (Node.callsList cs) with
        | none => rfl
        | some w'' => simp [Writer.calls, Writer.call]
    case text => intro s n as cs h; cases h
    case nil => intro w; rfl
    case cons =>
      intro x r ih1 ih2 w
      cases x with
      | elem n as cs =>
        rw [Writer.writeChildren, ih1 n as cs rfl, Node.callsList, calls_append]
        congr 1; funext w'; rw [ih2]
      | text s =>
        rw [Writer.writeChildren, ih2, Node.callsList, calls_append]
        rfl
  exact key.1

theorem plain_calls : (∀ e : Node, ∀ n as cs, e = .elem n as cs → e.calls.flatMap Call.plain = e.encode) ∧
    (∀ es : List Node, (Node.callsList es).flatMap Call.plain = Node.encodeChildren [] 0 es) := by
  have depth : (∀ e : Node, ∀ d, e.encodeI [] d = e.encodeI [] 0) ∧
      (∀ es : List Node, ∀ d, Node.encodeChildren [] d es = Node.encodeChildren [] 0 es) := by
    apply Node.induct
    case elem =>
      intro n as cs ih d
      simp only [Node.encodeI, ih d, indentRun, if_true]
    case text => intro s d; rfl
    case nil => intro d; rfl
    case cons =>
      intro x r ih1 ih2 d
      cases x with
      | elem n as cs =>
        rw [Node.encodeChildren, Node.encodeChildren, ih1 (d + 1), ih1 (0 + 1), ih2 d]
        simp [indentRun]
      | text s => rw [Node.encodeChildren, Node.encodeChildren, ih2]
  apply Node.induct
  case elem =>
    intro n as cs ih n' as' cs' he
    simp only [Node.calls, List.flatMap_cons, List.flatMap_append, ih, Node.encode, Node.encodeI]
    simp [Call.plain, startTag, indentRun]
  case text => intro s n as cs h; cases h
  case nil => rfl
  case cons =>
    intro x r ih1 ih2
    cases x with
    | elem n as cs =>
      rw [Node.callsList, List.flatMap_append, ih1 n as cs rfl, ih2, Node.encodeChildren, depth.1 _ 1]
      simp [indentRun, Node.encode]
    | text s =>
      rw [Node.callsList, List.flatMap_append, ih2, Node.encodeChildren]
      simp [Node.calls, Call.plain]


/-! ### C28 -/

/-- C28: writing an element with a raw writer writes exactly its serialisation, after whatever was
written before. -/
theorem C28_writer_is_xml_encode (w : Writer) (hr : w.ns = none) (hi : w.indent = []) (e : Node)
    (he : e.isText = false) : (w.writeElem e).map Writer.out = some (w.out ++ e.encode) := by
  cases e with
  | text s => cases he
  | elem n as cs =>
    rw [writeElem_calls _ n as cs rfl]
    obtain ⟨w', h1, _, _, h4⟩ := Writer.calls_plain hr hi (Node.calls (.elem n as cs))
    rw [h1, Option.map_some, h4, plain_calls.1 _ n as cs rfl]

/-- C28 for a new writer: `writer.write(e, writer.raw(fp))`. -/
theorem C28_new_writer (e : Node) (he : e.isText = false) :
    ((Writer.raw [] 0).writeElem e).map Writer.out = some e.encode :=
  C28_writer_is_xml_encode _ rfl rfl e he

example : ((Writer.raw [] 0).writeElem exWritable).map Writer.out =
    some "<a x='\"&amp;'>1&lt;2<b></b></a>".toList := by decide

/-! ### C29 and C30 -/

theorem putDecls_eq (w : Writer) (ps : List (Str × Str)) : w.putDecls ps = w.put (declarations ps) := by
  induction ps generalizing w with
  | nil => simp [Writer.putDecls, declarations, Writer.put_nil]
  | cons p r ih =>
    obtain ⟨k, v⟩ := p
    rw [Writer.putDecls, ih, declarations]
    generalize (if k = [] then "xmlns".toList else "xmlns:".toList ++ k) = x
    simp only [Writer.put_put, Tok.str, List.cons_append, List.nil_append, List.append_assoc]

theorem putPrefix_put (w : Writer) (m : List (Str × Str)) (key name : Str) :
    (w.putPrefix ((Attrs.get m key).getD [])).put name = w.put (prefixed m key name) := by
  unfold prefixed
  cases Attrs.get m key with
  | none => simp [Writer.putPrefix]
  | some p =>
    by_cases hp : p = []
    · simp [Writer.putPrefix, hp]
    · simp [Writer.putPrefix, hp, Writer.put_put]

/-- Attribute names with their prefixes. -/
def prefixedAttrs (m : List (Str × Str)) (as : Attrs) : Attrs :=
  as.map fun p => (prefixed m ('@' :: p.1) p.1, p.2)

theorem write_name {w : Writer} {ns : Ns} (h : w.ns = some ns) (n : Str) :
    w.write .elementName (.str n) = w.put (prefixed ns.mapping n n) := by
  simp [Writer.write, h, WArg.str', Ns.prefixOf, putPrefix_put]

theorem write_attrName {w : Writer} {ns : Ns} (h : w.ns = some ns) (n : Str) :
    w.write .attributeName (.str n) = w.put (prefixed ns.mapping ('@' :: n) n) := by
  simp [Writer.write, h, WArg.str', Ns.prefixOf, putPrefix_put]

theorem write_quiet {w : Writer} {ns : Ns} (h : w.ns = some ns)
    (hq : ns.firstElement = false ∨ ns.nsHandled = true) (t : Tok) :
    w.write .startElement (.tok t) = w.put t.str := by
  have : ¬ (ns.firstElement = true ∧ (WArg.tok t = .tok .preAttr ∨ WArg.tok t = .tok .startClose) ∧
      ns.nsHandled = false) := by
    rcases hq with h | h <;> simp [h]
  simp only [Writer.write, h, reduceCtorEq, if_false, if_true, this, WArg.str']

theorem write_other {w : Writer} {ns : Ns} (h : w.ns = some ns) (t : Tok) (h1 : t ≠ .preAttr) (h2 : t ≠ .startClose) :
    w.write .startElement (.tok t) = w.put t.str := by
  simp [Writer.write, h, h1, h2, WArg.str']

theorem write_attrText {w : Writer} {ns : Ns} (h : w.ns = some ns) (s : Str) :
    w.write .attributeText (.str s) = w.put s := by
  simp [Writer.write, h, WArg.str']

theorem write_end {w : Writer} {ns : Ns} (h : w.ns = some ns) (t : Tok) :
    w.write .endElement (.tok t) = w.put t.str := by
  simp [Writer.write, h, WArg.str']

/-- The point where the declarations go. -/
theorem write_decls {w : Writer} {ns : Ns} (h : w.ns = some ns) (h1 : ns.firstElement = true)
    (h2 : ns.nsHandled = false) (t : Tok) (ht : t = .preAttr ∨ t = .startClose) :
    w.write .startElement (.tok t) =
      { (w.put (declarations ns.prefixes ++ t.str)) with ns := some { ns with nsHandled := true } } := by
  have : ns.firstElement = true ∧ (WArg.tok t = .tok .preAttr ∨ WArg.tok t = .tok .startClose) ∧
      ns.nsHandled = false := ⟨h1, by simpa using ht, h2⟩
  simp only [Writer.write, h, reduceCtorEq, if_false, if_true, this, and_self, WArg.str', putDecls_eq]
  simp [Writer.put]

theorem attrs_quiet {w : Writer} {ns : Ns} (h : w.ns = some ns)
    (hq : ns.firstElement = false ∨ ns.nsHandled = true) (first : Bool) (as : Attrs) :
    w.attrs first as = w.put (encodeAttrs (prefixedAttrs ns.mapping as)) := by
  induction as generalizing w first with
  | nil => simp [Writer.attrs, encodeAttrs, prefixedAttrs, Writer.put_nil]
  | cons p r ih =>
    obtain ⟨k, v⟩ := p
    have ht : (if first then Tok.preAttr else Tok.betweenAttr).str = [' '] := by
      cases first <;> rfl
    rw [Writer.attrs, write_quiet h hq, write_attrName (ns := ns) (by simpa using h),
      write_quiet (ns := ns) (by simpa using h) hq, write_attrText (ns := ns) (by simpa using h),
      ih (by simpa using h), ht]
    simp [Writer.put_put, prefixedAttrs, encodeAttrs, Tok.str]

/-- A start call of a namespacer, not the first one. -/
theorem nsStart_later {w : Writer} {ns : Ns} (h : w.ns = some ns) (hf : ns.firstElement = false)
    (hi : w.indent = []) (n as) :
    ∃ w', w.start n as false = some w' ∧ w'.indent = [] ∧
      w'.out = w.out ++ (Call.prefixed ns.mapping (.start n as false)).plain ∧
      ∃ b, w'.ns = some { ns with firstElement := false, nsHandled := b } := by
  refine ⟨_, by simp only [Writer.start, h]; rfl, ?_⟩
  simp only [Writer.rawStart, hi, ne_eq, not_true_eq_false, and_false, if_false, Bool.false_eq_true]
  rw [write_quiet (ns := { ns with nsHandled := false }) rfl (.inl hf) .startOpen,
    write_name (ns := { ns with nsHandled := false }) rfl,
    attrs_quiet (ns := { ns with nsHandled := false }) rfl (.inl hf),
    write_quiet (ns := { ns with nsHandled := false }) rfl (.inl hf) .startClose]
  refine ⟨rfl, ?_, false, by simp [Writer.put, hf]⟩
  simp [Call.prefixed, Call.plain, startTag, Tok.str, prefixedAttrs]

/-- The first start call of a namespacer. -/
theorem nsStart_first {w : Writer} {ns : Ns} (h : w.ns = some ns) (hf : ns.firstElement = true)
    (hi : w.indent = []) (n as) :
    ∃ w', w.start n as false = some w' ∧ w'.indent = [] ∧
      w'.out = w.out ++ ('<' :: (prefixed ns.mapping n n ++ (declarations ns.prefixes ++
        (encodeAttrs (prefixedAttrs ns.mapping as) ++ ['>'])))) ∧
      ∃ b, w'.ns = some { ns with firstElement := false, nsHandled := b } := by
  refine ⟨_, by simp only [Writer.start, h]; rfl, ?_⟩
  simp only [Writer.rawStart, hi, ne_eq, not_true_eq_false, and_false, if_false, Bool.false_eq_true]
  rw [write_other (ns := { ns with nsHandled := false }) rfl .startOpen (by decide) (by decide),
    write_name (ns := { ns with nsHandled := false }) rfl]
  cases as with
  | nil =>
    rw [Writer.attrs, write_decls (ns := { ns with nsHandled := false }) rfl hf rfl _ (.inr rfl)]
    refine ⟨rfl, ?_, true, rfl⟩
    simp [Tok.str, prefixedAttrs, encodeAttrs]
  | cons p r =>
    obtain ⟨k, v⟩ := p
    rw [Writer.attrs, if_pos rfl, write_decls (ns := { ns with nsHandled := false }) rfl hf rfl _ (.inl rfl),
      write_attrName (ns := { ns with nsHandled := true }) rfl,
      write_quiet (ns := { ns with nsHandled := true }) rfl (.inr rfl) .attrEquals,
      write_attrText (ns := { ns with nsHandled := true }) rfl,
      attrs_quiet (ns := { ns with nsHandled := true }) rfl (.inr rfl),
      write_quiet (ns := { ns with nsHandled := true }) rfl (.inr rfl) .startClose]
    refine ⟨rfl, ?_, true, rfl⟩
    simp [Tok.str, prefixedAttrs, encodeAttrs]

theorem nsStop {w : Writer} {ns : Ns} (h : w.ns = some ns) (hi : w.indent = []) (n) :
    (w.stop n).indent = [] ∧ (w.stop n).ns = some ns ∧
      (w.stop n).out = w.out ++ (Call.prefixed ns.mapping (.stop n)).plain := by
  simp only [Writer.stop]
  rw [write_end h, write_name (ns := ns) (by simpa using h), write_end (ns := ns) (by simpa using h)]
  simp [hi, h, Call.prefixed, Call.plain, Tok.str]

theorem nsTextCall {w : Writer} {ns : Ns} (h : w.ns = some ns) (s) : w.text s = w.put (escape s) := by
  simp [Writer.text, Writer.write, h, WArg.str']

/-- Any calls after the first start. -/
theorem nsCalls_later {w : Writer} {ns : Ns} (h : w.ns = some ns) (hf : ns.firstElement = false)
    (hi : w.indent = []) (cs : List Call) (hne : NoEmpty cs) :
    ∃ w', w.calls cs = some w' ∧ w'.out = w.out ++ (cs.map (Call.prefixed ns.mapping)).flatMap Call.plain := by
  induction cs generalizing w ns with
  | nil => exact ⟨w, rfl, by simp⟩
  | cons c cs ih =>
    have hne' : NoEmpty cs := fun n as hm => hne n as (List.mem_cons_of_mem _ hm)
    cases c with
    | start n as e =>
      cases e with
      | true => exact absurd (List.mem_cons_self) (hne n as)
      | false =>
        obtain ⟨w1, h1, h2, h3, b, h4⟩ := nsStart_later h hf hi n as
        obtain ⟨w2, g1, g2⟩ := ih h4 rfl h2 hne'
        exact ⟨w2, by simp [Writer.calls, Writer.call, h1, g1], by simp [g2, h3]⟩
    | text s =>
      obtain ⟨w2, g1, g2⟩ := ih (w := w.put (escape s)) h hf hi hne'
      refine ⟨w2, by simp [Writer.calls, Writer.call, nsTextCall h, g1], ?_⟩
      simp [g2, Call.prefixed, Call.plain]
    | stop n =>
      obtain ⟨h1, h2, h3⟩ := nsStop h hi n
      obtain ⟨w2, g1, g2⟩ := ih (w := w.stop n) h2 hf h1 hne'
      exact ⟨w2, by simp [Writer.calls, Writer.call, g1], by simp [g2, h3]⟩

/-- Calls before any start. -/
theorem nsCalls_before {w : Writer} {ns : Ns} (h : w.ns = some ns)
    (hi : w.indent = []) (cs : List Call) (hns : ∀ c ∈ cs, c.isStart = false) :
    ∃ w', w.calls cs = some w' ∧ w'.ns = some ns ∧ w'.indent = [] ∧
      w'.out = w.out ++ (cs.map (Call.prefixed ns.mapping)).flatMap Call.plain := by
  induction cs generalizing w with
  | nil => exact ⟨w, rfl, h, hi, by simp⟩
  | cons c cs ih =>
    have hne' : ∀ c ∈ cs, c.isStart = false := fun n hm => hns n (List.mem_cons_of_mem _ hm)
    cases c with
    | start n as e => exact absurd (hns _ (List.mem_cons_self)) (by simp [Call.isStart])
    | text s =>
      obtain ⟨w2, g1, g2, g3, g4⟩ := ih (w := w.put (escape s)) h hi hne'
      refine ⟨w2, by simp [Writer.calls, Writer.call, nsTextCall h, g1], g2, g3, ?_⟩
      simp [g4, Call.prefixed, Call.plain]
    | stop n =>
      obtain ⟨h1, h2, h3⟩ := nsStop h hi n
      obtain ⟨w2, g1, g2, g3, g4⟩ := ih (w := w.stop n) h2 h1 hne'
      exact ⟨w2, by simp [Writer.calls, Writer.call, g1], g2, g3, by simp [g4, h3]⟩

/-- C30: for every call sequence (a `namespacer` has no `empty` parameter), let `n` be the name of the
first element started. What `raw` writes for the same calls with prefixed names is
`before ++ "<" ++ name ++ after`, and what the namespacer writes is `before ++ "<" ++ name ++ declarations ++
after`. -/
theorem C30_declarations_once (prefixes mapping : List (Str × Str)) (pre : List Call) (n : Str) (as : Attrs)
    (post : List Call) (hpre : ∀ c ∈ pre, c.isStart = false) (hpost : NoEmpty post) :
    ∃ before after,
      rawText [] 0 (pre.map (Call.prefixed mapping)) = some before ∧
      rawText [] 0 ((pre ++ .start n as false :: post).map (Call.prefixed mapping)) =
        some (before ++ '<' :: (prefixed mapping n n ++ after)) ∧
      nsText prefixes mapping (pre ++ .start n as false :: post) =
        some (before ++ '<' :: (prefixed mapping n n ++ (declarations prefixes ++ after))) := by
  refine ⟨(pre.map (Call.prefixed mapping)).flatMap Call.plain,
    encodeAttrs (prefixedAttrs mapping as) ++ '>' :: (post.map (Call.prefixed mapping)).flatMap Call.plain,
    rawText_plain 0 _, ?_, ?_⟩
  · rw [rawText_plain]
    simp [Call.plain, Call.prefixed, startTag, prefixedAttrs]
  · obtain ⟨w1, h1, h2, h3, h4⟩ := nsCalls_before (w := Writer.namespacer prefixes mapping) rfl rfl pre hpre
    obtain ⟨w2, g1, g2, g3, b, g4⟩ := nsStart_first h2 rfl h3 n as
    obtain ⟨w3, k1, k2⟩ := nsCalls_later g4 rfl g2 post hpost
    rw [nsText, calls_append, h1]
    simp only [Option.bind_some, Writer.calls, Writer.call, g1, k1, Option.map_some, k2, g3, h4,
      Writer.namespacer]
    simp

/-- C30, no element started: no declarations. -/
theorem C30_no_element (prefixes mapping : List (Str × Str)) (cs : List Call)
    (hcs : ∀ c ∈ cs, c.isStart = false) :
    nsText prefixes mapping cs = rawText [] 0 (cs.map (Call.prefixed mapping)) := by
  obtain ⟨w1, h1, h2, h3, h4⟩ := nsCalls_before (w := Writer.namespacer prefixes mapping) rfl rfl cs hcs
  rw [nsText, h1, rawText_plain, Option.map_some, h4]; rfl

theorem prefixed_nil (key name : Str) : prefixed [] key name = name := rfl

theorem prefixed_nil_call (c : Call) : Call.prefixed [] c = c := by
  cases c <;> simp [Call.prefixed, prefixed_nil]

/-- C29: with no prefixes and no mapping a namespacer writes what raw writes. -/
theorem C29_trivial_namespacer (cs : List Call) (hcs : NoEmpty cs) : nsText [] [] cs = rawText [] 0 cs := by
  have hid : ∀ l : List Call, l.map (Call.prefixed []) = l := fun l => by
    rw [show Call.prefixed [] = id from funext prefixed_nil_call, List.map_id]
  by_cases h : ∀ c ∈ cs, c.isStart = false
  · rw [C30_no_element [] [] cs h, hid]
  · -- split at the first start
    have : ∃ pre n as e post, cs = pre ++ Call.start n as e :: post ∧ ∀ c ∈ pre, c.isStart = false := by
      clear hcs
      induction cs with
      | nil => exact absurd (by simp) h
      | cons c cs ih =>
        cases c with
        | start n as e => exact ⟨[], n, as, e, cs, rfl, by simp⟩
        | text s =>
          obtain ⟨pre, n, as, e, post, h1, h2⟩ := ih (fun hh => h (by
            intro c hc; rcases List.mem_cons.1 hc with rfl | hc
            · rfl
            · exact hh c hc))
          exact ⟨.text s :: pre, n, as, e, post, by simp [h1], by
            intro c hc; rcases List.mem_cons.1 hc with rfl | hc
            · rfl
            · exact h2 c hc⟩
        | stop s =>
          obtain ⟨pre, n, as, e, post, h1, h2⟩ := ih (fun hh => h (by
            intro c hc; rcases List.mem_cons.1 hc with rfl | hc
            · rfl
            · exact hh c hc))
          exact ⟨.stop s :: pre, n, as, e, post, by simp [h1], by
            intro c hc; rcases List.mem_cons.1 hc with rfl | hc
            · rfl
            · exact h2 c hc⟩
    obtain ⟨pre, n, as, e, post, rfl, hpre⟩ := this
    cases e with
    | true => exact absurd (by simp) (hcs n as)
    | false =>
      obtain ⟨b, a, _, h2, h3⟩ := C30_declarations_once [] [] pre n as post hpre
        (fun n as hm => hcs n as (by simp [hm]))
      rw [h3, ← hid (pre ++ _), h2]; rfl

example : nsText [([], "u&".toList), (['p'], ['v'])] [(['b'], ['p']), (['@', 'y'], ['q'])]
    [.start ['a'] [(['x'], ['1'])] false, .start ['b'] [(['y'], ['2'])] false, .stop ['b'], .stop ['a']] =
    some "<a xmlns=\"u&amp;\" xmlns:p=\"v\" x=\"1\"><p:b q:y=\"2\"></p:b></a>".toList := by decide

/-! ### C31 -/

/-- C31: when the calls made on a raw writer are those of an element, parsing what was written delivers
the events of that element (up to merging adjacent text). -/
theorem C31_balanced_calls_parse_back {e : Node} (h : e.Writable) (he : e.isText = false) :
    ∃ w, rawText [] 0 e.calls = some w ∧
      send newParser w true = (e.norm.events [], .returned, .finished) ∧
      ∀ b r b', TreeParse b w r b' → ∃ i, r = .returned (some i) ∧ Rep b'.heap none i e.norm := by
  cases e with
  | text s => cases he
  | elem n as cs =>
    refine ⟨_, rawText_plain _ _, ?_, ?_⟩
    · rw [plain_calls.1 _ n as cs rfl]
      exact (C01_valid_text_delivers_its_events (encode_isDoc h he)).2
    · rw [plain_calls.1 _ n as cs rfl]
      intro b r b' hp
      exact C15_serialise_then_parse h he hp

/-! ### C32 -/

theorem pad_eq (ind : Str) (d : Int) : pad ind d = escape ('\n' :: copies d.toNat ind) := by
  rw [pad, repeatStr_eq, escape_cons, escape_cons, escape_nil, List.append_nil]

theorem depthAfter_snoc (d : Int) (cs : List Call) (c : Call) :
    depthAfter d (cs ++ [c]) = depthAfter d cs +
      (match c with | .start _ _ false => 1 | .stop _ => -1 | _ => 0) := by
  simp only [depthAfter, List.countP_append, List.countP_singleton]
  cases c with
  | start n as e => cases e <;> simp <;> omega
  | text s => simp
  | stop n => simp; omega

theorem justOpened_snoc (cs : List Call) (c : Call) :
    justOpened (cs ++ [c]) = (match c with | .start _ _ e => !e | .stop _ => false | .text _ => justOpened cs) := by
  cases c with
  | start n as e => cases e <;> simp [justOpened]
  | text s => simp [justOpened]
  | stop n => simp [justOpened]

theorem calls_padded {ind : Str} (hind : ind ≠ []) (d : Int) (cs before : List Call) (w : Writer)
    (h1 : w.ns = none) (h2 : w.indent = ind) (h3 : w.depth = depthAfter d before)
    (h4 : w.awaiting = justOpened before) :
    ∃ w', w.calls cs = some w' ∧ w'.out = w.out ++ (padded ind d before cs).flatMap Call.plain ∧
      w'.depth = depthAfter d (before ++ cs) := by
  induction cs generalizing w before with
  | nil => exact ⟨w, rfl, by simp [padded], by simpa using h3⟩
  | cons c cs ih =>
    subst h2
    cases c with
    | start n as e =>
      obtain ⟨w1, k0, k1, k2, k3, k4, k5⟩ : ∃ w1, w.start n as e = some w1 ∧ w1.ns = none ∧ w1.indent = w.indent ∧
          w1.depth = (if e then w.depth else w.depth + 1) ∧
          w1.awaiting = (if e then (if w.indent ≠ [] then false else w.awaiting) else true) ∧
          w1.out = w.out ++ ((if w.awaiting = true ∧ w.indent ≠ [] then pad w.indent w.depth else []) ++
          (startTag n as e ++ (if e = true ∧ w.indent ≠ [] then pad w.indent w.depth else []))) :=
        ⟨_, Writer.start_raw h1 n as e, h1, rfl, rfl, rfl, rfl⟩
      obtain ⟨w', g1, g2, g3⟩ := ih (before ++ [.start n as e]) w1 k1 k2 (by
        rw [depthAfter_snoc, k3, h3]; cases e <;> simp) (by
        rw [justOpened_snoc, k4]; cases e <;> simp [hind])
      refine ⟨w', by rw [Writer.calls, Writer.call, k0]; exact g1, ?_, by simpa using g3⟩
      rw [g2, k5]
      simp only [padded, List.flatMap_append, List.flatMap_cons, Call.plain, pad_eq, h3, h4]
      cases justOpened before <;> cases e <;> simp [hind, Call.plain]
    | text s =>
      obtain ⟨w', g1, g2, g3⟩ := ih (before ++ [.text s]) (w.put (escape s)) h1 rfl
        (by rw [depthAfter_snoc]; simpa using h3) (by rw [justOpened_snoc]; simpa using h4)
      refine ⟨w', by rw [Writer.calls, Writer.call, Writer.text_raw h1]; exact g1, ?_, by simpa using g3⟩
      rw [g2]; simp [padded, Call.plain]
    | stop n =>
      obtain ⟨w', g1, g2, g3⟩ := ih (before ++ [.stop n]) (w.stop n) (by simp [Writer.stop_raw h1, h1])
        (by simp [Writer.stop_raw h1])
        (by rw [depthAfter_snoc, Writer.stop_raw h1]; simp [h3]; omega)
        (by rw [justOpened_snoc, Writer.stop_raw h1])
      refine ⟨w', by rw [Writer.calls, Writer.call]; exact g1, ?_, by simpa using g3⟩
      rw [g2, Writer.stop_raw h1]; simp [padded, Call.plain, pad_eq, hind, h3]

/-- C32: whatever the calls, an indenting writer writes what a plain one writes when the specified
white space texts are added to the calls; its depth afterwards is the number of elements open. -/
theorem C32_indentation_is_added_text (indent : Str) (hi : indent ≠ []) (d : Int) (cs : List Call) :
    rawText indent d cs = rawText [] d (padded indent d [] cs) ∧
    ((Writer.raw indent d).calls cs).map Writer.depth = some (depthAfter d cs) := by
  obtain ⟨w, h1, h2, h3⟩ := calls_padded hi d cs [] (Writer.raw indent d) rfl rfl (by simp [depthAfter, Writer.raw])
    (by simp [justOpened, Writer.raw])
  rw [rawText_plain, rawText, h1]
  exact ⟨by rw [Option.map_some, h2]; rfl, by rw [Option.map_some, h3]; rfl⟩

/-- C32: after the calls of an element the writer is back at the depth it started from. -/
theorem C32_depth_restored (d : Int) (e : Node) (w : Writer) (hn : w.ns = none)
    (hd : w.depth = d) : (w.calls e.calls).map Writer.depth = some d := by
  have call : ∀ (w : Writer), w.ns = none → ∀ c, ∃ w', w.call c = some w' ∧ w'.ns = none ∧
      w'.depth = depthAfter w.depth [c] := by
    intro w h c
    cases c with
    | start n as e => exact ⟨_, Writer.start_raw h n as e, h, by cases e <;> simp [depthAfter]⟩
    | text s => exact ⟨_, rfl, by simp [Writer.text_raw h, h], by simp [Writer.text_raw h, depthAfter]⟩
    | stop n => exact ⟨_, rfl, by simp [Writer.stop_raw h, h], by simp [Writer.stop_raw h, depthAfter]⟩
  have calls : ∀ (cs : List Call) (w : Writer), w.ns = none → ∃ w', w.calls cs = some w' ∧
      w'.depth = depthAfter w.depth cs := by
    intro cs
    induction cs with
    | nil => intro w _; exact ⟨w, rfl, by simp [depthAfter]⟩
    | cons c cs ih =>
      intro w h
      obtain ⟨w1, a1, a2, a3⟩ := call w h c
      obtain ⟨w2, b1, b2⟩ := ih w1 a2
      refine ⟨w2, by simp [Writer.calls, a1, b1], ?_⟩
      rw [b2, a3]
      simp only [depthAfter, List.countP_cons, List.countP_nil]
      cases c with
      | start n as e => cases e <;> simp <;> omega
      | text s => simp
      | stop n => simp; omega
  have bal : (∀ e : Node, ∀ d, depthAfter d e.calls = d) ∧ (∀ es : List Node, ∀ d, depthAfter d (Node.callsList es) = d) := by
    have app : ∀ d a b, depthAfter d (a ++ b) = depthAfter (depthAfter d a) b := by
      intro d a b; simp only [depthAfter, List.countP_append]; omega
    apply Node.induct
    case elem =>
      intro n as cs ih d
      rw [Node.calls, ← List.singleton_append, app, app, ih]
      simp [depthAfter]
    case text => intro s d; simp [Node.calls, depthAfter]
    case nil => intro d; simp [Node.callsList, depthAfter]
    case cons => intro x r h1 h2 d; rw [Node.callsList, app, h1, h2]
  obtain ⟨w', h1, h2⟩ := calls e.calls w hn
  rw [h1, Option.map_some, h2, bal.1, hd]

example : rawText [' '] 0 (Node.calls exWritable) =
    some "<a x='\"&amp;'>1&lt;2\n <b></b>\n  </a>\n ".toList := by decide

end Amara
