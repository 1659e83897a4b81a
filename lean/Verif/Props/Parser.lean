import Verif.Lemmas.Outcome
/-
Properties C01 to C14: the push parser.

Vocabulary: `newParser` is a fresh parser object, `send p frag done` one call of `send`, giving the
events delivered to the handler, the outcome for the caller and the parser afterwards; `sendAll`
several non-final calls, stopping at the first that does not return; `sends` any history of calls.
-/
namespace Amara

/-! ### examples used below -/

/-- `<a x='1'>b&lt;<c></c></a>` -/
def exText : Str := "<a x='1'>b&lt;<c></c></a>".toList
/-- The element it denotes. -/
def exElem : Node :=
  .elem ['a'] [(['x'], ['1'])] [.text ['b', '<'], .elem ['c'] [] []]

theorem exText_isDoc : IsDoc exElem exText := by
  refine ⟨rfl, [], exText, [], by decide, by decide, ?_, by decide⟩
  have h1 : IsContent [.elem ['c'] [] []] "<c></c>".toList :=
    .elem (n := ['c']) (kvs := []) (wa := []) (cs := []) (wc := []) (ns := []) (w := []) (w0 := [])
      (w1 := []) (w2 := []) (w3 := []) (w4 := []) (by decide) .nil .nil .nil (by decide) (by decide)
      (by decide) (by decide) (by decide)
  have h2 : Spells TextLit ['b', '<'] "b&lt;".toList :=
    .lit (by decide) (.named (n := "lt") (by decide) .nil)
  have h3 : IsContent [.text ['b', '<'], .elem ['c'] [] []] ("b&lt;".toList ++ "<c></c>".toList) :=
    .text (by decide) h2 h1 (by decide)
  have h4 : IsAttrs [(['x'], ['1'])] " x='1'".toList :=
    .cons (w1 := [' ']) (w2 := []) (q := '\'') (raw := ['1']) (by decide) (by decide) (by decide)
      (by decide) (by decide) (.lit (by decide) .nil) .nil
  exact .elem (n := ['a']) (w := []) (w0 := []) (w1 := []) (w2 := []) (w3 := []) (w4 := [])
      (by decide) h4 h3 .nil (by decide) (by decide) (by decide) (by decide) (by decide)

/-- `<a> <b>` with both elements open. -/
theorem exOpen : Open [['b'], ['a']]
    [.start ['a'] [] [], .chars [' '], .start ['b'] [] [['a']]] "<a> <b>".toList :=
  .down (w := "<a>".toList) (s := [' ']) (raw := [' ']) (n := ['b']) (kvs := []) (wa := []) (w0 := [])
    (w1 := [])
    (.root (n := ['a']) (kvs := []) (wa := []) (wb := []) (w0 := []) (w1 := []) (by decide) (by decide)
      .nil (by decide) (by decide))
    (.lit (by decide) .nil) (by decide) .nil (by decide) (by decide)

/-! ### C01 -/

/-- A parser that has a complete document: it accepts white space silently and raises on anything
else. -/
def Complete (p : Session) : Prop :=
  ∀ f, (Space f → send p f false = ([], .returned, p)) ∧
    (¬ Space f → send p f false = ([], .raised .runtime, .dead))

theorem complete_of {s : PState} (h1 : s.st = .completeDoc) (h2 : s.rest = []) :
    Complete (.awaiting s) := by
  intro f
  by_cases hf : f = []
  · subst hf
    exact ⟨fun _ => by simp [send], fun h => absurd (by simp [Space]) h⟩
  · have hx := exec_completeDoc (done := false) (s := s.app f) h1 (by simp [PState.app, h2, hf])
    have hr : (s.app f).rest = f := by simp [PState.app, h2]
    rw [hr] at hx
    have hs : { s.app f with rest := [] } = s := by
      obtain ⟨st, rest, pe, gi, at_, stk⟩ := s; simp only at h2; subst h2; rfl
    rw [hs] at hx
    rw [send_awaiting s hf, hx]
    constructor
    · intro h; simp [(dropWs_nil_iff f).2 h]
    · intro h; simp [show dropWs f ≠ [] from fun h' => h ((dropWs_nil_iff f).1 h')]

/-- C01.  Feeding the parser a text `w` that is a MicroXML spelling of the element `e` delivers
exactly the events of `e`, returns, and leaves the document complete; likewise as a final fragment. -/
theorem C01_valid_text_delivers_its_events {e : Node} {w : Str} (h : IsDoc e w) :
    (∃ p, send newParser w false = (e.events [], .returned, p) ∧ Complete p) ∧
    send newParser w true = (e.events [], .returned, .finished) := by
  have hw : w ≠ [] := by
    rintro rfl
    obtain ⟨_, w0, w1, w2, _, _, hc, hw⟩ := h
    have : w1 = [] := by
      have := congrArg List.length hw; simp at this; exact List.length_eq_zero_iff.1 (by omega)
    subst this
    generalize hz : ([] : Str) = z at hc
    cases hc with
    | text h1 h2 h3 h4 =>
      obtain ⟨c, r, hr, _⟩ := spells_head h2 h1
      rw [hr] at hz; cases hz
    | elem => cases hz
  constructor
  · obtain ⟨gi, hx⟩ := exec_doc (done := false) h
    refine ⟨_, by rw [send_new w hw, hx]; rfl, complete_of rfl rfl⟩
  · obtain ⟨gi, hx⟩ := exec_doc (done := true) h
    rw [send_new w hw, hx]; rfl

example : IsDoc exElem exText := exText_isDoc

/-! ### C02 -/

/-- C02, partial: when no fragment boundary lies inside a quoted attribute value, the events, the
outcome and the parser afterwards are those of sending the concatenation in one piece.  The full
statement, without that condition, is false: `C02_full_statement_is_false`. -/
theorem C02_fragmentation_irrelevant_partial (frags : List Str)
    (hcut : ∀ k, k < frags.length → endsInValue (frags.take k).flatten = false) :
    (sendAll newParser frags).1 = (send newParser frags.flatten false).1 ∧
    (sendAll newParser frags).2.1 = (send newParser frags.flatten false).2.1 ∧
    ((sendAll newParser frags).2.1 ≠ .never →
      (sendAll newParser frags).2.2 = (send newParser frags.flatten false).2.2) := by
  obtain ⟨s', h1, h2⟩ := sendAll_eq frags [] [] PState.init (by decide) (by simpa using hcut)
  simp only [List.nil_append] at h1
  change _ = ((sendAll newParser frags).1, s') at h1
  by_cases hf : frags.flatten = []
  · rw [hf] at h1 ⊢
    have h3 : exec false (PState.init.app []) = ([], .paused PState.init) := by decide
    rw [h3] at h1
    obtain ⟨h4, rfl⟩ := Prod.mk.injEq _ _ _ _ ▸ h1
    have h2 : (sendAll newParser frags).2 = (.returned, .awaiting PState.init) := h2
    refine ⟨by rw [← h4]; rfl, by rw [h2]; rfl, fun _ => by rw [h2]; rfl⟩
  · have hs := send_awaiting PState.init hf false
    change send newParser _ _ = _ at hs
    rw [h1] at hs
    cases s' with
    | paused s1 =>
      have h2 : (sendAll newParser frags).2 = (.returned, .awaiting s1) := h2
      rw [hs, h2]; simp
    | raised e =>
      have h2 : (sendAll newParser frags).2 = (.raised e, .dead) := h2
      rw [hs, h2]; simp
    | running s1 =>
      have h2 : (sendAll newParser frags).2.1 = .never := h2
      rw [hs, h2]; simp

/-- A cut in the middle of a tag name and one in a reference: the condition of C02 holds. -/
example : ∀ k, k < ["<ab".toList, "c>&am".toList, "p;</abc>".toList].length →
    endsInValue (["<ab".toList, "c>&am".toList, "p;</abc>".toList].take k).flatten = false := by
  decide

/-- Cutting inside an attribute value: the same text, in one piece and in two. -/
theorem C02_full_statement_is_false :
    ¬ ∀ frags : List Str, (sendAll newParser frags).1 = (send newParser frags.flatten false).1 := by
  intro h
  exact absurd (h ["<a b='x".toList, "y'></a>".toList]) (by decide)

/-! ### C03, C04 -/

/-- C03.  Whatever has been fed, by whatever calls, the events delivered are a prefix of a well-nested
stream with true ancestor lists. -/
theorem C03_events_well_nested (hist : List (Str × Bool)) :
    WellNested (sends newParser hist).1 :=
  SessNest.ne_bad (sends_nest newParser_nest)

/-- C03, continued: a stream that has come to the end of its document element is exactly the
document-order event stream of an element. -/
theorem C03_complete_stream_is_a_tree (hist : List (Str × Bool))
    (h : track (sends newParser hist).1 = .after) :
    ∃ n a cs, (sends newParser hist).1 = Node.events [] (.elem n a cs) := by
  have := track_frames (sends newParser hist).1
  rw [h] at this
  exact this

example : track (sends newParser [("<a><b>".toList, false), ("</b></a>".toList, false)]).1 = .after := by
  decide

/-- C04.  Once the end event of the document element has been delivered, no call delivers anything:
a parser that still takes input accepts white space and raises on anything else. -/
theorem C04_one_document_element (hist : List (Str × Bool))
    (h : track (sends newParser hist).1 = .after) (f : Str) (d : Bool) :
    (send (sends newParser hist).2 f d).1 = [] ∧
    ((∃ s, (sends newParser hist).2 = .awaiting s) →
      (send (sends newParser hist).2 f d).2.1 = if Space f then .returned else .raised .runtime) := by
  have hn := sends_nest (hist := hist) newParser_nest
  have hr := sends_rest (hist := hist) (p := newParser) (by intro h; cases h)
  change SessNest _ (track _) at hn
  rw [h] at hn
  revert hn hr
  have key : ∀ s : PState, NestInv s .after → s.st = .completeDoc := by
    intro s hs
    have := hs.trk
    simp only [PState.trk] at this
    split at this
    · assumption
    · split at this <;> cases this
  cases (sends newParser hist).2 with
  | awaiting s =>
    intro hr hn
    have hc := key s hn
    have hrest := hr hc
    by_cases hf : f = []
    · subst hf; simp [send, Space]
    · have hx := exec_completeDoc (done := d) (s := s.app f) hc (by simp [PState.app, hf])
      have hr : (s.app f).rest = f := by simp [PState.app, hrest]
      rw [hr] at hx
      rw [send_awaiting s hf, hx]
      by_cases hsp : Space f
      · simp [(dropWs_nil_iff f).2 hsp, hsp]
      · simp [show dropWs f ≠ [] from fun h' => hsp ((dropWs_nil_iff f).1 h'), hsp]
  | finished => intro _ _; exact ⟨rfl, by rintro ⟨s, hs⟩; cases hs⟩
  | dead => intro _ _; exact ⟨rfl, by rintro ⟨s, hs⟩; cases hs⟩
  | hung s => intro _ _; exact ⟨rfl, by rintro ⟨s, hs⟩; cases hs⟩

/-! ### C05, C06 -/

/-- The outcome `never` means what it says: the call is still running after any number of steps. -/
theorem C05_never_means_never (s : PState) {frag : Str} (hf : frag ≠ []) (done : Bool) :
    (send (.awaiting s) frag done).2.1 = .never ↔
      ∀ n, ∃ s', (run done n { s with rest := s.rest ++ frag }).2 = .running s' :=
  send_never s hf done

/-- C05.  A sequence of non-final calls comes to one that does not return exactly when the first
character fed that is not white space is not '<'. -/
theorem C05_nonfinal_never_returns_iff (frags : List Str) :
    (sendAll newParser frags).2.1 = .never ↔
      ∃ w c r, frags.flatten = w ++ c :: r ∧ Space w ∧ ¬ Space [c] ∧ c ≠ '<' := by
  have := sendAll_never_iff frags PState.init [] (.inl ⟨rfl, rfl, rfl⟩)
  rw [List.nil_append] at this
  exact this.trans (startsBadly_iff frags.flatten).symm

example : (sendAll newParser [" ".toList, "x".toList, "<a>".toList]).2.1 = .never := by decide
example : (sendAll newParser [" ".toList, "<a".toList, ">x<".toList]).2.1 = .returned := by decide

/-- C06 in general: a final fragment raises, or does not return, whenever the same non-final fragment
does; otherwise, unless the parser is left inside an attribute specification, it returns if the
parser is left at the end of a tag or of the document, and never returns if not. -/
theorem C06_final_vs_nonfinal (w : Str) (hw : w ≠ []) :
    (∀ evs e p, send newParser w false = (evs, .raised e, p) →
      (send newParser w true).1 = evs ∧ (send newParser w true).2.1 = .raised e) ∧
    (∀ evs p, send newParser w false = (evs, .never, p) →
      (send newParser w true).1 = evs ∧ (send newParser w true).2.1 = .never) ∧
    (∀ evs s, send newParser w false = (evs, .returned, .awaiting s) → s.st ≠ .attribute →
      (send newParser w true).1 = evs ∧ (send newParser w true).2.1 =
        if s.st = .completeDoc ∨ (s.st = .inElement ∧ s.rest = []) then .returned else .never) := by
  have hf := exec_final { PState.init with rest := w } (by simp [PState.init])
  rw [send_new w hw, send_new w hw]
  cases hx : exec false { PState.init with rest := w } with
  | mk E o =>
    cases o with
    | paused s' =>
      refine ⟨by simp, by simp, ?_⟩
      simp only [Bool.false_eq_true, if_false, Prod.mk.injEq, Session.awaiting.injEq, true_and]
      rintro _ _ ⟨rfl, rfl⟩ ha
      rw [hf.2.2 _ _ hx ha]
      by_cases hc : s'.closed
      · rw [if_pos hc]; exact ⟨rfl, (if_pos hc).symm⟩
      · rw [if_neg hc]; exact ⟨rfl, (if_neg hc).symm⟩
    | raised e =>
      refine ⟨?_, by simp, by simp⟩
      rintro evs e' p h
      simp only [Prod.mk.injEq, SendRes.raised.injEq] at h
      obtain ⟨rfl, rfl, -⟩ := h
      rw [hf.1 _ _ hx]; simp
    | running s' =>
      refine ⟨by simp, ?_, by simp⟩
      rintro evs p h
      simp only [Prod.mk.injEq, true_and] at h
      obtain ⟨rfl, -⟩ := h
      rw [hf.2.1 _ _ hx]; simp

/-- C06: a final text that ends inside a tag (but not inside an attribute value or just after an '=')
never returns. -/
theorem C06_final_in_tag_never_returns {stk evs w p} (h : TagAt stk evs w) (hp : PartialTag p) :
    (send newParser (w ++ p) true).1 = evs ∧ (send newParser (w ++ p) true).2.1 = .never := by
  obtain ⟨pe, gi, r0⟩ := reach_tagAt (done := true) h p
  obtain ⟨s', r1, hs'⟩ := stuck_partialTag hp pe gi stk
  have hx := exec_stuck (r0.trans r1) hs'
  have hw : w ++ p ≠ [] := by cases h <;> simp
  rw [send_new _ hw, hx]; simp

example : TagAt [['b'], ['a']] ([.start ['a'] [] [], .chars [' '], .start ['b'] [] [['a']]] ++ [])
    ("<a> <b>".toList ++ ([] ++ ['<'])) := .inside exOpen .nil
example : PartialTag "/ab ".toList :=
  .endName (w2 := []) (w3 := []) (n := ['a', 'b']) (w4 := [' ']) (by decide) (by decide) (by decide)
    (by decide)

/-- C06: a final text that ends inside text content, possibly inside a reference, never returns, and
the text is not delivered. -/
theorem C06_final_in_text_never_returns {stk evs w s raw r} (h : Open stk evs w)
    (hs : Spells TextLit s raw) (hr : r = [] ∨ PartialRef r) (hne : raw ++ r ≠ []) :
    (send newParser (w ++ (raw ++ r)) true).1 = evs ∧
    (send newParser (w ++ (raw ++ r)) true).2.1 = .never := by
  obtain ⟨c, t, hc⟩ : ∃ c t, raw ++ r = c :: t := by
    cases hh : raw ++ r; exact absurd hh hne; exact ⟨_, _, rfl⟩
  obtain ⟨pe, gi, r0⟩ := reach_open (done := true) h c t
  rw [← hc] at r0
  have hx := exec_stuck r0 (by
    simp only [step, stepInElement, cdata_run_more hs hr, wait, if_true])
  rw [send_new _ (by simp [hne]), hx]; simp

/-- C06: a final text of white space only never returns. -/
theorem C06_final_space_never_returns {w : Str} (hw : Space w) (hne : w ≠ []) :
    (send newParser w true).1 = [] ∧ (send newParser w true).2.1 = .never := by
  have hd := (dropWs_nil_iff w).2 hw
  have s1 : step true { PState.init with rest := w } = .cont PState.init [] := by
    simp [step, stepPreElement, PState.init, hd, wait]
  have s2 : step true PState.init = .cont PState.init [] := by decide
  have hx := exec_stuck (.one s1) s2
  rw [send_new _ hne, hx]; simp

/-- C06: a final text that ends just after a tag returns, although elements are still open. -/
theorem C06_final_after_tag_returns {stk evs w} (h : Open stk evs w) :
    send newParser w true = (evs, .returned, .finished) := by
  obtain ⟨pe, gi, hx⟩ := exec_open (done := true) h
  rw [send_new _ h.ne_nil.2, hx]; rfl

/-! ### C07 -/

/-- C07, bad references in text: unknown name, missing or illegal number: the parser raises and the
run of text is not delivered.  (That good references decode to the character they denote is part of
C01.) -/
theorem C07_bad_reference_in_text_raises {stk evs w s raw b} (h : Open stk evs w)
    (hs : Spells TextLit s raw) (hb : BadRef b) :
    ∃ e, send newParser (w ++ (raw ++ b)) false = (evs, .raised e, .dead) := by
  obtain ⟨e, he⟩ := cdata_badRef (pat := isDataChar) (stop := '<') hb (by decide) (by decide)
  obtain ⟨c, t, hc⟩ : ∃ c t, raw ++ b = c :: t := by
    cases hh : raw ++ b
    · cases hb <;> simp at hh
    · exact ⟨_, _, rfl⟩
  obtain ⟨pe, gi, r0⟩ := reach_open (done := false) h c t
  rw [← hc] at r0
  refine ⟨e, ?_⟩
  rw [send_new _ (by simp [h.ne_nil.2]), exec_reach r0, exec_fail (e := e)]
  · simp
  · simp only [step, stepInElement, cdata_text_pre hs, he, CRes.pushAll_fail]

/-- C07, bad references in an attribute value: the parser raises and the start tag is not delivered. -/
theorem C07_bad_reference_in_attribute_raises {stk evs w n kvs wa w0 w1 k w2 q s raw b}
    (h : TagAt stk evs w) (hw0 : Space w0) (hn : IsName n) (ha : IsAttrs kvs wa) (hw1 : w1 ≠ [])
    (hw1' : Space w1) (hk : IsName k) (hw2 : Space w2) (hq : q = '"' ∨ q = '\'')
    (hs : Spells (AttrLit q) s raw) (hb : BadRef b) :
    ∃ e, send newParser (w ++ (w0 ++ (n ++ (wa ++ (w1 ++ (k ++ (w2 ++ '=' :: q :: (raw ++ b)))))))) false =
      (evs, .raised e, .dead) := by
  obtain ⟨e, he⟩ := cdata_badRef (pat := attrPat q) (stop := q) hb
    (by rcases hq with rfl | rfl <;> decide) (by rcases hq with rfl | rfl <;> decide)
  have r0 := reach_attrValue (done := false) (q := q) h hw0 hn ha hw1 hw1' hk (w2 := w2) (raw ++ b)
  refine ⟨e, ?_⟩
  rw [send_new _ (by cases h <;> simp), exec_reach r0, exec_fail (e := e)]
  · simp
  · rw [step_attrValue hk hw2 hq, cdata_attr_pre hq hs, he, CRes.pushAll_fail]

/-- `&nbsp;` and `&#xD800;` are bad; `&lt;` and `&#x3c;` spell '<'. -/
example : BadRef "&nbsp;</b>".toList :=
  .name (n := "nbsp".toList) (t := "</b>".toList) (by decide) (by decide)
example : BadRef "&#xD800;".toList := .number (ds := "D800".toList) (t := []) (by decide) (by decide)
example : Spells TextLit ['<', '<'] "&lt;&#x3c;".toList :=
  .named (n := "lt") (by decide) (.hex (ds := "3c".toList) (by decide) (by decide) (by decide)
    (by decide) .nil)

/-! ### C08 -/

/-- C08.  Every event delivered, whatever is fed, is made of legal characters. -/
theorem C08_only_legal_characters (hist : List (Str × Bool)) :
    ∀ ev ∈ (sends newParser hist).1, LegalEvent ev :=
  sends_legal newParser_legal

/-! ### C09 -/

theorem dead_silent (hist : List (Str × Bool)) : (sends .dead hist).1 = [] := by
  induction hist with
  | nil => rfl
  | cons x hist ih => obtain ⟨f, d⟩ := x; simpa [sends, send] using ih

/-- C09.  An end tag with another name than the innermost open element's: the parser raises, the text
before it is delivered, and nothing else ever. -/
theorem C09_mismatched_end_tag_raises {n stk evs w s raw m w2 w3 w4} (h : Open (n :: stk) evs w)
    (hs : Spells TextLit s raw) (hm : IsName m) (hmn : m ≠ n) (hw2 : Space w2) (hw3 : Space w3)
    (hw4 : Space w4) (t : Str) :
    let text := w ++ (raw ++ '<' :: (w2 ++ '/' :: (w3 ++ (m ++ (w4 ++ '>' :: t)))))
    send newParser text false = (evs ++ textEvents s, .raised .runtime, .dead) ∧
    ∀ hist, (sends newParser ((text, false) :: hist)).1 = evs ++ textEvents s := by
  intro text
  have H : send newParser text false = (evs ++ textEvents s, .raised .runtime, .dead) := by
    obtain ⟨pe, gi, r0⟩ := reach_tagAt (done := false) (TagAt.inside h hs)
      (w2 ++ '/' :: (w3 ++ (m ++ (w4 ++ '>' :: t))))
    have e0 : w ++ (raw ++ ['<']) ++ (w2 ++ '/' :: (w3 ++ (m ++ (w4 ++ '>' :: t)))) = text := by
      simp [text]
    rw [e0] at r0
    obtain ⟨c, r, rfl, hc, hr⟩ := isName_iff.1 hm
    obtain ⟨y, t', hy, hyn⟩ := notNameHead_space hw4 (notNameHead_gt t)
    have htd := takeName_app hr hyn t'
    rw [← hy] at htd
    have s1 : step false ⟨.preTagGi, w2 ++ '/' :: (w3 ++ ((c :: r) ++ (w4 ++ '>' :: t))), pe, gi, [],
        n :: stk⟩ = .cont ⟨.preCompleteTagGi, w3 ++ ((c :: r) ++ (w4 ++ '>' :: t)), true, gi, [],
          n :: stk⟩ [] := by
      simp [step, stepTagGi, dropWs_space_cons hw2 (c := '/') (by decide)]
    have s2 : step false ⟨.preCompleteTagGi, w3 ++ ((c :: r) ++ (w4 ++ '>' :: t)), true, gi, [],
        n :: stk⟩ = .cont ⟨.completeTag, w4 ++ '>' :: t, true, c :: r, [], n :: stk⟩ [] := by
      simp [step, stepTagGi, dropWs_space_cons hw3 (isWs_nameStart hc), hc, htd.1, htd.2]
    have s3 : step false ⟨.completeTag, w4 ++ '>' :: t, true, c :: r, [], n :: stk⟩ =
        .fail .runtime := by
      simp [step, stepCompleteTag, dropWs_space_cons hw4 (c := '>') (by decide), Ne.symm hmn]
    rw [send_new _ (by simp [text, h.ne_nil.2]), exec_reach (r0.trans (.head s1 (.one s2))), exec_fail s3]
    simp
  refine ⟨H, fun hist => ?_⟩
  simp only [sends, H, dead_silent, List.append_nil]

/-- C09, continued: an end tag before any start tag raises (an IndexError). -/
theorem C09_end_tag_without_element_raises {wb m w2 w3 w4} (hwb : Space wb) (hm : IsName m)
    (hw2 : Space w2) (hw3 : Space w3) (hw4 : Space w4) (t : Str) :
    send newParser (wb ++ '<' :: (w2 ++ '/' :: (w3 ++ (m ++ (w4 ++ '>' :: t))))) false =
      ([], .raised .index, .dead) := by
  obtain ⟨pe, gi, r0⟩ := reach_tagAt (done := false) (TagAt.root hwb)
    (w2 ++ '/' :: (w3 ++ (m ++ (w4 ++ '>' :: t))))
  have e0 : wb ++ ['<'] ++ (w2 ++ '/' :: (w3 ++ (m ++ (w4 ++ '>' :: t)))) =
      wb ++ '<' :: (w2 ++ '/' :: (w3 ++ (m ++ (w4 ++ '>' :: t)))) := by simp
  rw [e0] at r0
  obtain ⟨c, r, rfl, hc, hr⟩ := isName_iff.1 hm
  obtain ⟨y, t', hy, hyn⟩ := notNameHead_space hw4 (notNameHead_gt t)
  have htd := takeName_app hr hyn t'
  rw [← hy] at htd
  have s1 : step false ⟨.preTagGi, w2 ++ '/' :: (w3 ++ ((c :: r) ++ (w4 ++ '>' :: t))), pe, gi, [],
      []⟩ = .cont ⟨.preCompleteTagGi, w3 ++ ((c :: r) ++ (w4 ++ '>' :: t)), true, gi, [], []⟩ [] := by
    simp [step, stepTagGi, dropWs_space_cons hw2 (c := '/') (by decide)]
  have s2 : step false ⟨.preCompleteTagGi, w3 ++ ((c :: r) ++ (w4 ++ '>' :: t)), true, gi, [],
      []⟩ = .cont ⟨.completeTag, w4 ++ '>' :: t, true, c :: r, [], []⟩ [] := by
    simp [step, stepTagGi, dropWs_space_cons hw3 (isWs_nameStart hc), hc, htd.1, htd.2]
  have s3 : step false ⟨.completeTag, w4 ++ '>' :: t, true, c :: r, [], []⟩ = .fail .index := by
    simp [step, stepCompleteTag, dropWs_space_cons hw4 (c := '>') (by decide)]
  rw [send_new _ (by simp), exec_reach (r0.trans (.head s1 (.one s2))), exec_fail s3]
  simp

/-! ### C10 -/

theorem TagAt.open {stk evs w n kvs wa w0 w1} (h : TagAt stk evs w) (hn : IsName n)
    (ha : IsAttrs kvs wa) (hw0 : Space w0) (hw1 : Space w1) :
    Open (n :: stk) (evs ++ [.start n (dictOf kvs) stk.reverse])
      (w ++ (w0 ++ (n ++ (wa ++ (w1 ++ ['>']))))) := by
  cases h with
  | root hwb => simpa using Open.root hwb hn ha hw0 hw1
  | inside ho hs => simpa using Open.down ho hs hn ha hw0 hw1

/-- C10.  A start tag with attribute specifications `kvs`, anywhere in a document, is delivered with a
mapping that gives each name the value written last, lists the names in order of first appearance,
and contains nothing else. -/
theorem C10_last_attribute_wins {stk evs w n kvs wa w0 w1} (h : TagAt stk evs w) (hn : IsName n)
    (ha : IsAttrs kvs wa) (hw0 : Space w0) (hw1 : Space w1) :
    ∃ attrs : Attrs,
      (send newParser (w ++ (w0 ++ (n ++ (wa ++ (w1 ++ ['>']))))) false).1 =
        evs ++ [.start n attrs stk.reverse] ∧
      (∀ k, attrs.get k = (kvs.reverse.find? (fun p => p.1 == k)).map (·.2)) ∧
      attrs.map (·.1) = firstNames kvs ∧ (attrs.map (·.1)).Nodup := by
  have ho := TagAt.open h hn ha hw0 hw1
  obtain ⟨pe, gi, hx⟩ := exec_open (done := false) ho
  refine ⟨dictOf kvs, ?_, dictOf_get kvs, ?_, ?_⟩
  · rw [send_new _ ho.ne_nil.2, hx]
  · simp [dictOf, Function.comp_def]
  · have : (dictOf kvs).map (·.1) = firstNames kvs := by simp [dictOf, Function.comp_def]
    rw [this]; exact firstNames_nodup kvs

/-- `x="1" y="2" x="3"` gives x the value 3, in first place. -/
example : dictOf [(['x'], ['1']), (['y'], ['2']), (['x'], ['3'])] = [(['x'], ['3']), (['y'], ['2'])] := by
  decide

/-! ### C11 -/

/-- C11.  Feeding any prefix of a valid document text returns normally and delivers a prefix of the
document's events. -/
theorem C11_truncated_document_is_silent {e : Node} {x y : Str} (h : IsDoc e (x ++ y)) :
    (send newParser x false).1 <+: e.events [] ∧ (send newParser x false).2.1 = .returned := by
  by_cases hx : x = []
  · subst hx; simp [send, newParser]
  obtain ⟨gi, hd⟩ := exec_doc (done := false) h
  have happ : (PState.app { PState.init with rest := x } y) = { PState.init with rest := x ++ y } := rfl
  have hp := exec_prefix { PState.init with rest := x } y
  rw [happ, hd] at hp
  rw [send_new x hx]
  cases hs : exec false { PState.init with rest := x } with
  | mk E o =>
    rw [hs] at hp
    cases o with
    | paused s => exact ⟨hp, rfl⟩
    | raised e' =>
      have := exec_app_raised y hs
      rw [happ, hd] at this
      cases this
    | running s =>
      have := exec_app_running y hs
      rw [happ, hd] at this
      cases this

example : IsDoc exElem ("<a x='1'>b&l".toList ++ "t;<c></c></a>".toList) := exText_isDoc

/-! ### C12 -/

theorem filter_text (u : Str) : u.filter isDataChar = u.filter (fun c => decide (TextLit c)) := by
  congr; funext c
  rw [Bool.eq_iff_iff, isDataChar_iff]; simp

theorem filter_attr {q : Char} (hq : q = '"' ∨ q = '\'') (u : Str) :
    u.filter (attrPat q) = u.filter (fun c => decide (AttrLit q c)) := by
  congr; funext c
  rw [Bool.eq_iff_iff, attrPat_iff hq]; simp

/-- C12, text: a run of input without '&' or '<' inside an element, up to the next tag (here any
start tag without attributes), is delivered with exactly the characters removed that cannot stand for
themselves in text. -/
theorem C12_illegal_text_dropped {stk evs w u n} (h : Open stk evs w)
    (hu : ∀ c ∈ u, c ≠ '&' ∧ c ≠ '<') (hn : IsName n) :
    (send newParser (w ++ (u ++ '<' :: (n ++ ['>']))) false).1 =
      evs ++ textEvents (u.filter (fun c => decide (TextLit c))) ++ [.start n [] stk.reverse] := by
  obtain ⟨c, t, hc⟩ : ∃ c t, u ++ '<' :: (n ++ ['>']) = c :: t := by cases u <;> exact ⟨_, _, rfl⟩
  obtain ⟨pe, gi, r0⟩ := reach_open (done := false) h c t
  rw [← hc] at r0
  obtain ⟨cn, r, rfl, hcn, hr⟩ := isName_iff.1 hn
  have htd := takeName_app hr (x := '>') (by decide) []
  have s1 : step false ⟨.inElement, u ++ '<' :: ((cn :: r) ++ ['>']), pe, gi, [], stk⟩ =
      .cont ⟨.preTagGi, (cn :: r) ++ ['>'], pe, gi, [], stk⟩ (textEvents (u.filter isDataChar)) := by
    simp only [step, stepInElement, cdata_filter (pat := isDataChar) (stop := '<') (by decide) u hu,
      textEvents]
  have s2 : step false ⟨.preTagGi, (cn :: r) ++ ['>'], pe, gi, [], stk⟩ =
      .cont ⟨.completeTag, ['>'], false, cn :: r, [], stk⟩ [] := by
    simp [step, stepTagGi, dropWs_of_notWs (isWs_nameStart hcn), (nameStart_ne hcn).1, hcn, htd.1, htd.2]
  have s3 : step false ⟨.completeTag, ['>'], false, cn :: r, [], stk⟩ =
      .pause ⟨.inElement, [], false, cn :: r, [], (cn :: r) :: stk⟩ [.start (cn :: r) [] stk.reverse] := by
    have h1 : isNameStart '>' = false := by decide
    simp [step, stepCompleteTag, dropWs_of_notWs (c := '>') (by decide), h1]
  rw [send_new _ (by simp), exec_reach (r0.trans (.head s1 (.one s2))), exec_pause s3, filter_text]
  simp

/-- C12, attribute values: between the quotes exactly the characters are removed that cannot stand for
themselves there. -/
theorem C12_illegal_attribute_characters_dropped {stk evs w n kvs wa w0 w1 k w2 q u}
    (h : TagAt stk evs w) (hw0 : Space w0) (hn : IsName n) (ha : IsAttrs kvs wa) (hw1 : w1 ≠ [])
    (hw1' : Space w1) (hk : IsName k) (hw2 : Space w2) (hq : q = '"' ∨ q = '\'')
    (hu : ∀ c ∈ u, c ≠ '&' ∧ c ≠ q) :
    (send newParser (w ++ (w0 ++ (n ++ (wa ++ (w1 ++ (k ++ (w2 ++ '=' :: q :: (u ++ [q, '>'])))))))) false).1 =
      evs ++ [.start n (dictOf (kvs ++ [(k, u.filter (fun c => decide (AttrLit q c)))])) stk.reverse] := by
  have r0 := reach_attrValue (done := false) (q := q) h hw0 hn ha hw1 hw1' hk (w2 := w2) (u ++ [q, '>'])
  have hcd : cdata (attrPat q) q .txt (u ++ q :: ['>']) = .found (u.filter (attrPat q)) ['>'] :=
    cdata_filter (by rcases hq with rfl | rfl <;> decide) u hu _
  have s1 : step false ⟨.attribute, k ++ (w2 ++ '=' :: q :: (u ++ [q, '>'])), false, n, dictOf kvs, stk⟩ =
      .cont ⟨.completeTag, ['>'], false, n, dictOf (kvs ++ [(k, u.filter (attrPat q))]), stk⟩ [] := by
    rw [step_attrValue hk hw2 hq, hcd, dictOf_snoc]
  have s3 : ∀ a : Attrs, step false ⟨.completeTag, ['>'], false, n, a, stk⟩ =
      .pause ⟨.inElement, [], false, n, [], n :: stk⟩ [.start n a stk.reverse] := by
    intro a
    have h1 : isNameStart '>' = false := by decide
    simp [step, stepCompleteTag, dropWs_of_notWs (c := '>') (by decide), h1]
  rw [send_new _ (by cases h <;> simp), exec_reach (r0.trans (.one s1)), exec_pause (s3 _), filter_attr hq]
  simp

/-- A raw '>' and a carriage return vanish from text. -/
example : ("a>b\r".toList.filter (fun c => decide (TextLit c))) = "ab".toList := by decide

/-! ### C13 -/

/-- C13.  On a complete document the iterators yield one `None` and then the events. -/
theorem C13_iterators_yield_the_events {e : Node} {w : Str} (h : IsDoc e w) :
    parseIter w = .items (none :: (e.events []).map some) ∧
    ∀ frags : List Str, frags.flatten = w →
      (∀ k, k < frags.length → endsInValue (frags.take k).flatten = false) →
      parsefragsIter frags = .items (none :: (e.events []).map some) := by
  obtain ⟨⟨p, h1, hp⟩, h2⟩ := C01_valid_text_delivers_its_events h
  constructor
  · simp [parseIter, h2]
  · intro frags hfl hcut
    obtain ⟨h3, h4, h5⟩ := C02_fragmentation_irrelevant_partial frags hcut
    rw [hfl, h1] at h3 h4 h5
    simp only at h3 h4 h5
    have h5 := h5 (by rw [h4]; simp)
    have hpd : send p [] true = ([], .returned, .finished) := by
      have := (hp []).1 (by simp [Space])
      cases p with
      | awaiting s => rfl
      | finished => simp [send] at this
      | dead => simp [send] at this
      | hung s => simp [send] at this
    simp [parsefragsIter, h3, h4, h5, hpd]

/-- C13, continued: if the parser raises on the text, `parse` yields nothing and raises the same. -/
theorem C13_parse_raises (w : Str) (e : Err) (h : (send newParser w true).2.1 = .raised e) :
    parseIter w = .raised (.raised e) := by
  simp [parseIter, h]

/-- C13, continued: if the parser raises on one of the fragments, `parsefrags` yields nothing and raises the same. -/
theorem C13_parsefrags_raises (frags : List Str) (e : Err) (h : (sendAll newParser frags).2.1 = .raised e) :
    parsefragsIter frags = .raised (.raised e) := by
  simp [parsefragsIter, h]

example : (sendAll newParser ["<a>".toList, "</b>".toList]).2.1 = .raised .runtime := by decide +kernel

/-- C13, continued: `parse` yields nothing at all, and does not come back, exactly if the parser runs on for ever on the
text. -/
theorem C13_parse_never {w : Str} (hw : w ≠ []) :
    parseIter w = .never ↔ ∀ n, ∃ s', (run true n { PState.init with rest := w }).2 = .running s' := by
  refine Iff.trans ?_ (C05_never_means_never PState.init hw true)
  show _ ↔ (send newParser w true).2.1 = .never
  unfold parseIter
  generalize send newParser w true = r
  obtain ⟨r1, r2, r3⟩ := r
  cases r2 <;> simp

/-- C13, continued: so it is with a text that ends inside a tag, or after white space only. -/
theorem C13_parse_of_a_cut_text {stk evs w p} (h : TagAt stk evs w) (hp : PartialTag p) : parseIter (w ++ p) = .never := by
  simp [parseIter, (C06_final_in_tag_never_returns h hp).2]

example : parseIter "<a>x<b".toList = .never := by decide +kernel
/-! ### C14 -/

theorem stuck_forever (frags : List Str) : ∀ (x : Str) (pe gi stk),
    (∀ t, cdata isDataChar '<' .txt (x ++ t) = .more) →
    (sendAll (.awaiting ⟨.inElement, x, pe, gi, [], stk⟩) frags).1 = [] ∧
    (sendAll (.awaiting ⟨.inElement, x, pe, gi, [], stk⟩) frags).2.1 = .returned := by
  induction frags with
  | nil => intro x pe gi stk _; simp [sendAll]
  | cons f fs ih =>
    intro x pe gi stk h
    by_cases hf : f = []
    · subst hf; simpa [sendAll, send] using ih x pe gi stk h
    · have hs : step false (PState.app ⟨.inElement, x, pe, gi, [], stk⟩ f) =
          .pause ⟨.inElement, x ++ f, pe, gi, [], stk⟩ [] := by
        simp [step, stepInElement, PState.app, h f, wait]
      have := ih (x ++ f) pe gi stk (fun t => by rw [List.append_assoc]; exact h _)
      simpa [sendAll, send_awaiting _ hf, exec_pause hs] using this

/-- C14.  A malformed reference in text content: nothing is raised, and no event is delivered from
there on, however much is fed. -/
theorem C14_malformed_reference_silences_parser {stk evs w s raw b} (h : Open stk evs w)
    (hs : Spells TextLit s raw) (hb : Malformed b) (frags : List Str) :
    (sendAll newParser ((w ++ (raw ++ b)) :: frags)).1 = evs ∧
    (sendAll newParser ((w ++ (raw ++ b)) :: frags)).2.1 = .returned := by
  have hmore : ∀ t, cdata isDataChar '<' .txt ((raw ++ b) ++ t) = .more := by
    intro t
    rw [List.append_assoc, cdata_text_pre hs, cdata_malformed hb (by decide) (by decide)]; simp
  obtain ⟨c, t, hc⟩ : ∃ c t, raw ++ b = c :: t := by
    cases hh : raw ++ b
    · cases hb <;> simp at hh
    · exact ⟨_, _, rfl⟩
  obtain ⟨pe, gi, r0⟩ := reach_open (done := false) h c t
  rw [← hc] at r0
  have hst : step false ⟨.inElement, raw ++ b, pe, gi, [], stk⟩ =
      .pause ⟨.inElement, raw ++ b, pe, gi, [], stk⟩ [] := by
    have := hmore []
    rw [List.append_nil] at this
    simp [step, stepInElement, this, wait]
  have hsend : send newParser (w ++ (raw ++ b)) false =
      (evs, .returned, .awaiting ⟨.inElement, raw ++ b, pe, gi, [], stk⟩) := by
    rw [send_new _ (by simp [h.ne_nil.2]), exec_reach r0, exec_pause hst]; simp
  have := stuck_forever frags (raw ++ b) pe gi stk hmore
  simp [sendAll, hsend, this.1, this.2]

/-- `&#10;` is malformed in this sense. -/
example : Malformed "&#10;</b>".toList := .number (c := '1') (t := "0;</b>".toList) (by decide)

end Amara
