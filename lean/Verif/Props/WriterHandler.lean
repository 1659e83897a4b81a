import Verif.Spec.WriterHandler
import Verif.Props.Writer
/-
C125: write handlers.
-/
namespace Amara

variable {σ : Type} (f : WHandler σ)

theorem feed_append (st : σ) (ps qs : List Piece) : feed f st (ps ++ qs) = feed f (feed f st ps) qs := by
  simp [feed]

theorem feed_cons (st : σ) (p : Piece) (qs : List Piece) : feed f st (p :: qs) = feed f (f st p.1 p.2) qs := rfl

theorem hattrs_eq : ∀ (as : Attrs) (k : Nat) (w : HWriter σ), w.attrs f (decide (k = 0)) as =
    { w with st := feed f w.st ((as.zipIdx k).flatMap fun p =>
      [(.startElement, .tok (if p.2 = 0 then .preAttr else .betweenAttr)),
        (.attributeName, .str p.1.1), (.startElement, .tok .attrEquals), (.attributeText, .str (quoteattr p.1.2))]) } := by
  intro as
  induction as with
  | nil => intro k w; rfl
  | cons a as ih =>
    intro k w
    obtain ⟨a, v⟩ := a
    rw [HWriter.attrs]
    have := ih (k + 1)
    rw [show decide (k + 1 = 0) = false from by simp] at this
    rw [this]
    simp only [List.zipIdx_cons, List.flatMap_cons, feed_append, feed_cons, HWriter.write, decide_eq_true_eq]
    rfl

theorem hnewline_eq (w : HWriter σ) (hi : w.indent ≠ []) :
    w.newline f = { w with st := feed f w.st (padPieces w.indent w.depth.toNat) } := by
  rw [padPieces, if_neg hi, HWriter.newline, repeatStr_eq]
  rfl

theorem hstart_eq (w : HWriter σ) (n : Str) (as : Attrs) (e : Bool) : w.start f n as e =
    ⟨feed f w.st ((if w.awaiting then padPieces w.indent w.depth.toNat else []) ++ ((Call.start n as e).pieces ++
      if e then padPieces w.indent w.depth.toNat else [])), w.indent, if e then w.depth else w.depth + 1,
      if e then w.awaiting && decide (w.indent = []) else true⟩ := by
  have ha := fun (w : HWriter σ) => hattrs_eq f as 0 w
  simp only [decide_true] at ha
  obtain ⟨st, ind, d, aw⟩ := w
  simp only [HWriter.start, ha, Call.pieces, attrPieces, HWriter.write]
  by_cases hi : ind = []
  · subst hi
    cases e <;> cases aw <;> simp [padPieces, feed]
  · cases e <;> cases aw <;> simp [hi, padPieces, feed, HWriter.newline, HWriter.write, repeatStr_eq]

theorem hstop_eq (w : HWriter σ) (n : Str) : w.stop f n =
    ⟨feed f w.st ((Call.stop n).pieces ++ padPieces w.indent w.depth.toNat), w.indent, w.depth - 1, false⟩ := by
  obtain ⟨st, ind, d, aw⟩ := w
  by_cases hi : ind = []
  · simp [HWriter.stop, HWriter.write, hi, padPieces, Call.pieces, feed]
  · simp [HWriter.stop, HWriter.write, hi, padPieces, Call.pieces, feed, HWriter.newline, repeatStr_eq]

/-- C125: a write handler is given, whatever it does and whatever the calls, exactly the specified pieces in that order,
each with the context that says what it is. -/
theorem C125_pieces (st : σ) (indent : Str) (d : Int) (cs : List Call) :
    ((HWriter.new st indent d).calls f cs).st = feed f st (indentedPieces indent d [] cs) := by
  suffices key : ∀ (cs before : List Call) (w : HWriter σ), w.indent = indent → w.depth = depthAfter d before →
      (indent ≠ [] → w.awaiting = justOpened before) →
      (w.calls f cs).st = feed f w.st (indentedPieces indent d before cs) from
    key cs [] (.new st indent d) rfl (by simp [HWriter.new, depthAfter]) (fun _ => rfl)
  intro cs
  induction cs with
  | nil => intro before w _ _ _; rfl
  | cons c cs ih =>
    intro before w h1 h2 h3
    rw [HWriter.calls]
    have hpad : (if w.awaiting then padPieces w.indent w.depth.toNat else []) =
        if justOpened before then padPieces indent (depthAfter d before).toNat else [] := by
      by_cases hi : indent = []
      · rw [h1]; simp [padPieces, hi]
      · rw [h3 hi, h1, h2]
    cases c with
    | start n as e =>
      rw [HWriter.call, hstart_eq]
      refine (ih (before ++ [.start n as e]) _ (by exact h1) ?_ ?_).trans ?_
      · rw [depthAfter_snoc]; simp only [h2]; cases e <;> simp
      · intro hi
        rw [justOpened_snoc]; cases e <;> simp [h1, hi]
      · simp only [indentedPieces, feed_append]
        rw [hpad, h1, h2]
    | text s =>
      rw [HWriter.call]
      refine (ih (before ++ [.text s]) _ (by exact h1) ?_ ?_).trans ?_
      · rw [depthAfter_snoc, HWriter.write]; simpa using h2
      · intro hi; rw [justOpened_snoc]; exact h3 hi
      · simp only [indentedPieces, feed_append]
        rfl
    | stop n =>
      rw [HWriter.call, hstop_eq]
      refine (ih (before ++ [.stop n]) _ (by exact h1) ?_ ?_).trans ?_
      · rw [depthAfter_snoc]; simp only [h2]; omega
      · intro hi; rw [justOpened_snoc]
      · simp only [indentedPieces, feed_append]
        rw [h1, h2]

/-- Without indentation: the pieces of the calls one after the other. -/
theorem C125_pieces_plain (st : σ) (d : Int) (cs : List Call) :
    ((HWriter.new st [] d).calls f cs).st = feed f st (cs.flatMap Call.pieces) := by
  rw [C125_pieces]
  congr 1
  suffices key : ∀ (cs before : List Call), indentedPieces [] d before cs = cs.flatMap Call.pieces from key cs []
  intro cs
  induction cs with
  | nil => intro before; rfl
  | cons c cs ih =>
    intro before
    cases c with
    | start n as e => cases e <;> simp [indentedPieces, padPieces, ih]
    | text s => simp [indentedPieces, ih]
    | stop n => simp [indentedPieces, padPieces, ih]

/-- The text of a piece, as `raw.write` writes it. -/
def Piece.raw (p : Piece) : Str := if p.1 = .text then escape p.2.str' else p.2.str'

theorem feed_raw : ∀ (ps : List Piece) (w : Writer), w.ns = none →
    (feed (fun w c a => Writer.write w c a) w ps).out = w.out ++ ps.flatMap Piece.raw := by
  intro ps
  induction ps with
  | nil => intro w _; simp [feed]
  | cons p ps ih =>
    intro w hw
    have h1 : w.write p.1 p.2 = w.put p.raw := by
      obtain ⟨c, a⟩ := p
      simp only [Writer.write, hw, Piece.raw]
      by_cases hc : c = .text
      · simp [hc, WArg.str']
      · simp [hc]
    rw [feed_cons, ih (w.write p.1 p.2) (by rw [h1]; exact hw), h1]
    simp [Writer.put]

theorem attrPieces_raw (as : Attrs) : (attrPieces as).flatMap Piece.raw = encodeAttrs as := by
  rw [attrPieces]
  suffices key : ∀ (as : Attrs) (k : Nat), ((as.zipIdx k).flatMap fun p =>
      [((.startElement, .tok (if p.2 = 0 then .preAttr else .betweenAttr)) : Piece),
        (.attributeName, .str p.1.1), (.startElement, .tok .attrEquals), (.attributeText, .str (quoteattr p.1.2))]).flatMap Piece.raw =
      encodeAttrs as from key as 0
  intro as
  induction as with
  | nil => intro k; rfl
  | cons a as ih =>
    intro k
    obtain ⟨a, v⟩ := a
    simp only [List.zipIdx_cons, List.flatMap_cons, List.flatMap_append, ih (k + 1), encodeAttrs, List.flatMap_nil,
      Piece.raw, WArg.str', reduceCtorEq, if_false, List.append_nil, List.append_assoc]
    by_cases hk : k = 0 <;> simp [hk, Tok.str]

theorem pieces_raw (c : Call) : c.pieces.flatMap Piece.raw = c.plain := by
  cases c with
  | start n as e =>
    simp only [Call.pieces, List.flatMap_cons, List.flatMap_append, attrPieces_raw]
    cases e <;> simp [Piece.raw, WArg.str', Tok.str, Call.plain, startTag]
  | text s => simp [Call.pieces, Piece.raw, WArg.str', Call.plain]
  | stop n => simp [Call.pieces, Piece.raw, WArg.str', Tok.str, Call.plain]

/-- C125: a handler that is itself a `raw` writer, `writer.raw(fp, whandler=writer.raw)`, writes what a `raw` writer without
handler writes. -/
theorem C125_raw_as_handler (indent : Str) (d : Int) (cs : List Call) :
    some ((HWriter.new (Writer.raw [] 0) indent d).calls (fun w c a => Writer.write w c a) cs).st.out = rawText indent d cs := by
  rw [C125_pieces, feed_raw _ _ rfl]
  by_cases hi : indent = []
  · subst hi
    rw [rawText_plain]
    congr 1
    suffices key : ∀ (cs before : List Call), (indentedPieces [] d before cs).flatMap Piece.raw = cs.flatMap Call.plain from
      (by rw [key cs []]; rfl)
    intro cs
    induction cs with
    | nil => intro before; rfl
    | cons c cs ih =>
      intro before
      cases c with
      | start n as e => cases e <;> simp [indentedPieces, padPieces, ih, pieces_raw]
      | text s => simp [indentedPieces, ih, pieces_raw]
      | stop n => simp [indentedPieces, padPieces, ih, pieces_raw]
  · rw [(C32_indentation_is_added_text indent hi d cs).1, rawText_plain]
    congr 1
    suffices key : ∀ (cs before : List Call), (indentedPieces indent d before cs).flatMap Piece.raw =
        (padded indent d before cs).flatMap Call.plain from (by rw [key cs []]; rfl)
    have hp : ∀ k, (padPieces indent k).flatMap Piece.raw = (Call.text ('\n' :: copies k indent)).plain := by
      intro k
      have he : escape ('\n' :: copies k indent) = escape ['\n'] ++ escape (copies k indent) := escape_append ['\n'] _
      simp [padPieces, hi, Piece.raw, WArg.str', Call.plain, he]
    intro cs
    induction cs with
    | nil => intro before; rfl
    | cons c cs ih =>
      intro before
      cases c with
      | start n as e =>
        cases e <;> cases hj : justOpened before <;>
          simp [indentedPieces, padded, ih, pieces_raw, hp, hj]
      | text s => simp [indentedPieces, padded, ih, pieces_raw]
      | stop n => simp [indentedPieces, padded, ih, pieces_raw, hp]

/-- C125: a `namespacer` with a write handler gives the handler the same pieces as a `raw` writer, so that neither its
prefixes nor its mapping are used; a request for an empty-element tag raises TypeError. -/
theorem C125_namespacer (st : σ) (prefixes mapping : List (Str × Str)) (cs : List Call) :
    (NoEmpty cs → ((HNamespacer.new st prefixes mapping).calls f cs).map (·.base.st) =
      some (feed f st (cs.flatMap Call.pieces))) ∧
    (¬ NoEmpty cs → (HNamespacer.new st prefixes mapping).calls f cs = none) := by
  rw [← C125_pieces_plain f st 0 cs]
  suffices key : ∀ (cs : List Call) (w : HNamespacer σ),
      (NoEmpty cs → (w.calls f cs).map (·.base.st) = some (w.base.calls f cs).st) ∧ (¬ NoEmpty cs → w.calls f cs = none) from
    key cs _
  intro cs
  induction cs with
  | nil => intro w; exact ⟨fun _ => rfl, fun h => (h fun n as hm => by cases hm).elim⟩
  | cons c cs ih =>
    intro w
    have hne : NoEmpty (c :: cs) ↔ (∀ n as, c ≠ .start n as true) ∧ NoEmpty cs := by
      simp only [NoEmpty, List.mem_cons, not_or]
      constructor
      · exact fun h => ⟨fun n as hc => (h n as).1 hc.symm, fun n as => (h n as).2⟩
      · exact fun h n as => ⟨fun hc => h.1 n as hc.symm, h.2 n as⟩
    have done : ∀ w', w.call f c = some w' → w'.base = w.base.call f c → (∀ n as, c ≠ .start n as true) →
        (NoEmpty (c :: cs) → (w.calls f (c :: cs)).map (·.base.st) = some (w.base.calls f (c :: cs)).st) ∧
        (¬ NoEmpty (c :: cs) → w.calls f (c :: cs) = none) := by
      intro w' h1 h2 h3
      rw [HNamespacer.calls, h1, Option.bind_some, HWriter.calls, ← h2]
      exact ⟨fun h => (ih w').1 (hne.1 h).2, fun h => (ih w').2 fun h4 => h (hne.2 ⟨h3, h4⟩)⟩
    cases c with
    | start n as e =>
      cases e with
      | false => exact done _ rfl rfl (fun n as h => by cases h)
      | true =>
        refine ⟨fun h => ((hne.1 h).1 n as rfl).elim, fun _ => rfl⟩
    | text s => exact done _ rfl rfl (fun n as h => by cases h)
    | stop n => exact done _ rfl rfl (fun n as h => by cases h)

/-! ### nothing is lost -/

theorem quoteattr_injective {v v' : Str} (h : quoteattr v = quoteattr v') : v = v' := by
  obtain ⟨q, raw, _, h2, h3⟩ := quoteattr_refs v
  obtain ⟨q', raw', _, h2', h3'⟩ := quoteattr_refs v'
  rw [h2, h2'] at h
  simp only [List.cons.injEq] at h
  obtain ⟨rfl, h⟩ := h
  have : raw = raw' := List.append_cancel_right h
  subst this
  have hamp : ∀ p ∈ attrRefs, p.1.toList = '&' :: p.1.toList.tail := by decide
  exact Refs.unique (prefixFree_of (by decide)) (fun p hp => ⟨_, hamp p hp⟩) (fun h => h.1.1 rfl) h3 h3'

/-- C125: nothing is lost: calls whose pieces are the same, in the same order, are the same calls; so a handler that keeps its
pieces can recover names, attributes and text exactly. -/
theorem C125_nothing_is_lost (cs cs' : List Call) (h : cs.flatMap Call.pieces = cs'.flatMap Call.pieces) : cs = cs' := by
  have hat : ∀ (as as' : Attrs) (k k' : Nat) (e e' : Bool) (r r' : List Piece),
      ((as.zipIdx k).flatMap fun p =>
        [((.startElement, .tok (if p.2 = 0 then .preAttr else .betweenAttr)) : Piece),
        (.attributeName, .str p.1.1), (.startElement, .tok .attrEquals), (.attributeText, .str (quoteattr p.1.2))]) ++
        ((.startElement, .tok (if e then .emptyClose else .startClose)) :: r) =
      ((as'.zipIdx k').flatMap fun p =>
        [((.startElement, .tok (if p.2 = 0 then .preAttr else .betweenAttr)) : Piece),
        (.attributeName, .str p.1.1), (.startElement, .tok .attrEquals), (.attributeText, .str (quoteattr p.1.2))]) ++
        ((.startElement, .tok (if e' then .emptyClose else .startClose)) :: r') → as = as' ∧ e = e' ∧ r = r' := by
    intro as
    induction as with
    | nil =>
      intro as' k k' e e' r r' h
      cases as' with
      | nil =>
        cases e <;> cases e' <;> simp at h <;> exact ⟨rfl, rfl, h⟩
      | cons a as' =>
        exfalso
        simp only [List.zipIdx_nil, List.flatMap_nil, List.nil_append, List.zipIdx_cons, List.flatMap_cons,
          List.cons_append, List.cons.injEq, Prod.mk.injEq, WArg.tok.injEq, true_and] at h
        have := h.1
        cases e <;> by_cases hk : k' = 0 <;> simp [hk] at this
    | cons a as ih =>
      intro as' k k' e e' r r' h
      cases as' with
      | nil =>
        exfalso
        simp only [List.zipIdx_nil, List.flatMap_nil, List.nil_append, List.zipIdx_cons, List.flatMap_cons,
          List.cons_append, List.cons.injEq, Prod.mk.injEq, WArg.tok.injEq, true_and] at h
        have := h.1
        cases e' <;> by_cases hk : k = 0 <;> simp [hk] at this
      | cons a' as' =>
        simp only [List.nil_append, List.zipIdx_cons, List.flatMap_cons,
          List.cons_append, List.cons.injEq, Prod.mk.injEq, WArg.str.injEq, true_and] at h
        obtain ⟨_, h1, h2, h3⟩ := h
        obtain ⟨h4, h5, h6⟩ := ih as' _ _ e e' r r' h3
        refine ⟨?_, h5, h6⟩
        rw [h4, Prod.ext h1 (quoteattr_injective h2)]
  induction cs generalizing cs' with
  | nil =>
    cases cs' with
    | nil => rfl
    | cons c' cs' => cases c' <;> simp [Call.pieces] at h
  | cons c cs ih =>
    cases cs' with
    | nil => cases c <;> simp [Call.pieces] at h
    | cons c' cs' =>
      cases c with
      | start n as e =>
        cases c' with
        | start n' as' e' =>
          simp only [List.flatMap_cons, Call.pieces, List.cons_append, List.append_assoc, List.cons.injEq, Prod.mk.injEq,
            WArg.str.injEq, true_and, List.nil_append] at h
          obtain ⟨rfl, h⟩ := h
          obtain ⟨rfl, rfl, h9⟩ := hat _ _ _ _ _ _ _ _ h
          rw [ih _ h9]
        | text s' => simp [Call.pieces] at h
        | stop n' => simp [Call.pieces] at h
      | text s =>
        cases c' with
        | start n' as' e' => simp [Call.pieces] at h
        | text s' =>
          simp only [List.flatMap_cons, Call.pieces, List.cons_append, List.cons.injEq, Prod.mk.injEq,
            WArg.str.injEq, true_and, List.nil_append] at h
          rw [h.1, ih _ h.2]
        | stop n' => simp [Call.pieces] at h
      | stop n =>
        cases c' with
        | start n' as' e' => simp [Call.pieces] at h
        | text s' => simp [Call.pieces] at h
        | stop n' =>
          simp only [List.flatMap_cons, Call.pieces, List.cons_append, List.cons.injEq, Prod.mk.injEq,
            WArg.str.injEq, true_and, List.nil_append] at h
          rw [h.1, ih _ h.2]

/-- A handler that keeps what it is given. -/
def recorder : WHandler (List Piece) := fun st c a => st ++ [(c, a)]

-- `whandler` that records the pieces of `<a b="1" c="2">&amp;</a>`: text is given before escaping
example : ((HWriter.new [] [] 0).calls recorder
    [.start ['a'] [(['b'], ['1']), (['c'], ['2'])] false, .text ['&'], .stop ['a']]).st =
    [(.startElement, .tok .startOpen), (.elementName, .str ['a']),
     (.startElement, .tok .preAttr), (.attributeName, .str ['b']), (.startElement, .tok .attrEquals),
       (.attributeText, .str "\"1\"".toList),
     (.startElement, .tok .betweenAttr), (.attributeName, .str ['c']), (.startElement, .tok .attrEquals),
       (.attributeText, .str "\"2\"".toList),
     (.startElement, .tok .startClose), (.text, .str ['&']),
     (.endElement, .tok .endOpen), (.elementName, .str ['a']), (.endElement, .tok .endClose)] := by decide +kernel

-- with indentation, the pieces of the line ends are given as text
example : ((HWriter.new [] [' '] 0).calls recorder [.start ['a'] [] false, .start ['b'] [] true]).st.filter (·.1 = .text) =
    [(.text, .str ['\n']), (.text, .str [' ']), (.text, .str ['\n']), (.text, .str [' '])] := by decide +kernel

-- a namespacer whose prefixes would rename `a` gives its handler the name `a`
example : ((HNamespacer.new [] [([], ['u'])] [(['a'], ['p', ':', 'a'])]).calls recorder [.start ['a'] [] false]).map (·.base.st) =
    some [(.startElement, .tok .startOpen), (.elementName, .str ['a']), (.startElement, .tok .startClose)] := by decide +kernel

end Amara
