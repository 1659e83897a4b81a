import Verif.Lemmas.LexDoc
/-
Properties of the MicroXML scanner, `uxml/lex.py`: C99, C100, C101.
-/
namespace Amara
open Lex

/-- C99: whatever the lexer has been used for, scanning a text ends, takes the longest token at each point, reports
a character as illegal only where no token begins, and accounts for every character: that is how `Accounts` describes
what is seen, and nothing else is described by it.  All of the text has been read. -/
theorem C99_every_character_accounted (l : Lexer) (s : Str) (os : List Out) (st : LState) :
    Accounts l.state 0 (newlines s) os st ↔ Lex.run l s = (os, ⟨st, [], (newlines s).length⟩) := by
  have hf : (newlines s).length < (l.input s).rest.length + 1 := Nat.lt_succ_self _
  constructor
  · intro h
    have := drain_accounts h hf
    simpa [Lex.run, Lexer.input] using this
  · intro h
    have := accounts_drain _ (st := l.state) (p := 0) (Nat.le_refl (newlines s).length) hf
    rw [show drain _ ⟨l.state, newlines s, 0⟩ = Lex.run l s from rfl, h] at this
    exact this

/-- C99: there is an outcome for every text. -/
theorem C99_always_ends (l : Lexer) (s : Str) : ∃ os st, Lex.run l s = (os, ⟨st, [], (newlines s).length⟩) := by
  have hf : (newlines s).length < (l.input s).rest.length + 1 := Nat.lt_succ_self _
  have := accounts_drain _ (st := l.state) (p := 0) (Nat.le_refl (newlines s).length) hf
  exact ⟨_, _, (C99_every_character_accounted l s _ _).1 this⟩

example : Lex.run lexer0 "<a b='1'>x&lt;<!--c--></a >\r\n&".toList =
    ([.tok ⟨.starttag, "a".toList, 0⟩, .tok ⟨.name, "b".toList, 3⟩, .tok ⟨.eq, "=".toList, 4⟩,
      .tok ⟨.sglQuote, "'".toList, 5⟩, .tok ⟨.chardata, "1".toList, 6⟩, .tok ⟨.sglQuote, "'".toList, 7⟩,
      .tok ⟨.gt, ">".toList, 8⟩, .tok ⟨.chardata, "x".toList, 9⟩, .tok ⟨.ltEnt, "&lt;".toList, 10⟩,
      .tok ⟨.comment, "c".toList, 14⟩, .tok ⟨.endtag, "a".toList, 22⟩, .tok ⟨.chardata, "\n".toList, 27⟩,
      .illegal '&'], ⟨.data, [], 29⟩) := by
  decide +kernel

/-- What C100 claims of the document element `e` and its spelling `w`: the tokens are those of `e`, with at most white
space before and after, and only white space is reported as illegal; the lexer is ready for another document. -/
def ScansAs (l : Lexer) (e : Node) (w : Str) : Prop :=
  (∃ a ts b, NodeToks [e] ts ∧ tokensOf (Lex.run l w).1 = a ++ (ts ++ b) ∧ ∀ x ∈ a ++ b, x.1 = .chardata ∧ LexSpace x.2) ∧
  LexSpace (illegalsOf (Lex.run l w).1) ∧ (Lex.run l w).2.state = .data

/-- C100, for documents without white space between '<' and '/' and without element names that begin or end with
U+1680.  Missing: the documents with such white space or such names, of which the claim is false. -/
theorem C100_scans_documents_partial {l : Lexer} {e : Node} {w : Str} (hl : l.state = .data) (h : IsDoc e w)
    (hg : NoGap w) (hn : ∀ n ∈ elemNames e, Trimmed n) : ScansAs l e w := by
  obtain ⟨a, ts, b, hts, hr, hb⟩ := reads_doc h hg hn
  obtain ⟨h1, h2, h3⟩ := reads_drain hr rfl (p := 0) (fuel := (newlines w).length + 1) (Nat.lt_succ_self _)
  have e : drain ((newlines w).length + 1) ⟨.data, newlines w, 0⟩ = Lex.run l w := by rw [Lex.run, Lexer.input, hl]
  rw [e] at h1 h2 h3
  exact ⟨⟨a, ts, b, hts, h1, hb⟩, h2, h3⟩

/-- C100: two such documents with the same tokens are the same tree: the scanner loses nothing. -/
theorem C100_tokens_determine_the_tree_partial {l l' : Lexer} {e e' : Node} {w w' : Str} (hl : l.state = .data)
    (hl' : l'.state = .data) (h : IsDoc e w) (h' : IsDoc e' w') (hg : NoGap w) (hg' : NoGap w')
    (hn : ∀ n ∈ elemNames e, Trimmed n) (hn' : ∀ n ∈ elemNames e', Trimmed n)
    (ht : tokensOf (Lex.run l w).1 = tokensOf (Lex.run l' w').1) : e = e' := by
  obtain ⟨⟨a, ts, b, h1, h2, h3⟩, _⟩ := C100_scans_documents_partial hl h hg hn
  obtain ⟨⟨a', ts', b', h1', h2', h3'⟩, _⟩ := C100_scans_documents_partial hl' h' hg' hn'
  rw [h2, h2'] at ht
  cases e with
  | text => cases h.1
  | elem n as cs =>
    cases e' with
    | text => cases h'.1
    | elem n' as' cs' =>
      obtain ⟨_, _, _, _, _, _, e1⟩ := nodeToks_elem h1
      obtain ⟨_, _, _, _, _, _, e1'⟩ := nodeToks_elem h1'
      have hk : ∀ {x : List (Kind × Str)}, (∀ y ∈ x, y.1 = .chardata ∧ LexSpace y.2) → ∀ y ∈ x, isTextKind y = true := by
        intro x hx y hy
        obtain ⟨k, v⟩ := y
        obtain ⟨rfl, _⟩ := hx _ hy
        rfl
      obtain ⟨_, ht⟩ := span_unique ht (hk fun y hy => h3 y (by simp [hy])) (hk fun y hy => h3' y (by simp [hy]))
        (by rw [e1]; intro x hx; cases hx; rfl) (by rw [e1']; intro x hx; cases hx; rfl)
      exact nodeToks_unique_elem h1 h1' ht

/-- Is there no white space between '<' and '/'? -/
def gapFree : Str → Bool
  | [] => true
  | c :: r => (c != '<' || (r.dropWhile isWs).head? != some '/' || r.head? == some '/') && gapFree r

theorem noGap_of {w : Str} (h : gapFree w = true) : NoGap w := by
  rintro a sp b rfl hs
  induction a with
  | nil =>
    rw [List.nil_append, gapFree, Bool.and_eq_true] at h
    have hd : (sp ++ '/' :: b).dropWhile isWs = '/' :: b := by
      rw [dropWhile_all (fun c hc => (isWs_iff c).2 (hs c hc))]
      rfl
    rw [hd] at h
    cases sp with
    | nil => rfl
    | cons c sp =>
      have : c = '/' := by simpa using h.1
      subst this
      exact absurd (hs '/' (by simp)) (by decide)
  | cons c a ih =>
    rw [List.cons_append, gapFree, Bool.and_eq_true] at h
    exact ih h.2

/-- A document of two elements, text, references and attributes meets the hypotheses. -/
def lexDoc : Node :=
  .elem "a".toList [("b".toList, "<1".toList), ("c".toList, "'".toList)]
    [.text "x&".toList, .elem "d".toList [] [], .text "A".toList]

def lexText : Str := " <a b=\"&lt;1\"\r\n c=\"'\" >x&amp;< d></d >&#x41;</ a>".toList

theorem lexDoc_isDoc : IsDoc lexDoc lexText := by
  refine ⟨rfl, [' '], lexText.tail, [], by decide, by decide, ?_, by decide⟩
  · exact IsContent.elem (n := ['a']) (kvs := [(['b'], ['<', '1']), (['c'], ['\''])]) (w := []) (w0 := []) (w1 := [' '])
      (w2 := []) (w3 := [' ']) (w4 := []) (by decide)
      (.cons (w1 := [' ']) (w2 := []) (q := '"') (by decide) (by decide) (by decide) (by decide) (by decide)
        (.named (n := "lt") (by decide) (.lit (by decide) .nil))
        (.cons (w1 := ['\r', '\n', ' ']) (w2 := []) (q := '"') (by decide) (by decide) (by decide) (by decide)
          (by decide) (.lit (by decide) .nil) .nil))
      (.text (by decide) (.lit (by decide) (.named (n := "amp") (by decide) .nil))
        (.elem (n := ['d']) (kvs := []) (wa := []) (cs := []) (wc := []) (w0 := [' '])
          (w1 := []) (w2 := []) (w3 := []) (w4 := [' ']) (by decide) .nil .nil
          (.text (by decide) (.hex (ds := ['4', '1']) (by decide) (by decide) (by decide) (by decide) .nil) .nil
            (by decide)) (by decide) (by decide) (by decide) (by decide) (by decide)) (by decide))
      .nil (by decide) (by decide) (by decide) (by decide) (by decide)

theorem lexText_noGap : NoGap lexText := noGap_of (by decide)

example : ScansAs lexer0 lexDoc lexText :=
  C100_scans_documents_partial rfl lexDoc_isDoc lexText_noGap (by unfold Trimmed; decide)

/-- The tokens, and the white space reported. -/
example : tokensOf (Lex.run lexer0 lexText).1 = [(.chardata, " ".toList), (.starttag, "a".toList), (.name, "b".toList),
    (.eq, "=".toList), (.dblQuote, "\"".toList), (.ltEnt, "&lt;".toList), (.chardata, "1".toList),
    (.dblQuote, "\"".toList), (.name, "c".toList), (.eq, "=".toList), (.dblQuote, "\"".toList),
    (.chardata, "'".toList), (.dblQuote, "\"".toList), (.gt, ">".toList), (.chardata, "x".toList),
    (.ampEnt, "&amp;".toList), (.starttag, "d".toList), (.gt, ">".toList), (.endtag, "d".toList),
    (.numEnt, "41".toList), (.endtag, "a".toList)] ∧
    illegalsOf (Lex.run lexer0 lexText).1 = "\n  ".toList := by
  decide +kernel

/-- C100 is false in general: white space is allowed between '<' and '/' and the scanner reports '<'. -/
theorem C100_full_statement_is_false :
    ¬ ∀ (l : Lexer) (e : Node) (w : Str), l.state = .data → IsDoc e w → ScansAs l e w := by
  intro h
  have hd : IsDoc (.elem "a".toList [] []) "<a>< /a>".toList := by
    refine ⟨rfl, [], "<a>< /a>".toList, [], by simp [Space], by simp [Space], ?_, by simp⟩
    exact IsContent.elem (n := "a".toList) (kvs := []) (wa := []) (wc := []) (w := []) (w0 := []) (w1 := [])
      (w2 := " ".toList) (w3 := []) (w4 := []) (by decide) .nil .nil .nil (by decide) (by decide) (by decide) (by decide)
      (by decide)
  have := (h lexer0 _ _ rfl hd).2.1 '<' (by decide +kernel)
  revert this; decide

/-- C100: an element whose name is U+1680 is accepted by the grammar, and its tokens have an empty name. -/
theorem C100_name_lost : IsDoc (.elem [Char.ofNat 0x1680] [] []) "<\u1680></\u1680>".toList ∧
    tokensOf (Lex.run lexer0 "<\u1680></\u1680>".toList).1 = [(.starttag, []), (.gt, ">".toList), (.endtag, [])] := by
  refine ⟨⟨rfl, [], _, [], by simp [Space], by simp [Space], ?_, by simp; rfl⟩, by decide +kernel⟩
  exact IsContent.elem (n := [Char.ofNat 0x1680]) (kvs := []) (wa := []) (wc := []) (w := []) (w0 := []) (w1 := [])
    (w2 := []) (w3 := []) (w4 := []) (by decide) .nil .nil .nil (by decide) (by decide) (by decide) (by decide)
    (by decide)

/-- A use of the scanner: `run(s)` and its first token, or another token of a generator that has begun. -/
def lexerAfter (l : Lexer) : List (Option Str) → Lexer
  | [] => l
  | a :: r => lexerAfter (nextOf l a).2.2 r

/-- C101, if the lexer is in the state data: whatever has been done with the scanner before, in however many
generators, finished or not, `list(run(s))` is what it is in a fresh interpreter.  Missing: the other states. -/
theorem C101_same_as_fresh_partial (acts : List (Option Str)) (s : Str)
    (h : (lexerAfter lexer0 acts).state = .data) : Lex.run (lexerAfter lexer0 acts) s = Lex.run lexer0 s := by
  rw [Lex.run, Lex.run, Lexer.input, Lexer.input, h]; rfl

/-- The lexer after the texts have been scanned one after the other. -/
def lexerAfterRuns (l : Lexer) (ws : List Str) : Lexer := ws.foldl (fun l w => (Lex.run l w).2) l

/-- C101: it is in the state data after any number of documents (with the hypotheses of C100). -/
theorem C101_after_documents (l : Lexer) (hl : l.state = .data) (ws : List Str)
    (h : ∀ w ∈ ws, ∃ e, IsDoc e w ∧ NoGap w ∧ ∀ n ∈ elemNames e, Trimmed n) (s : Str) :
    Lex.run (lexerAfterRuns l ws) s = Lex.run lexer0 s := by
  induction ws generalizing l with
  | nil => rw [lexerAfterRuns, List.foldl_nil, Lex.run, Lex.run, Lexer.input, Lexer.input, hl]; rfl
  | cons w ws ih =>
    obtain ⟨e, h1, h2, h3⟩ := h w (by simp)
    exact ih (Lex.run l w).2 (C100_scans_documents_partial hl h1 h2 h3).2.2 (fun w' hw' => h w' (by simp [hw']))

example : Lex.run (lexerAfterRuns lexer0 [lexText, lexText]) "<".toList = Lex.run lexer0 "<".toList :=
  C101_after_documents _ rfl _ (by
    intro w hw
    have : w = lexText := by simpa using hw
    subst this
    exact ⟨_, lexDoc_isDoc, lexText_noGap, by unfold Trimmed; decide⟩) _

/-- C101 is false in general: after `list(run('<a'))` the text `b` is scanned as the inside of a tag. -/
theorem C101_full_statement_is_false :
    ¬ ∀ (w s : Str), Lex.run (Lex.run lexer0 w).2 s = Lex.run lexer0 s := by
  intro h
  have := h "<a".toList "b".toList
  revert this; decide +kernel

/-- C101: generators share the lexer: the second token of `run('<a>')` is the second token of `run('>b')` if that
generator has begun in the meantime. -/
theorem C101_generators_share :
    (nextOf (lexerAfter lexer0 [some "<a>".toList]) none).2.1 = some ⟨.gt, ">".toList, 2⟩ ∧
    (nextOf (lexerAfter lexer0 [some "<a>".toList, some ">b".toList]) none).2.1 = some ⟨.chardata, "b".toList, 1⟩ := by
  decide +kernel

end Amara
