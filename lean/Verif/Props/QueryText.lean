import Verif.Spec.QueryText
import Verif.Props.MeaningTests
import Verif.Props.XParse
/-
C167: queries as they are written.
-/
namespace Amara
open X (Tok GTest GStep GRel GArgs GList GPreds GPrim GExpr Denotes Written)

variable {F : Type}

theorem called_fn {n : Str} (h1 : n ≠ "text".toList) (h2 : n ≠ "node".toList) (as : List (Expr F)) : X.called n as = .call n as := by
  rw [X.called, if_neg h1, if_neg h2]

theorem call_grammar {n : Str} (h1 : n ≠ "text".toList) (h2 : n ≠ "node".toList) {w : List (Tok F)} {as : List (Expr F)} (h : GArgs w as) :
    GExpr X.topStrength X.topStrength .closed (.name n :: w) (.call n as) := by
  have := GExpr.prim (GPrim.call (n := .name n) trivial h)
  rwa [show (Tok.name n : Tok F).word = n from rfl, called_fn h1 h2] at this

theorem step_grammar {w : List (Tok F)} {p : CorePath} (h : WritesStep w p) (b : Bool) : GStep b w p.expr := by
  cases h with
  | here => rw [CorePath.expr]; exact .dot
  | up => rw [CorePath.expr]; exact .dotdot
  | children => rw [CorePath.expr]; exact .child .star
  | childrenAxis => rw [CorePath.expr]; exact .axis (by simp [X.axisTable]) .star
  | child hm => rw [CorePath.expr]; exact .child (.name hm)
  | axis ha hm => rw [CorePath.expr]; exact .axis ha (.name hm)

theorem rel_grammar {w : List (Tok F)} {p : CorePath} (h : WritesRel w p) (b : Bool) : GRel b w p.expr := by
  induction h with
  | step h => exact .step (step_grammar h b)
  | slash h h' ih => rw [CorePath.expr]; exact .slash ih (step_grammar h' true)
  | deep h hm ih => rw [CorePath.expr]; exact .dslash ih (.child (.name hm))

theorem path_grammar {w : List (Tok F)} {p : CorePath} (h : WritesPath w p) : GPrim .path w p.expr := by
  cases h with
  | rel h => exact .rel (rel_grammar h false)
  | abs h => rw [CorePath.expr]; exact .abs (rel_grammar h true)
  | anywhere h => rw [CorePath.expr]; exact .absAll (rel_grammar h true)

theorem end_grammar {b : Bool} {w : List (Tok F)} {e : CoreEnd} (h : WritesEnd b w e) : GStep b w e.expr := by
  have ht : GTest true [.name "text".toList, .lparen, .rparen] (.text : Test) := GTest.type (F := F) (n := .name "text".toList) trivial .none rfl
  have hn : GTest true [.name "node".toList, .lparen, .rparen] (.node : Test) := GTest.type (F := F) (n := .name "node".toList) trivial .none rfl
  cases h with
  | texts => exact .child ht
  | nodes => exact .child hn
  | textsAxis => exact .axis (by simp [X.axisTable]) ht
  | nodesAxis => exact .axis (by simp [X.axisTable]) hn
  | attr hk => exact .attr (.name hk)
  | attrs => exact .attr .star

theorem relList_grammar {b : Bool} {w : List (Tok F)} {l : CoreList} (h : WritesRelList b w l) : GRel b w l.expr := by
  cases h with
  | path h => exact rel_grammar h b
  | last h => exact .step (end_grammar h)
  | after h h' => exact .slash (rel_grammar h b) (end_grammar h')
  | allTexts h => exact .dslash (rel_grammar h b) (end_grammar .texts)

theorem list_grammar {w : List (Tok F)} {l : CoreList} (h : WritesList w l) : GPrim .path w l.expr := by
  cases h with
  | rel h => exact .rel (relList_grammar h)
  | abs h => exact .abs (relList_grammar h)
  | anywhere h => exact .absAll (relList_grammar h)

theorem preds_cons : ∀ {w' : List (Tok F)} {es : List (Expr F)} {l r : Nat} {k : X.Last} {w : List (Tok F)} {e : Expr F},
    GExpr l r k w e → GPreds w' es → GPreds (.lbrack :: (w ++ [.rbrack]) ++ w') (e :: es)
  | _, _, _, _, _, _, _, h, .one h' => .more (.one h) h'
  | _, _, _, _, _, w, e, h, .more (w₁ := w₁) (es := es) (w₂ := w₂) (e := e') h' h'' => by
    have := GPreds.more (preds_cons h h') h''
    rw [List.append_assoc] at this
    exact this

/-- How the expression of a path with brackets ends. -/
def EndsIn.Fits : EndsIn → Nat → X.Last → Prop
  | .noBracket, l, k => l = X.topStrength ∧ k = .path
  | .bracket, _, k => k = .preds
  | .slashAfterBracket, _, k => k = .path

mutual
  theorem tested_grammar : ∀ {k : EndsIn} {w : List (Tok F)} {p : TestedPath}, WritesTested k w p →
      ∃ l j, GExpr l X.topStrength j w p.expr ∧ k.Fits l j
    | _, _, _, .core h => by
      rw [TestedPath.expr]
      exact ⟨_, _, .prim (path_grammar h), rfl, rfl⟩
    | _, _, _, .filter h hk h' => by
      obtain ⟨l, j, h1, h2⟩ := tested_grammar h
      have h3 := tests_grammar h'
      rw [TestedPath.expr]
      refine ⟨_, _, .pred h1 ?_ h3, rfl⟩
      rintro rfl
      rename_i k _ _ _ _
      cases k <;> simp_all [EndsIn.Fits]
    | _, _, _, .number h hk => by
      obtain ⟨l, j, h1, h2⟩ := tested_grammar h
      rw [TestedPath.expr]
      refine ⟨_, _, .pred h1 ?_ (.one (.prim .integer)), rfl⟩
      rintro rfl
      rename_i k _ _ _
      cases k <;> simp_all [EndsIn.Fits]
    | _, _, _, .numberThen h hk h' => by
      obtain ⟨l, j, h1, h2⟩ := tested_grammar h
      have h3 := tests_grammar h'
      rw [TestedPath.expr]
      refine ⟨_, _, .pred h1 ?_ (preds_cons (.prim .integer) h3), rfl⟩
      rintro rfl
      rename_i k _ _ _ _ _
      cases k <;> simp_all [EndsIn.Fits]
    | _, _, _, .seq h h' => by
      obtain ⟨l, j, h1, h2⟩ := tested_grammar h
      rw [TestedPath.expr, TestedPath.expr]
      refine ⟨_, _, .slash h1 ?_ (rel_grammar h' true), rfl⟩
      rw [show j = .preds from h2]
      simp
    | _, _, _, .deep h hm => by
      obtain ⟨l, j, h1, h2⟩ := tested_grammar h
      rw [TestedPath.expr]
      refine ⟨_, _, .dslash h1 ?_ (.step (.child (.name hm))), rfl⟩
      rw [show j = .preds from h2]
      simp
  theorem testedList_grammar : ∀ {b : Bool} {w : List (Tok F)} {l : TestedList}, WritesTestedList b w l →
      ∃ s j, GExpr s X.topStrength j w l.expr ∧ j ≠ .root ∧ (b = true → s = X.topStrength)
    | _, _, _, .path (k := k) h => by
      obtain ⟨s, j, h1, h2⟩ := tested_grammar h
      rw [TestedList.expr]
      refine ⟨_, _, h1, ?_, ?_⟩
      · rintro rfl
        cases k <;> simp_all [EndsIn.Fits]
      · intro hb
        have := of_decide_eq_true hb
        subst this
        exact h2.1
    | _, _, _, .core h => by
      rw [TestedList.expr]
      exact ⟨_, _, .prim (list_grammar h), by simp, fun _ => rfl⟩
    | _, _, _, .seq h h' => by
      obtain ⟨l, j, h1, h2⟩ := tested_grammar h
      rw [TestedList.expr]
      refine ⟨_, _, .slash h1 ?_ (relList_grammar h'), by simp, by simp⟩
      rw [show j = .preds from h2]
      simp
  theorem tests_grammar : ∀ {w : List (Tok F)} {ts : Tests}, WritesTests w ts → GPreds w ts.exprs
    | _, _, .one h => by
      obtain ⟨l, r, k, h1, _⟩ := test_grammar h
      rw [Tests.exprs]
      exact .one h1
    | _, _, .more h h' => by
      obtain ⟨l, r, k, h1, _⟩ := test_grammar h
      rw [Tests.exprs]
      exact preds_cons h1 (tests_grammar h')
  theorem test_grammar : ∀ {b : Bool} {w : List (Tok F)} {t : ValueTest}, WritesTest b w t →
      ∃ l r k, GExpr l r k w t.expr ∧ k ≠ .root ∧ 2 ≤ r ∧ (b = true → 2 < l)
    | _, _, _, .found h => by
      obtain ⟨s, j, h1, h2, h3⟩ := testedList_grammar h
      rw [ValueTest.expr]
      exact ⟨_, _, _, h1, h2, by decide, fun hb => by rw [h3 hb]; decide⟩
    | _, _, _, .is h => by
      obtain ⟨s, j, h1, h2, h3⟩ := testedList_grammar h
      rw [ValueTest.expr]
      refine ⟨_, _, _, .binary h1 rfl (.prim .literal) (by decide) (by decide) (by simp [X.Tok.isName]) rfl, by simp, by decide, fun hb => ?_⟩
      rw [h3 hb]; decide
    | _, _, _, .count (op := op) (k := k) h => by
      obtain ⟨s, j, h1, h2, h3⟩ := testedList_grammar h
      rw [ValueTest.expr]
      have hc := call_grammar (F := F) (n := "count".toList) (by decide) (by decide) ((.some (.one h1)))
      have := GExpr.binary hc (o := .rel op) rfl (.prim (.integer (n := k))) (by decide) (by decide) (by simp [X.Tok.isName]) rfl
      refine ⟨_, _, _, by simpa using this, by simp, by decide, fun _ => by decide⟩
    | _, _, _, .countIs (k := k) h => by
      obtain ⟨s, j, h1, h2, h3⟩ := testedList_grammar h
      rw [ValueTest.expr]
      have hc := call_grammar (F := F) (n := "count".toList) (by decide) (by decide) ((.some (.one h1)))
      have := GExpr.binary hc (o := .equal false) rfl (.prim (.integer (n := k))) (by decide) (by decide) (by simp [X.Tok.isName]) rfl
      refine ⟨_, _, _, by simpa using this, by simp, by decide, fun _ => by decide⟩
    | _, _, _, .contains (s := s') h => by
      obtain ⟨s, j, h1, h2, h3⟩ := testedList_grammar h
      rw [ValueTest.expr]
      have hc := call_grammar (F := F) (n := "contains".toList) (by decide) (by decide) ((.some (.more (.one h1) (.prim (.literal (s := s'))))))
      exact ⟨_, _, _, by simpa using hc, by simp, by decide, fun _ => by decide⟩
    | _, _, _, .startsWith (s := s') h => by
      obtain ⟨s, j, h1, h2, h3⟩ := testedList_grammar h
      rw [ValueTest.expr]
      have hc := call_grammar (F := F) (n := "starts-with".toList) (by decide) (by decide) ((.some (.more (.one h1) (.prim (.literal (s := s'))))))
      exact ⟨_, _, _, by simpa using hc, by simp, by decide, fun _ => by decide⟩
    | _, _, _, .nameIs (m := m) => by
      rw [ValueTest.expr]
      have hc := call_grammar (F := F) (n := "name".toList) (by decide) (by decide) (.none)
      exact ⟨_, _, _, .binary hc (o := .equal false) rfl (.prim (.literal (s := m))) (by decide) (by decide) (by simp [X.Tok.isName]) rfl,
        by simp, by decide, fun _ => by decide⟩
    | _, _, _, .not h => by
      obtain ⟨l, r, k, h1, _⟩ := test_grammar h
      rw [ValueTest.expr]
      have hc := call_grammar (F := F) (n := "not".toList) (by decide) (by decide) ((.some (.one h1)))
      exact ⟨_, _, _, hc, by simp, by decide, fun _ => by decide⟩
    | _, _, _, .and h h' => by
      obtain ⟨l, r, k, h1, h2, h3, _⟩ := operand_grammar h
      obtain ⟨l', r', k', h1', h2', h3', h4'⟩ := operand_grammar h'
      rw [ValueTest.expr]
      exact ⟨_, _, _, .binary h1 (o := .logical true) rfl h1' h3 (h4' rfl) (fun _ => h2) rfl, h2', by omega, by simp⟩
    | _, _, _, .or h h' => by
      obtain ⟨l, r, k, h1, h2, h3, _⟩ := operand_grammar h
      obtain ⟨l', r', k', h1', h2', h3', h4'⟩ := operand_grammar h'
      rw [ValueTest.expr]
      exact ⟨_, _, _, .binary h1 (o := .logical false) rfl h1' h3 (h4' rfl) (fun _ => h2) rfl, h2', by omega, by simp⟩
  theorem operand_grammar : ∀ {b : Bool} {w : List (Tok F)} {t : ValueTest}, WritesOperand b w t →
      ∃ l r k, GExpr l r k w (if t.mayBeEmpty then .call "boolean".toList [t.expr] else t.expr) ∧ k ≠ .root ∧ 2 ≤ r ∧ (b = true → 2 < l)
    | _, _, _, .test hm h => by
      rw [hm]
      exact test_grammar h
    | _, _, _, .boolean hm h => by
      obtain ⟨l, r, k, h1, _⟩ := test_grammar h
      rw [hm, if_pos rfl]
      have hc := call_grammar (F := F) (n := "boolean".toList) (by decide) (by decide) ((.some (.one h1)))
      exact ⟨_, _, _, hc, by simp, by decide, fun _ => by decide⟩
end

/-! ### C167 -/

/-- C167: a query written so is read as its expression, whatever the blanks between the tokens. -/
theorem C167_is_read (fo : FloatOps F) {b : Bool} {w : List (Tok F)} {l : TestedList} (h : WritesTestedList b w l) {s : Str} (hs : Written fo w s) :
    X.xparse fo s = some (.ok l.expr) := by
  obtain ⟨_, _, h1, _⟩ := testedList_grammar h
  exact (C77_parser_follows_the_grammar fo s _).2 ⟨w, hs, _, _, _, h1⟩

/-- C167: so on the text of a document it yields exactly the list it gives. -/
theorem C167_on_a_text (fo : FloatOps F) (vars : Str → Option (Item F)) (n : Nat) {e : Node} {d : Str} (hd : IsDoc e d) {b : Bool} {w : List (Tok F)}
    {l : TestedList} (h : WritesTestedList b w l) (hl : l.Ok) {s : Str} (hs : Written fo w s) (a : Answer F) :
    QQuery fo vars n (.str d) (.str s) a ↔ ∃ fs, l.Gives e .root fs ∧ a = .items e ⟨fs.map Found.item, .done⟩ := by
  obtain ⟨fs, hf⟩ := C166_one_list (doc_noEmpty hd) (fun p m as cs hp => doc_dicts hd hp) hl (u := .root) trivial
  rw [C166_on_a_text fo vars n hd hl (C167_is_read fo h hs) ((hf fs).2 rfl)]
  constructor
  · rintro rfl; exact ⟨fs, (hf fs).2 rfl, rfl⟩
  · rintro ⟨gs, hg, rfl⟩
    rw [(hf gs).1 hg]

/-- C167: from an element. -/
theorem C167_from_an_element (fo : FloatOps F) (vars : Str → Option (Item F)) (n : Nat) {e : Node} {d : Str} (hd : IsDoc e d) {q : Path}
    (hq : e.ElemAt q) {b : Bool} {w : List (Tok F)} {l : TestedList} (h : WritesTestedList b w l) (hl : l.Ok) {s : Str} (hs : Written fo w s) :
    ∃ fs, l.Gives e (if q = [] then .root else .at q) fs ∧ xmlXPath fo vars n e q (.str s) = ⟨fs.map Found.item, .done⟩ := by
  obtain ⟨fs, hf⟩ := C166_one_list (doc_noEmpty hd) (fun p m as cs hp => doc_dicts hd hp) hl (u := if q = [] then .root else .at q)
    (by split <;> first | trivial | exact hq)
  exact ⟨fs, (hf fs).2 rfl, C166_from_an_element fo vars n hd hq hl (C167_is_read fo h hs) ((hf fs).2 rfl)⟩

/-- C167: every way to write it in tokens can be spelled, if each token can. -/
theorem C167_can_be_spelled (fo : FloatOps F) (w : List (Tok F)) (h : ∀ t ∈ w, ∃ x, X.SpellsTok fo t x) : ∃ s, Written fo w s := by
  have : ∃ ts : List (Tok F × Str × Str), ts.map (·.1) = w ∧ ∀ x ∈ ts, X.SpellsTok fo x.1 x.2.1 ∧ X.XBlank x.2.2 ∧ x.2.2 ≠ [] := by
    induction w with
    | nil => exact ⟨[], rfl, by simp⟩
    | cons t w ih =>
      obtain ⟨ts, h1, h2⟩ := ih fun x hx => h x (by simp [hx])
      obtain ⟨x, hx⟩ := h t (by simp)
      refine ⟨(t, x, [' ']) :: ts, by simp [h1], ?_⟩
      intro y hy
      rcases List.mem_cons.1 hy with rfl | hy
      · exact ⟨hx, by intro c hc; simp_all, by simp⟩
      · exact h2 y hy
  obtain ⟨ts, rfl, h2⟩ := this
  exact ⟨_, C81_blanks_anywhere fo ts h2 [] (by intro c hc; cases hc)⟩

/-! ### lookups -/

theorem nameTok_word (n : Str) : (X.nameTok (F := F) n).isName ∧ (X.nameTok (F := F) n).word = n := by
  unfold X.nameTok
  repeat' split
  · rename_i h; exact ⟨trivial, h.symm⟩
  · rename_i h; exact ⟨trivial, h.symm⟩
  · rename_i h; exact ⟨trivial, h.symm⟩
  · rename_i h; exact ⟨trivial, h.symm⟩
  · exact ⟨trivial, rfl⟩

/-- The query `//m[k='v']/@a`. -/
def lookup (m k v a : Str) : TestedList :=
  .seq (.filter (.core (.anywhere (.step .child m))) (.one (.is (.path (.core (.step .child k))) v))) (.last (.attr a))

/-- The names the lexer knows (C82). -/
def QueryName (n : Str) : Prop := IsMicroName n ∧ ∀ c ∈ n, ¬ (0xC0 ≤ c.toNat ∧ c.toNat ≤ 0xD6)

theorem queryName_spells (fo : FloatOps F) {n : Str} (h : QueryName n) {r : Str} (hr : ∀ c s, r = c :: s → c ∈ ['[', '=', '/']) :
    X.SpellsTok fo (X.nameTok n) n ∧ X.Ends (X.nameTok (F := F) n) r := by
  obtain ⟨⟨c, x, rfl, hc, hx⟩, h'⟩ := h
  refine X.nameTok_spells fo (.char (inRanges_start hc (h' c (by simp))) (xnameTail_of fun d hd => xnameChar_of (hx d hd) (h' d (by simp [hd])))) ?_ ?_
  · rintro ⟨d, s, rfl, hd⟩
    have := hr d s rfl
    simp only [List.mem_cons, List.not_mem_nil, or_false] at this
    have key : ∀ d : Char, d ∈ ['[', '=', '/'] → ¬ X.XNameChar d := by
      intro d hd
      simp only [List.mem_cons, List.not_mem_nil, or_false] at hd
      simp only [X.XNameChar, X.InRanges, X.nameStartRanges, X.nameExtraRanges, List.mem_cons, List.not_mem_nil, or_false, exists_eq_or_imp, exists_eq_left]
      rcases hd with rfl | rfl | rfl <;> decide
    exact key d (hr d s rfl) hd
  · rintro ⟨s, h⟩
    rw [X.slip_cons] at h
    have := hr _ _ h.symm
    revert this
    decide

/-- C167: for all names and every value without an apostrophe, `//m[k='v']/@a` finds, in every document, the attributes `a` of
the elements `m` whose first child `k` has the text `v`, and nothing else, in document order. -/
theorem C167_lookup (fo : FloatOps F) (vars : Str → Option (Item F)) (n : Nat) {e : Node} {d : Str} (hd : IsDoc e d) {m k v a : Str} (hm : QueryName m)
    (hk : QueryName k) (ha : QueryName a) (hv : '\'' ∉ v) (out : Answer F) :
    QQuery fo vars n (.str d) (.str ("//".toList ++ m ++ "[".toList ++ k ++ "='".toList ++ v ++ "']/@".toList ++ a)) out ↔
      ∃ fs, (lookup m k v a).Gives e .root fs ∧ out = .items e ⟨fs.map Found.item, .done⟩ := by
  have hw : WritesTestedList (F := F) false [.abbrevSep, X.nameTok m, .lbrack, X.nameTok k, .equal false, .literal v, .rbrack, .pathSep, .at, X.nameTok a]
      (lookup m k v a) := by
    have h1 := WritesPath.anywhere (.step (.child (nameTok_word (F := F) m).1))
    have h2 := WritesPath.rel (.step (.child (nameTok_word (F := F) k).1))
    have h3 := WritesEnd.attr (b := true) (nameTok_word (F := F) a).1
    rw [(nameTok_word m).2] at h1
    rw [(nameTok_word k).2] at h2
    rw [(nameTok_word a).2] at h3
    exact .seq (.filter (.core h1) (by simp) (.one (.is (s := v) (.path (.core h2))))) (.last h3)
  have hok : (lookup m k v a).Ok := by
    obtain ⟨⟨c, r, rfl, hc, _⟩, _⟩ := ha
    have : c :: r ≠ ['*'] := by
      intro h
      cases h
      revert hc
      decide
    simp [lookup, TestedList.Ok, TestedPath.Ok, Tests.Ok, ValueTest.Ok, CoreList.Ok, CoreEnd.Ok, CorePath.Ok, CorePath.startsDown, this]
  have nb : X.XBlank [] := by intro c hc; cases hc
  have hs : Written fo [.abbrevSep, X.nameTok m, .lbrack, X.nameTok k, .equal false, .literal v, .rbrack, .pathSep, .at, X.nameTok a]
      ("//".toList ++ m ++ "[".toList ++ k ++ "='".toList ++ v ++ "']/@".toList ++ a) := by
    have sm := queryName_spells fo hm (r := '[' :: (k ++ '=' :: '\'' :: (v ++ '\'' :: ']' :: '/' :: '@' :: a))) (by rintro c s h; cases h; simp)
    have sk := queryName_spells fo hk (r := '=' :: '\'' :: (v ++ '\'' :: ']' :: '/' :: '@' :: a)) (by rintro c s h; cases h; simp)
    have sa := queryName_spells fo ha (r := []) (by rintro c s h; cases h)
    have w0 : Written fo [X.nameTok a] a := by
      have := Written.cons nb sa.1 sa.2 (.nil nb)
      rwa [List.nil_append, List.append_nil] at this
    have w1 : Written fo [.at, X.nameTok a] ('@' :: a) := .cons nb .at trivial w0
    have w2 : Written fo [.pathSep, .at, X.nameTok a] ('/' :: '@' :: a) := .cons nb .pathSep (by rintro ⟨c, s, h, rfl⟩; cases h) w1
    have w3 : Written fo [.rbrack, .pathSep, .at, X.nameTok a] (']' :: '/' :: '@' :: a) := .cons nb .rbrack trivial w2
    have w4 : Written fo [.literal v, .rbrack, .pathSep, .at, X.nameTok a] ('\'' :: (v ++ '\'' :: ']' :: '/' :: '@' :: a)) := by
      have := Written.cons nb (.single hv) trivial w3
      simpa using this
    have w5 := Written.cons (fo := fo) nb (.eq) trivial w4
    have w6 := Written.cons nb sk.1 sk.2 w5
    have w7 := Written.cons (fo := fo) nb .lbrack trivial w6
    have w8 := Written.cons nb sm.1 sm.2 w7
    have w9 := Written.cons (fo := fo) nb .abbrevSep trivial w8
    simpa using w9
  exact C167_on_a_text fo vars n hd hw hok hs out

-- `//k[t='v']/@a` in `<l><k a="x"><t>u</t><t>v</t></k><k a="y"><t>v</t></k><k/></l>`
example : QueryName ['k'] ∧ lookup ['k'] ['t'] ['v'] ['a'] = exIs ∧ (lookup ['k'] ['t'] ['v'] ['a']).Gives exShelf .root [.attr [1] ['a'] ['y']] :=
  ⟨⟨⟨_, _, rfl, by decide, by simp⟩, by simp⟩, rfl,
   tested_of_items (E := queryEnv noFloats (fun _ => none) exShelf) exShelf_plain exShelf_dicts (n := 0) exTests_ok.1 (u := .root) trivial
    (by unfold Env.Yields; decide +kernel)⟩

-- `../b//c[@x='1' and not(d)][2 > count(e)]` is not of the form, `../b//c[@x='1' and not(d)][count(e)<2]/child::text()` is
example : ∃ (w : List (Tok F)) (l : TestedList), WritesTestedList false w l ∧ l.Ok ∧ w = [.dotdot, .pathSep, .name ['b'], .abbrevSep, .name ['c'], .lbrack,
    .at, .name ['x'], .equal false, .literal ['1'], .logical true, .name "not".toList, .lparen, .name ['d'], .rparen, .rbrack, .lbrack,
    .name "count".toList, .lparen, .name ['e'], .rparen, .rel .lt, .integer 2, .rbrack, .pathSep, .name "child".toList, .axisSep, .name "text".toList,
    .lparen, .rparen] := by
  have hd : WritesTestedList (F := F) true [.name ['d']] (.path (.core (.step .child ['d']))) :=
    .path (.core (.rel (.step (.child (m := .name ['d']) trivial))))
  have he : WritesTestedList (F := F) true [.name ['e']] (.path (.core (.step .child ['e']))) :=
    .path (.core (.rel (.step (.child (m := .name ['e']) trivial))))
  have hx : WritesTestedList (F := F) true [.at, .name ['x']] (.core (.last (.attr ['x']))) := .core (.rel (.last (.attr (k := .name ['x']) trivial)))
  have hp := WritesPath.rel (F := F) (.deep (m := .name ['c']) (.slash (.step .up) (.child (m := .name ['b']) trivial)) trivial)
  refine ⟨_, _, .seq (.filter (.core hp) (by simp) (.more (.and (.test rfl (.is (s := ['1']) hx)) (.test rfl (.not (.found hd))))
    (.one (.count (op := .lt) (k := 2) he)))) (.last .textsAxis), ?_, rfl⟩
  simp [TestedList.Ok, TestedPath.Ok, Tests.Ok, ValueTest.Ok, CoreList.Ok, CoreEnd.Ok, CorePath.Ok]

/-! ### C168 -/

/-- C168: `e//m` finds the elements `m` at or below what `e` finds, also after a bracket. -/
theorem C168_one_step_partial (E : Env F) (hd : E.doc.NoEmptyText) (hdict : E.doc.Dicts) (n : Nat) {p : TestedPath} (hp : p.Ok) (m : Str) {u : Spot}
    (hu : E.doc.Place u) {ws : List Spot} (hw : p.Gives E.doc u ws) : ∃ vs : List Spot, E.Yields n (.dslash p.expr (.step .child (.name m))) u.item (vs.map Spot.item) ∧
      ∀ q, .at q ∈ vs ↔ E.doc.Named m q ∧ ∃ w ∈ ws, w.Reach .descendantOrSelf q := by
  obtain ⟨vs, h1, h2, _⟩ := tested_gives E hd hdict n (.deep p m) (by rw [TestedPath.Ok]; exact hp) u hu
  rw [TestedPath.expr] at h1
  refine ⟨vs, h1, fun q => ?_⟩
  have h3 := (h2 vs).2 rfl
  rw [TestedPath.Gives] at h3
  obtain ⟨ws', h4, h5⟩ := h3
  obtain ⟨_, _, h6, _⟩ := tested_gives E hd hdict n p hp u hu
  rw [(h6 ws').1 h4, ← (h6 ws).1 hw] at h5
  have key : ∀ (ws vs : List Spot), InTurn (fun w xs => ∃ qs : List Path, xs = qs.map .at ∧ w.AxisList .descendantOrSelf (E.doc.Named m) qs) ws vs →
      (.at q ∈ vs ↔ E.doc.Named m q ∧ ∃ w ∈ ws, w.Reach .descendantOrSelf q) := by
    intro ws
    induction ws with
    | nil => rintro vs h; rw [show vs = [] from h]; simp
    | cons w ws ih =>
      rintro vs ⟨xs, ys, rfl, ⟨qs, rfl, hq⟩, h⟩
      rw [List.mem_append, ih ys h]
      have : Spot.at q ∈ qs.map Spot.at ↔ w.Reach .descendantOrSelf q ∧ E.doc.Named m q := by
        rw [← hq.2 q]
        simp
      rw [this]
      simp only [List.mem_cons, exists_eq_or_imp]
      constructor
      · rintro (⟨h1, h2⟩ | ⟨h1, h2⟩)
        · exact ⟨h2, .inl h1⟩
        · exact ⟨h1, .inr h2⟩
      · rintro ⟨h1, h2 | h2⟩
        · exact .inl ⟨h2, h1⟩
        · exact .inr ⟨h1, h2⟩
  exact key ws vs h5

/-- C168: but when more than one step follows, `//` after a bracket is no different from `/`: `a[t]//b/c` is `a[t]/b/c`. -/
theorem C168_more_steps (E : Env F) (n : Nat) (e l r : Expr F) (x : Item F) :
    E.run n (.dslash e (.slash l r)) x = E.run n (.slash e (.slash l r)) x := by
  obtain ⟨dyn, h⟩ := run_eval E n
  simp only [h]
  rw [eval, eval]

/-- `<a k="1"><d><b><c/></b></d></a>` -/
def exDeep : Node := .elem ['a'] [(['k'], ['1'])] [.elem ['d'] [] [.elem ['b'] [] [.elem ['c'] [] []]]]

/-- C168 as stated is false: in `<a k="1"><d><b><c/></b></d></a>` the query `a[@k]//b/c` finds nothing, `a//b/c` finds `c`. -/
theorem C168_full_statement_is_false :
    (∃ x, X.xparse noFloats "a[@k]//b/c".toList = some (.ok x) ∧ (queryEnv noFloats (fun _ => none) exDeep).Yields 0 x .root []) ∧
    (∃ x, X.xparse noFloats "a//b/c".toList = some (.ok x) ∧ (queryEnv noFloats (fun _ => none) exDeep).Yields 0 x .root [.node [0, 0, 0]]) :=
  ⟨⟨.dslash (.pred (.step .child (.name ['a'])) [.step .attribute (.name ['k'])]) (.slash (.step .child (.name ['b'])) (.step .child (.name ['c']))),
    by with_unfolding_all rfl, by unfold Env.Yields; decide⟩,
   ⟨.slash (.dslash (.step .child (.name ['a'])) (.step .child (.name ['b']))) (.step .child (.name ['c'])),
    by with_unfolding_all rfl, by unfold Env.Yields; decide⟩⟩

end Amara
