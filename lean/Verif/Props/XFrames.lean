import Verif.Spec.XFrames
import Verif.Lemmas.XFrames
import Verif.Lemmas.XFramesRoom
import Verif.Lemmas.XFramesMore
import Verif.Lemmas.XFramesEv
import Verif.Props.XPathItems
/-
C157: queries under Python's limit on nested calls.
-/
namespace Amara

variable {F : Type}

/-- C157: whatever the limit, a query yields what it yields without one, or a first part of that and then RecursionError:
never a wrong item, none twice or out of order, none left out in silence, and no other exception in place of the one the
query raises. -/
theorem C157_same_or_RecursionError (E : Env F) (c : QNeeds) (k n : Nat) (e : Expr F) (x : Item F) :
    E.runK c k n e x = E.run n e x ∨
    ((E.runK c k n e x).tail = .err .recursion ∧ (E.runK c k n e x).items <+: (E.run n e x).items) :=
  cut_evalN E.fo E.doc c E.parse E.vars n e k x

/-- The two ways to write `n` come to the same if there is no `for-each`. -/
theorem room_evalN (fo : FloatOps F) (doc : Node) (c : QNeeds) (v : Nat) (parse : Str → Except XErr (Expr F)) (vars : Str → Option (Item F))
    (n : Nat) (e : Expr F) (hf : e.noForEach = true) (ha : e.asksDepth = true → ValuesFit F doc c v) (k : Nat) (hk : e.calls c v ≤ k)
    (x : Item F) : evalNK fo doc c parse vars n e k x = evalN fo doc parse vars n e x := by
  cases n with
  | zero => exact room_eval fo c v vars 0 _ _ e hf ha k hk x
  | succ n => exact room_eval fo c v vars (n + 1) _ _ e hf ha k hk x

/-- C157: room that is enough, a number that depends on the query and the height of the document only, not on the number of
nodes or the length of texts, nor on where in the document the query starts. -/
theorem C157_enough_room (E : Env F) (c : QNeeds) {m : Nat} (hc : c.toNeeds.Within m) {e : Expr F} (hf : e.noForEach = true) {k : Nat}
    (hk : e.calls c (2 * E.doc.height + m + 2) ≤ k) (n : Nat) (x : Item F) : E.runK c k n e x = E.run n e x :=
  room_evalN E.fo E.doc c _ E.parse E.vars n e hf (fun _ => valuesFit F hc (Nat.le_refl _)) k hk x

/-- C157: a query that has no union in it and does not ask for the text in elements runs in every document, however deep,
within a number of calls that depends on the query alone: `//`, `ancestor::` and the other axes do not nest calls. -/
theorem C157_any_depth (E : Env F) (c : QNeeds) {e : Expr F} (hf : e.noForEach = true) (hd : e.asksDepth = false) {k : Nat}
    (hk : e.calls c 0 ≤ k) (n : Nat) (x : Item F) : E.runK c k n e x = E.run n e x :=
  room_evalN E.fo E.doc c 0 E.parse E.vars n e hf (fun h => by rw [hd] at h; cases h) k hk x

/-- C157: more room gives at least as much: the same result, or one of which the other was a first part. -/
theorem C157_more_room (E : Env F) (c : QNeeds) {k k' : Nat} (hk : k ≤ k') (n : Nat) (e : Expr F) (x : Item F) :
    E.runK c k n e x = E.runK c k' n e x ∨
    ((E.runK c k n e x).tail = .err .recursion ∧ (E.runK c k n e x).items <+: (E.runK c k' n e x).items) :=
  more_evalN E.fo E.doc c E.parse E.vars n e k k' hk x

/-- C157: for every query, also one that evaluates texts as queries by `for-each()`, and every context item there is a number of
calls from which on it gives what it gives without a limit. -/
theorem C157_some_room_is_enough (E : Env F) (c : QNeeds) (n : Nat) (e : Expr F) (x : Item F) :
    ∃ K, ∀ k, K ≤ k → E.runK c k n e x = E.run n e x :=
  ev_evalN E.fo E.doc c E.parse E.vars n e x

/-- C157: an element with more levels than calls left: its text cannot be had in a query. -/
theorem C157_too_deep (E : Env F) (c : QNeeds) (k n : Nat) {p : Path} {z : Node} (hz : E.doc.at? p = some z) (hk : k < z.height) (s : Str) :
    E.runK c k n (.call "string".toList [.dot]) (.node p) = ⟨[], .err .recursion⟩ ∧
    E.runK c k n (.call "contains".toList [.dot, .lit (.str s)]) (.node p) = ⟨[], .err .recursion⟩ ∧
    E.runK c k n (.eq .dot (.lit (.str s))) (.node p) = ⟨[], .err .recursion⟩ := by
  have hfit : ∀ (k' : Nat) (f : Str), k' < z.height → (Item.node p : Item F).convFits E.doc c k' f = false := by
    intro k' f hk'
    have ht : z.isText = false := by
      cases z with
      | elem _ _ _ => rfl
      | text _ => simp only [Node.height] at hk; omega
    unfold Item.convFits
    have h1 : (Item.strOf E.doc (Item.node p : Item F)).isSome = false := by
      simp only [Item.strOf, Item.textOf, hz]
      cases z
      · rfl
      · cases ht
    have h2 : (Item.node p : Item F).strvalFits E.doc c.toNeeds (k' - c.conv f) = false := by
      simp only [Item.strvalFits, hz]
      rw [(strvalK_none c.toNeeds).1 z (k' - c.conv f) (by omega)]
      rfl
    rw [h1, h2]
    simp
  have hconv : ∀ (dyn : Str → Except XErr (Nat → Item F → Res F)) (f : Str) (k' j : Nat), k' < z.height →
      (evalK E.fo E.doc c E.vars n dyn (.dot : Expr F) j (.node p)).convFirst E.doc c k' f = ⟨[], .err .recursion⟩ := by
    intro dyn f k' j hk'
    cases j with
    | zero => simp [evalK, callK, Res.convFirst, Res.tooDeep, Res.fail]
    | succ j =>
      have : evalK E.fo E.doc c E.vars n dyn (.dot : Expr F) (j + 1) (.node p) = .one (.node p) := by simp only [evalK, callK]
      rw [this]
      simp only [Res.convFirst, Res.one, hfit k' f hk']
      rfl
  have key : ∀ dyn : Str → Except XErr (Nat → Item F → Res F),
      evalK E.fo E.doc c E.vars n dyn (.call "string".toList [.dot]) k (.node p) = ⟨[], .err .recursion⟩ ∧
      evalK E.fo E.doc c E.vars n dyn (.call "contains".toList [.dot, .lit (.str s)]) k (.node p) = ⟨[], .err .recursion⟩ ∧
      evalK E.fo E.doc c E.vars n dyn (.eq .dot (.lit (.str s))) k (.node p) = ⟨[], .err .recursion⟩ := by
    intro dyn
    cases k with
    | zero => exact ⟨by simp only [evalK, callK]; rfl, by simp only [evalK, callK]; rfl, by simp only [evalK, callK]; rfl⟩
    | succ k =>
      refine ⟨?_, ?_, ?_⟩
      · have h := hconv dyn "string".toList k (k - c.arg "string".toList 0) (by omega)
        generalize hr : evalK E.fo E.doc c E.vars n dyn (.dot : Expr F) (k - c.arg "string".toList 0) (.node p) = r at h
        rw [evalK, callK, evalArgsK, evalArgsK, hr]
        unfold callFnK
        split
        · rfl
        · rw [if_neg (by simp)]
          have e : convArgs E.doc c k "string".toList [r] = [⟨[], .err .recursion⟩] := by
            rw [← h]; rfl
          rw [e]
          rfl
      · have h := hconv dyn "contains".toList k (k - c.arg "contains".toList 0) (by omega)
        generalize hr : evalK E.fo E.doc c E.vars n dyn (.dot : Expr F) (k - c.arg "contains".toList 0) (.node p) = r at h
        rw [evalK, callK, evalArgsK, evalArgsK, evalArgsK, hr]
        unfold callFnK
        split
        · rfl
        · rw [if_neg (by simp)]
          generalize evalK E.fo E.doc c E.vars n dyn (.lit (.str s)) (k - c.arg "contains".toList (0 + 1)) (.node p) = b
          have e : convArgs E.doc c k "contains".toList [r, b] = [⟨[], .err .recursion⟩, b.convFirst E.doc c k "contains".toList] := by
            rw [← h]; rfl
          rw [e]
          rfl
      · rw [evalK, callK]
        cases k with
        | zero => simp only [evalK, callK]; rfl
        | succ k =>
          have e1 : evalK E.fo E.doc c E.vars n dyn (.dot : Expr F) (k + 1) (.node p) = .one (.node p) := by simp only [evalK, callK]
          have e2 : evalK E.fo E.doc c E.vars n dyn (.lit (.str s) : Expr F) (k + 1) (.node p) = .one (.str s) := by simp only [evalK, callK]
          rw [e1, e2]
          have hv : (Item.node p : Item F).valueFits E.doc (k + 1) = false := by
            simp only [Item.valueFits, hz]
            rw [xmlValueK_none.1 z (k + 1) (by omega) (by omega)]
            rfl
          simp only [eqResK, Res.one, hv]
          rfl
  cases n with
  | zero => exact key _
  | succ n => exact key _

/-- C157: a union in a document with as many levels as there are calls left, less one, cannot be had either, whatever its
operands. -/
theorem C157_union_too_deep (E : Env F) (c : QNeeds) (k n : Nat) (hk : k ≤ E.doc.height + 1) (l r : Expr F) {x : Item F} (hx : x.isNode = true) :
    E.runK c k n (.union l r) x = ⟨[], .err .recursion⟩ := by
  have key : ∀ dyn : Str → Except XErr (Nat → Item F → Res F), evalK E.fo E.doc c E.vars n dyn (.union l r) k x = ⟨[], .err .recursion⟩ := by
    intro dyn
    cases k with
    | zero => simp only [evalK, callK]; rfl
    | succ k =>
      rw [evalK, callK]
      unfold unionResK
      have : numberFits E.doc k x = false := by
        cases k with
        | zero => rfl
        | succ k =>
          simp only [numberFits, Bool.not_eq_false']
          cases k with
          | zero => split <;> (unfold Node.descendantsK; rfl)
          | succ k =>
            refine (descendantsK_ends.1 _ [] _ (by omega)).2 ?_
            split
            · simp only [Node.height, Node.heights]; omega
            · omega
      rw [hx, this]
      rfl
  cases n with
  | zero => exact key _
  | succ n => exact key _

/-- C157 as stated is false: whatever the limit, there is a document that is parsed, in which these queries raise
RecursionError, while a query that does not ask for text finds all it is asked for. -/
theorem C157_full_statement_is_false (fo : FloatOps F) (c : QNeeds) (k : Nat) (parse : Str → Except XErr (Expr F)) : ∃ (w : Str) (doc : Node),
    (∀ b r b', TreeParse b w r b' → ∃ i, r = .returned (some i) ∧ Rep b'.heap none i doc) ∧
    Env.runK ⟨fo, doc, fun _ => none, parse⟩ c k 0 (.call "string".toList [.dot]) (.node []) = ⟨[], .err .recursion⟩ := by
  have hh := tower_height k
  refine ⟨towerText k, tower k, ?_, ?_⟩
  · intro b r b' hp
    refine C20_builder_builds_the_tree ⟨by cases k <;> rfl, [], towerText k, [], ?_, ?_, tower_spelled k, by simp⟩ hp
    · intro c hc; cases hc
    · intro c hc; cases hc
  · exact (C157_too_deep ⟨fo, tower k, fun _ => none, parse⟩ c k 0 rfl (by show k < (tower k).height; omega) []).1

-- the needs of a query in CPython, roughly
def someNeeds : QNeeds := ⟨⟨2, 1, 1, 2⟩, 1, 4, fun _ _ => 4, fun _ _ => 3, fun _ => 4, 40⟩

-- `//a[@k='v']` neither has a union in it nor asks for the text in elements: nine calls are enough in every document, however
-- deep
example : X.xparse noFloats "//a[@k='v']".toList =
    some (.ok (.pred (.absAll (.step .child (.name ['a']))) [.eq (.step .attribute (.name ['k'])) (.lit (.str ['v']))])) := by
  with_unfolding_all rfl
example : ∀ (h : Nat) (x : Item NoF),
    let e : Expr NoF := .pred (.absAll (.step .child (.name ['a']))) [.eq (.step .attribute (.name ['k'])) (.lit (.str ['v']))]
    Env.runK ⟨noFloats, tower h, fun _ => none, fun _ => .error .key⟩ someNeeds 9 0 e x =
      Env.run ⟨noFloats, tower h, fun _ => none, fun _ => .error .key⟩ 0 e x := by
  intro h x
  exact C157_any_depth _ someNeeds (by decide) (by decide) (by decide) 0 x
-- `//a/b` in `<a><a><b/></a></a>` with six calls and with eight; `b[.='x']` in `<a><b>x</b></a>` asks for the text in `b`, and gets by
-- with nine
example :
    let doc : Node := .elem ['a'] [] [.elem ['a'] [] [.elem ['b'] [] []]]
    let e : Expr NoF := .slash (.absAll (.step .child (.name ['a']))) (.step .child (.name ['b']))
    Env.runK ⟨noFloats, doc, fun _ => none, fun _ => .error .key⟩ someNeeds 6 0 e (.node []) = ⟨[], .err .recursion⟩ ∧
    Env.runK ⟨noFloats, doc, fun _ => none, fun _ => .error .key⟩ someNeeds 8 0 e (.node []) = ⟨[.node [0, 0]], .done⟩ ∧
    e.calls someNeeds 0 = 7 := by
  with_unfolding_all decide
example :
    let doc : Node := .elem ['a'] [] [.elem ['b'] [] [.text ['x']]]
    let e : Expr NoF := .pred (.step .child (.name ['b'])) [.eq .dot (.lit (.str ['x']))]
    Env.runK ⟨noFloats, doc, fun _ => none, fun _ => .error .key⟩ someNeeds 10 0 e (.node []) = ⟨[.node [0]], .done⟩ ∧
    e.asksDepth = true ∧ e.noForEach = true ∧ e.calls someNeeds (2 * doc.height + 2 + 2) = 10 ∧ someNeeds.toNeeds.Within 2 := by
  unfold Needs.Within
  with_unfolding_all decide
-- a query that is cut off: `(., string(.))` yields the element and then raises RecursionError
example :
    let e : Expr NoF := .seq [.dot, .call "string".toList [.dot]]
    Env.runK ⟨noFloats, tower 20, fun _ => none, fun _ => .error .key⟩ someNeeds 12 0 e (.node []) = ⟨[.node []], .err .recursion⟩ := by
  with_unfolding_all rfl

-- `for-each(a, 'b')`, a query that evaluates a text, with too few calls (six are cut off in the evaluation of the text) and with enough
example :
    let doc : Node := .elem ['r'] [] [.elem ['a'] [] [.elem ['b'] [] []]]
    let e : Expr NoF := .call "for-each".toList [.step .child (.name ['a']), .lit (.str ['b'])]
    let E : Env NoF := ⟨noFloats, doc, fun _ => none, fun s => if s = ['b'] then .ok (.step .child (.name ['b'])) else .error .runtime⟩
    E.runK ⟨⟨2, 1, 1, 2⟩, 1, 4, fun _ _ => 4, fun _ _ => 1, fun _ => 3, 5⟩ 6 1 e (.node []) = ⟨[], .err .recursion⟩ ∧
    E.runK ⟨⟨2, 1, 1, 2⟩, 1, 4, fun _ _ => 4, fun _ _ => 1, fun _ => 3, 5⟩ 7 1 e (.node []) = ⟨[.node [0, 0]], .done⟩ := by
  with_unfolding_all exact ⟨rfl, rfl⟩
-- `. | b` in a document of two levels with three calls
example : (Node.elem ['a'] [] [.elem ['b'] [] []]).height = 2 ∧
    Env.runK ⟨noFloats, .elem ['a'] [] [.elem ['b'] [] []], fun _ => none, fun _ => .error .key⟩ someNeeds 3 0
      (.union .dot (.step .child (.name ['b']))) (.node []) = ⟨[], .err .recursion⟩ ∧
    Env.runK ⟨noFloats, .elem ['a'] [] [.elem ['b'] [] []], fun _ => none, fun _ => .error .key⟩ someNeeds 6 0
      (.union .dot (.step .child (.name ['b']))) (.node []) = ⟨[.node [], .node [0]], .done⟩ := by
  with_unfolding_all exact ⟨rfl, rfl, rfl⟩

end Amara
