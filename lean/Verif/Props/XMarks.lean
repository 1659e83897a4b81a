import Verif.Lemmas.XMarksEval
/-
C158: earlier queries, and queries under way, do not change what a query yields.
-/
namespace Amara

variable {F : Type}

/-- Nothing is numbered after parsing. -/
theorem fresh_ordered (doc : Node) : Marks.fresh.Ordered doc := .inl ⟨rfl, fun _ => rfl⟩

/-- Queries under way with what is left of them: each agrees with the rest of its answer, whatever numbers are given
meanwhile. -/
theorem session_forgetful (E : Env F) (hd : E.doc.ElemAt []) (hvars : ∀ v y, E.vars v = some y → y.isRoot = false) (fe : Bool)
    (hp : fe = true → ∀ s e, E.parse s = .ok e → e.plainUnions fe = true) (n : Nat) :
    ∀ (ops : List (QOp F)), (∀ o ∈ ops, o.plain fe) → ∀ (gs : List (QGen F)) (qs : List (Res F)) (m : Marks), gs.length = qs.length →
      m.Ordered E.doc →
      (∀ (i : Nat) (g : QGen F) (q : Res F), gs[i]? = some g → qs[i]? = some q → ∃ w, g.AgreesAt (MarksInv E.doc) w q ∧ MarksInv E.doc w m) →
      session E.fo E.doc E.parse E.vars n ops gs m = E.forgetful n ops qs
  | [], _, _, _, _, _, _, _ => rfl
  | .ask e x :: r, hops, gs, qs, m, hlen, hm, hgs => by
    rw [session, Env.forgetful]
    refine session_forgetful E hd hvars fe hp n r (fun o ho => hops o (List.mem_cons_of_mem _ ho)) _ _ m (by simp [hlen]) hm ?_
    intro i g q hg hq
    rcases Nat.lt_trichotomy i gs.length with h | h | h
    · rw [List.getElem?_append_left h] at hg
      rw [List.getElem?_append_left (by omega)] at hq
      exact hgs i g q hg hq
    · subst h
      rw [List.getElem?_append_right (Nat.le_refl _)] at hg
      rw [List.getElem?_append_right (by omega)] at hq
      rw [hlen, Nat.sub_self] at hq
      rw [Nat.sub_self] at hg
      cases hg
      cases hq
      exact ⟨false, agrees_evalN E.fo E.doc E.parse E.vars fe hp hd hvars n e (hops _ List.mem_cons_self) x false, hm⟩
    · rw [List.getElem?_eq_none (by simp; omega)] at hg
      cases hg
  | .next i :: r, hops, gs, qs, m, hlen, hm, hgs => by
    rw [session, Env.forgetful]
    have hops' : ∀ o ∈ r, QOp.plain fe o := fun o ho => hops o (List.mem_cons_of_mem _ ho)
    rcases Nat.lt_or_ge i gs.length with h | h
    · have hi' : i < qs.length := by omega
      rw [List.getElem?_eq_getElem h, List.getElem?_eq_getElem hi']
      dsimp only
      obtain ⟨w, h1, h2⟩ := hgs i _ _ (List.getElem?_eq_getElem h) (List.getElem?_eq_getElem hi')
      obtain ⟨i1, i2, w', i3, i4, i5⟩ := resume_agrees h1 h2
      rw [i1]
      congr 1
      have hm' : ((gs[i].resume m).2.2).Ordered E.doc := by
        cases w' with
        | false => exact i4
        | true => exact .inr i4
      refine session_forgetful E hd hvars fe hp n r hops' _ _ _ (by simp [hlen]) hm' ?_
      intro j g q hg hq
      rw [List.getElem?_set] at hg hq
      by_cases hij : i = j
      · subst hij
        rw [if_pos rfl, if_pos h] at hg
        rw [if_pos rfl, if_pos hi'] at hq
        cases hg
        cases hq
        exact ⟨w', i5, i4⟩
      · rw [if_neg hij] at hg hq
        obtain ⟨v, v1, v2⟩ := hgs j g q hg hq
        cases v with
        | false => exact ⟨false, v1, hm'⟩
        | true => exact ⟨true, v1, i2 v2⟩
    · rw [List.getElem?_eq_none h, List.getElem?_eq_none (by omega)]
      exact session_forgetful E hd hvars fe hp n r hops' gs qs m hlen hm hgs

/-- C158 (partial): a program asks any queries on a document, at any context items, and takes their items in any order, a
few of one and then a few of another, going back to one begun earlier or leaving it unfinished.  It sees just what it would
see if each query were answered by itself when it is asked: the order numbers that unions leave on the nodes, and that other
queries leave while a query is under way, change nothing.  This holds for queries in which the sides of a union never yield
the root node (and, if they use `for-each`, the queries written in texts must be so too).  Missing: unions with the root
node, `C158_full_statement_is_false`. -/
theorem C158_history_does_not_matter_partial (E : Env F) (hd : E.doc.ElemAt []) (hvars : ∀ v y, E.vars v = some y → y.isRoot = false)
    (fe : Bool) (hp : fe = true → ∀ s e, E.parse s = .ok e → e.plainUnions fe = true) (n : Nat) (ops : List (QOp F))
    (hops : ∀ o ∈ ops, o.plain fe) {m : Marks} (hm : m.Ordered E.doc) : E.session n ops m = E.forgetful n ops [] :=
  session_forgetful E hd hvars fe hp n ops hops [] [] m rfl hm (fun i g q hg _ => by simp at hg)

/-- C158: so right after parsing, when no node has a number. -/
theorem C158_after_parsing_partial (E : Env F) (hd : E.doc.ElemAt []) (hvars : ∀ v y, E.vars v = some y → y.isRoot = false)
    (n : Nat) (ops : List (QOp F)) (hops : ∀ o ∈ ops, o.plain false) : E.session n ops .fresh = E.forgetful n ops [] :=
  C158_history_does_not_matter_partial E hd hvars false (fun h => by cases h) n ops hops (fresh_ordered E.doc)

/-! ### cases -/

namespace XMarksCase

/-- `<r>t<a/><b><a/></b></r>`. -/
def d : Node := .elem ['r'] [] [.text ['t'], .elem ['a'] [] [], .elem ['b'] [] [.elem ['a'] [] []]]

def fo : FloatOps Unit := ⟨fun _ => none, fun _ => [], fun _ => none, fun _ => false, fun _ _ => none⟩

def env : Env Unit := ⟨fo, d, fun _ => none, fun _ => .error .runtime⟩

/-- `r/b | r/a`. -/
def q1 : Expr Unit :=
  .union (.slash (.step .child (.name ['r'])) (.step .child (.name ['b']))) (.slash (.step .child (.name ['r'])) (.step .child (.name ['a'])))

/-- `r/text()[../b | ../a]`: a union at a text node, which numbers the elements anew. -/
def q2 : Expr Unit :=
  .pred (.slash (.step .child (.name ['r'])) (.step .child .text))
    [.union (.slash .dotdot (.step .child (.name ['b']))) (.slash .dotdot (.step .child (.name ['a'])))]

/-- `* | .`. -/
def q3 : Expr Unit := .union (.step .child .star) .dot

/-- Two queries begun, one carried on after the other one has numbered the document in another way, and begun again. -/
def ops : List (QOp Unit) :=
  [.ask q1 .root, .next 0, .ask q2 .root, .next 1, .next 0, .ask q1 (.root), .next 2, .next 2, .next 0, .next 1, .next 2]

end XMarksCase

open XMarksCase in
example : env.session 0 ops .fresh = [.inl (.node [1]), .inl (.node [0]), .inl (.node [2]), .inl (.node [1]), .inl (.node [2]),
    .inr .done, .inr .done, .inr .done] ∧ (∀ o ∈ ops, o.plain false) ∧ d.ElemAt [] := by
  refine ⟨by decide +kernel, ?_, ⟨_, _, _, rfl⟩⟩
  intro o ho
  simp only [ops, List.mem_cons, List.not_mem_nil, or_false] at ho
  rcases ho with h | h | h | h | h | h | h | h | h | h | h <;> subst h <;> first | exact trivial | (show Expr.plainUnions _ _ = true; decide)

/-- C158: the full statement is false: with the root node in a union a query depends on the history.  On
`<r>t<a/><b><a/></b></r>` the query `* | .`, asked at the root, yields the root and then `r`; asked again after
`r/text()[../b | ../a]` it yields `r` and then the root, both having the number 0 by then. -/
theorem C158_full_statement_is_false :
    ∃ (E : Env Unit) (ops : List (QOp Unit)), E.session 0 ops .fresh ≠ E.forgetful 0 ops [] ∧
      E.session 0 ops .fresh = [.inl .root, .inl (.node []), .inr .done, .inl (.node [0]), .inl (.node []), .inl .root, .inr .done] :=
  ⟨XMarksCase.env, [.ask XMarksCase.q3 .root, .next 0, .next 0, .next 0, .ask XMarksCase.q2 .root, .next 1, .ask XMarksCase.q3 .root,
    .next 2, .next 2, .next 2], by decide +kernel, by decide +kernel⟩

end Amara
