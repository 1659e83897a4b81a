import Verif.Spec.VarValues
import Verif.Props.QueryText
import Verif.Props.XPathFns
/-
C170: a variable stands for its value.
-/
namespace Amara
open X (Tok GExpr GPrim Denotes Written)

variable {F : Type}

theorem noVarPositions_mem {es : List (Expr F)} (h : Expr.NoVarPositions es) : ∀ e ∈ es, e.NoVarPosition := by
  induction es with
  | nil => intro e he; cases he
  | cons a es ih =>
    intro e he
    rw [Expr.NoVarPositions] at h
    rcases List.mem_cons.1 he with rfl | he
    · exact h.1
    · exact ih h.2 e he

theorem fill_intArg (fo : FloatOps F) (doc : Node) (vars : Str → Option (Item F)) {e : Expr F} (h : e.isVar = false) :
    intArg fo doc (e.fill vars) = intArg fo doc e := by
  cases e with
  | abs r => cases r <;> rfl
  | var v => cases h
  | _ => rfl

theorem fill_callFn (fo : FloatOps F) (doc : Node) (vars : Str → Option (Item F)) (dyn : Str → Except XErr (Item F → Res F)) (x : Item F) (f : Str)
    (as : List (Expr F)) (rs : List (Res F)) (h : f = "substring".toList → ∀ a ∈ as.tail, a.isVar = false) :
    callFn fo doc dyn x f (Expr.fillAll vars as) rs = callFn fo doc dyn x f as rs := by
  by_cases hf : f = "substring".toList
  · have h := h hf
    simp only [callFn]
    have : fnSubstring fo doc (Expr.fillAll vars as) rs = fnSubstring fo doc as rs := by
      match as, h with
      | [], _ => rfl
      | [_], _ => rfl
      | [_, _], _ => rfl
      | [_, a, b], h =>
        simp only [Expr.fillAll, fnSubstring, fill_intArg fo doc vars (h a (by simp)), fill_intArg fo doc vars (h b (by simp))]
      | _ :: _ :: _ :: _ :: _, _ => rfl
    rw [this]
  · simp only [callFn, if_neg hf]

theorem fill_justNode (vars : Str → Option (Item F)) (e : Expr F) : (e.fill vars).isJustNode = e.isJustNode := by
  cases e with
  | abs r => cases r <;> rfl
  | var v =>
    rw [Expr.fill]
    split <;> rfl
  | _ => rfl

section
variable (fo : FloatOps F) (doc : Node) (vars : Str → Option (Item F)) (n : Nat) (dyn : Str → Except XErr (Item F → Res F))

theorem fill_same (e : Expr F) : e.NoVarPosition → ∀ x, eval fo doc vars n dyn (e.fill vars) x = eval fo doc vars n dyn e x := by
  refine Expr.induct (P := fun e => e.NoVarPosition → ∀ x, eval fo doc vars n dyn (e.fill vars) x = eval fo doc vars n dyn e x)
    ?_ ?_ ?_ ?_ ?_ ?_ ?_ ?_ ?_ ?_ ?_ ?_ ?_ ?_ ?_ ?_ ?_ ?_ ?_ ?_ ?_ ?_ e
  · intro y _ x; rw [Expr.fill]
  · intro e ih h x
    rw [Expr.NoVarPosition] at h
    rw [Expr.fill, eval, eval, ih h]
  · intro l r il ir h x
    rw [Expr.NoVarPosition] at h
    rw [Expr.fill, eval, eval, il h.1]
    simp only [ir h.2]
  · intro l r il ir h x
    rw [Expr.NoVarPosition] at h
    have ir' : ∀ x, eval fo doc vars n dyn (r.fill vars).setAxis x = eval fo doc vars n dyn r.setAxis x := by
      intro x
      have := ir h.2 x
      cases r with
      | step a t => rw [Expr.fill]
      | var v =>
        rw [show (Expr.var v : Expr F).setAxis = .var v from rfl, ← this]
        rw [Expr.fill]
        split <;> rfl
      | abs r =>
        cases r with
        | none => exact this
        | some r => rw [Expr.fill] at this ⊢; exact this
      | _ => first | rfl | (simp only [Expr.fill] at this ⊢; exact this)
    rw [Expr.fill, eval_dslash, eval_dslash, il h.1]
    simp only [ir']
  · intro l r il ir h x
    rw [Expr.NoVarPosition] at h
    rw [Expr.fill, eval, eval, il h.1, ir h.2]
  · intro l r il ir h x
    rw [Expr.NoVarPosition] at h
    rw [Expr.fill, eval, eval, il h.1, ir h.2]
  · intro l r il ir h x
    rw [Expr.NoVarPosition] at h
    rw [Expr.fill, eval, eval, il h.1, ir h.2]
  · intro op l r il ir h x
    rw [Expr.NoVarPosition] at h
    rw [Expr.fill, eval, eval, il h.1, ir h.2]
  · intro l r il ir h x
    rw [Expr.NoVarPosition] at h
    rw [Expr.fill, eval, eval, il h.1, ir h.2]
  · intro l r il ir h x
    rw [Expr.NoVarPosition] at h
    rw [Expr.fill, eval, eval, il h.1, ir h.2]
  · intro op l r _ _ _ x
    rw [Expr.fill, eval, eval]
  · intro _ x; rw [Expr.fill]
  · intro r ir h x
    rw [Expr.NoVarPosition] at h
    rw [Expr.fill, eval, eval]
    simp only [ir h, fill_justNode]
  · intro r ir h x
    rw [Expr.NoVarPosition] at h
    rw [Expr.fill, eval, eval]
    simp only [ir h, fill_justNode]
  · intro a t _ x; rw [Expr.fill]
  · intro t _ x; rw [Expr.fill]
  · intro l ps il ips h x
    rw [Expr.NoVarPosition] at h
    have hp : ∀ pos y, evalPreds fo doc vars n dyn pos (Expr.fillAll vars ps) y = evalPreds fo doc vars n dyn pos ps y := by
      have hu := noVarPositions_mem h.2
      clear h
      intro pos y
      induction ps with
      | nil => rw [Expr.fillAll]
      | cons p ps ih =>
        rw [Expr.fillAll, evalPreds, evalPreds, ips p (by simp) (hu p (by simp)), ih (fun q hq => ips q (by simp [hq])) (fun q hq => hu q (by simp [hq]))]
    rw [Expr.fill, eval, eval, il h.1]
    simp only [hp]
  · intro _ x; rw [Expr.fill]
  · intro _ x; rw [Expr.fill]
  · intro v h x
    rw [Expr.fill, eval.eq_def fo doc vars n dyn (.var v)]
    cases hv : vars v with
    | some y => simp only [eval, hv]
    | none => simp only [eval, hv]
  · intro f as ias h x
    rw [Expr.NoVarPosition] at h
    have ha : evalArgs fo doc vars n dyn (Expr.fillAll vars as) x = evalArgs fo doc vars n dyn as x := by
      have hu := noVarPositions_mem h.2
      clear h
      induction as with
      | nil => rw [Expr.fillAll]
      | cons a as ih =>
        rw [Expr.fillAll, evalArgs, evalArgs, ias a (by simp) (hu a (by simp)), ih (fun q hq => ias q (by simp [hq])) (fun q hq => hu q (by simp [hq]))]
    rw [Expr.fill, eval, eval, ha, fill_callFn fo doc vars dyn x f as _ h.1]
  · intro es ies h x
    rw [Expr.NoVarPosition] at h
    have ha : evalSeq fo doc vars n dyn (Expr.fillAll vars es) x = evalSeq fo doc vars n dyn es x := by
      have hu := noVarPositions_mem h
      clear h
      induction es with
      | nil => rw [Expr.fillAll]
      | cons a as ih =>
        rw [Expr.fillAll, evalSeq, evalSeq, ies a (by simp) (hu a (by simp)), ih (fun q hq => ies q (by simp [hq])) (fun q hq => hu q (by simp [hq]))]
    rw [Expr.fill, eval, eval, ha]

end

/-! ### texts -/

theorem varied_append {vars : Str → Option (Item F)} : ∀ {w₁ w₂ w' : List (Tok F)}, Varied vars (w₁ ++ w₂) w' →
    ∃ w₁' w₂', w' = w₁' ++ w₂' ∧ Varied vars w₁ w₁' ∧ Varied vars w₂ w₂'
  | [], w₂, w', h => ⟨[], w', rfl, .nil, h⟩
  | t :: w₁, w₂, w', h => by
    cases h with
    | same h =>
      obtain ⟨a, b, rfl, h1, h2⟩ := varied_append h
      exact ⟨t :: a, b, rfl, .same h1, h2⟩
    | string hn hv h =>
      obtain ⟨a, b, rfl, h1, h2⟩ := varied_append h
      exact ⟨_ :: _ :: a, b, rfl, .string hn hv h1, h2⟩
    | number hn hv h =>
      obtain ⟨a, b, rfl, h1, h2⟩ := varied_append h
      exact ⟨_ :: _ :: a, b, rfl, .number hn hv h1, h2⟩

/-- A token that is no constant stays. -/
theorem varied_cons {vars : Str → Option (Item F)} {t : Tok F} {w w' : List (Tok F)} (h : Varied vars (t :: w) w')
    (h1 : ∀ s, t ≠ .literal s) (h2 : ∀ k, t ≠ .integer k) : ∃ u, w' = t :: u ∧ Varied vars w u := by
  cases h with
  | same h => exact ⟨_, rfl, h⟩
  | string => exact absurd rfl (h1 _)
  | number => exact absurd rfl (h2 _)

theorem varied_name {vars : Str → Option (Item F)} {t : Tok F} {w w' : List (Tok F)} (h : Varied vars (t :: w) w') (hn : t.isName) :
    ∃ u, w' = t :: u ∧ Varied vars w u :=
  varied_cons h (by rintro s rfl; exact hn) (by rintro s rfl; exact hn)

theorem varied_nil {vars : Str → Option (Item F)} {w' : List (Tok F)} (h : Varied vars [] w') : w' = [] := by
  cases h
  rfl

theorem fillAll_map (vars : Str → Option (Item F)) : ∀ es : List (Expr F), Expr.fillAll vars es = es.map (Expr.fill vars)
  | [] => by rw [Expr.fillAll]; rfl
  | e :: es => by rw [Expr.fillAll, fillAll_map vars es]; rfl

theorem fill_called (vars : Str → Option (Item F)) (n : Str) (as : List (Expr F)) :
    (X.called n as).fill vars = X.called n (Expr.fillAll vars as) := by
  unfold X.called
  split
  · rw [Expr.fill]
  · split
    · rw [Expr.fill]
    · rw [Expr.fill]

theorem fill_meaning {vars : Str → Option (Item F)} {l r l' r' : Expr F} {o : Tok F} {e : Expr F} (h : X.meaning l o r = some e)
    (hl : l'.fill vars = l.fill vars) (hr : r'.fill vars = r.fill vars) : ∃ e', X.meaning l' o r' = some e' ∧ e'.fill vars = e.fill vars := by
  cases o <;> simp only [X.meaning, Option.some.injEq, reduceCtorEq] at h <;> subst h <;> refine ⟨_, rfl, ?_⟩
  case logical b => cases b <;> simp [Expr.fill, hl, hr]
  case equal b => cases b <;> simp [Expr.fill, hl, hr]
  all_goals simp [Expr.fill, hl, hr]

mutual
  theorem varied_test {vars : Str → Option (Item F)} : ∀ {b : Bool} {w : List (Tok F)} {t : Test} {w' : List (Tok F)}, X.GTest b w t → Varied vars w w' →
      X.GTest b w' t
    | _, _, _, _, .star, h => by
      obtain ⟨u_1, rfl, h_1⟩ := varied_cons h (by simp) (by simp)
      rw [varied_nil h_1]
      exact .star
    | _, _, _, _, .name hn, h => by
      obtain ⟨u_2, rfl, h_2⟩ := varied_name h hn
      rw [varied_nil h_2]
      exact .name hn
    | _, _, _, _, .type (as := as) (t := t) hn ha hc, h => by
      obtain ⟨u_3, rfl, h_3⟩ := varied_name h hn
      obtain ⟨as', h1, _⟩ := varied_args ha h_3
      refine .type hn h1 ?_
      unfold X.called at hc ⊢
      split
      · rw [if_pos ‹_›] at hc; exact hc
      · rw [if_neg ‹_›] at hc
        split
        · rw [if_pos ‹_›] at hc; exact hc
        · rw [if_neg ‹_›] at hc; cases hc
  theorem varied_step {vars : Str → Option (Item F)} : ∀ {b : Bool} {w : List (Tok F)} {e : Expr F} {w' : List (Tok F)}, X.GStep b w e → Varied vars w w' →
      X.GStep b w' e
    | _, _, _, _, .dot, h => by
      obtain ⟨u_4, rfl, h_4⟩ := varied_cons h (by simp) (by simp)
      rw [varied_nil h_4]
      exact .dot
    | _, _, _, _, .dotdot, h => by
      obtain ⟨u_5, rfl, h_5⟩ := varied_cons h (by simp) (by simp)
      rw [varied_nil h_5]
      exact .dotdot
    | _, _, _, _, .child ht, h => .child (varied_test ht h)
    | _, _, _, _, .attr ht, h => by
      obtain ⟨u_6, rfl, h_6⟩ := varied_cons h (by simp) (by simp)
      exact .attr (varied_test ht h_6)
    | _, _, _, _, .axis ha ht, h => by
      obtain ⟨u_7, rfl, h_7⟩ := varied_cons h (by simp) (by simp)
      obtain ⟨u_8, rfl, h_8⟩ := varied_cons h_7 (by simp) (by simp)
      exact .axis ha (varied_test ht h_8)
  theorem varied_rel {vars : Str → Option (Item F)} : ∀ {b : Bool} {w : List (Tok F)} {e : Expr F} {w' : List (Tok F)}, X.GRel b w e → Varied vars w w' →
      X.GRel b w' e
    | _, _, _, _, .step hs, h => .step (varied_step hs h)
    | _, _, _, _, .slash h1 h2, h => by
      obtain ⟨a, b, rfl, ha, hb⟩ := varied_append h
      obtain ⟨u_9, rfl, hb_9⟩ := varied_cons hb (by simp) (by simp)
      exact .slash (varied_rel h1 ha) (varied_step h2 hb_9)
    | _, _, _, _, .dslash h1 h2, h => by
      obtain ⟨a, b, rfl, ha, hb⟩ := varied_append h
      obtain ⟨u_10, rfl, hb_10⟩ := varied_cons hb (by simp) (by simp)
      exact .dslash (varied_rel h1 ha) (varied_step h2 hb_10)
  theorem varied_args {vars : Str → Option (Item F)} : ∀ {w : List (Tok F)} {es : List (Expr F)} {w' : List (Tok F)}, X.GArgs w es → Varied vars w w' →
      ∃ es', X.GArgs w' es' ∧ Expr.fillAll vars es' = Expr.fillAll vars es
    | _, _, _, .none, h => by
      obtain ⟨u_11, rfl, h_11⟩ := varied_cons h (by simp) (by simp)
      obtain ⟨u_12, rfl, h_12⟩ := varied_cons h_11 (by simp) (by simp)
      rw [varied_nil h_12]
      exact ⟨_, .none, rfl⟩
    | _, _, _, .some hl, h => by
      obtain ⟨u_13, rfl, h_13⟩ := varied_cons h (by simp) (by simp)
      obtain ⟨a, b, rfl, ha, hb⟩ := varied_append h_13
      obtain ⟨u_14, rfl, hb_14⟩ := varied_cons hb (by simp) (by simp)
      rw [varied_nil hb_14]
      obtain ⟨es', h1, h2⟩ := varied_list hl ha
      exact ⟨es', .some h1, h2⟩
  theorem varied_list {vars : Str → Option (Item F)} : ∀ {w : List (Tok F)} {es : List (Expr F)} {w' : List (Tok F)}, X.GList w es → Varied vars w w' →
      ∃ es', X.GList w' es' ∧ Expr.fillAll vars es' = Expr.fillAll vars es
    | _, _, _, .one he, h => by
      obtain ⟨e', h1, h2⟩ := varied_expr he h
      exact ⟨[e'], .one h1, by simp [Expr.fillAll, h2]⟩
    | _, _, _, .more hl he, h => by
      obtain ⟨a, b, rfl, ha, hb⟩ := varied_append h
      obtain ⟨u_15, rfl, hb_15⟩ := varied_cons hb (by simp) (by simp)
      obtain ⟨es', h1, h2⟩ := varied_list hl ha
      obtain ⟨e', h3, h4⟩ := varied_expr he hb_15
      refine ⟨es' ++ [e'], .more h1 h3, ?_⟩
      rw [fillAll_map] at h2 ⊢
      rw [fillAll_map] at h2 ⊢
      rw [List.map_append, List.map_append, h2, List.map_singleton, List.map_singleton, h4]
  theorem varied_preds {vars : Str → Option (Item F)} : ∀ {w : List (Tok F)} {es : List (Expr F)} {w' : List (Tok F)}, X.GPreds w es → Varied vars w w' →
      ∃ es', X.GPreds w' es' ∧ Expr.fillAll vars es' = Expr.fillAll vars es
    | _, _, _, .one he, h => by
      obtain ⟨u_16, rfl, h_16⟩ := varied_cons h (by simp) (by simp)
      obtain ⟨a, b, rfl, ha, hb⟩ := varied_append h_16
      obtain ⟨u_17, rfl, hb_17⟩ := varied_cons hb (by simp) (by simp)
      rw [varied_nil hb_17]
      obtain ⟨e', h1, h2⟩ := varied_expr he ha
      exact ⟨[e'], .one h1, by simp [Expr.fillAll, h2]⟩
    | _, _, _, .more hl he, h => by
      obtain ⟨a, b, rfl, ha, hb⟩ := varied_append h
      obtain ⟨u_18, rfl, hb_18⟩ := varied_cons hb (by simp) (by simp)
      obtain ⟨c, d, rfl, hc, hd⟩ := varied_append hb_18
      obtain ⟨u_19, rfl, hd_19⟩ := varied_cons hd (by simp) (by simp)
      rw [varied_nil hd_19]
      obtain ⟨es', h1, h2⟩ := varied_preds hl ha
      obtain ⟨e', h3, h4⟩ := varied_expr he hc
      refine ⟨es' ++ [e'], .more h1 h3, ?_⟩
      rw [fillAll_map] at h2 ⊢
      rw [fillAll_map] at h2 ⊢
      rw [List.map_append, List.map_append, h2, List.map_singleton, List.map_singleton, h4]
  theorem varied_prim {vars : Str → Option (Item F)} : ∀ {k : X.Last} {w : List (Tok F)} {e : Expr F} {w' : List (Tok F)}, GPrim k w e → Varied vars w w' →
      ∃ e', GPrim k w' e' ∧ e'.fill vars = e.fill vars
    | _, _, _, _, .literal (s := s), h => by
      cases h with
      | same h =>
        rw [varied_nil h]
        exact ⟨_, .literal, rfl⟩
      | string hn hv h =>
        rw [varied_nil h]
        exact ⟨_, .var hn, by simp [Expr.fill, hv]⟩
    | _, _, _, _, .float, h => by
      obtain ⟨u_20, rfl, h_20⟩ := varied_cons h (by simp) (by simp)
      rw [varied_nil h_20]
      exact ⟨_, .float, rfl⟩
    | _, _, _, _, .integer, h => by
      cases h with
      | same h =>
        rw [varied_nil h]
        exact ⟨_, .integer, rfl⟩
      | number hn hv h =>
        rw [varied_nil h]
        exact ⟨_, .var hn, by simp [Expr.fill, hv]⟩
    | _, _, _, _, .var hn, h => by
      obtain ⟨u_21, rfl, h_21⟩ := varied_cons h (by simp) (by simp)
      obtain ⟨u_22, rfl, h_22⟩ := varied_name h_21 hn
      rw [varied_nil h_22]
      exact ⟨_, .var hn, rfl⟩
    | _, _, _, _, .call hn ha, h => by
      obtain ⟨u_23, rfl, h_23⟩ := varied_name h hn
      obtain ⟨as', h1, h2⟩ := varied_args ha h_23
      exact ⟨_, .call hn h1, by rw [fill_called, fill_called, h2]⟩
    | _, _, _, _, .nil, h => by
      obtain ⟨u_24, rfl, h_24⟩ := varied_cons h (by simp) (by simp)
      obtain ⟨u_25, rfl, h_25⟩ := varied_cons h_24 (by simp) (by simp)
      rw [varied_nil h_25]
      exact ⟨_, .nil, rfl⟩
    | _, _, _, _, .seq hl, h => by
      obtain ⟨u_26, rfl, h_26⟩ := varied_cons h (by simp) (by simp)
      obtain ⟨a, b, rfl, ha, hb⟩ := varied_append h_26
      obtain ⟨u_27, rfl, hb_27⟩ := varied_cons hb (by simp) (by simp)
      rw [varied_nil hb_27]
      obtain ⟨es', h1, h2⟩ := varied_list hl ha
      exact ⟨_, .seq h1, by rw [Expr.fill, Expr.fill, h2]⟩
    | _, _, _, _, .root, h => by
      obtain ⟨u_28, rfl, h_28⟩ := varied_cons h (by simp) (by simp)
      rw [varied_nil h_28]
      exact ⟨_, .root, rfl⟩
    | _, _, _, _, .abs hr, h => by
      obtain ⟨u_29, rfl, h_29⟩ := varied_cons h (by simp) (by simp)
      exact ⟨_, .abs (varied_rel hr h_29), rfl⟩
    | _, _, _, _, .absAll hr, h => by
      obtain ⟨u_30, rfl, h_30⟩ := varied_cons h (by simp) (by simp)
      exact ⟨_, .absAll (varied_rel hr h_30), rfl⟩
    | _, _, _, _, .rel hr, h => ⟨_, .rel (varied_rel hr h), rfl⟩
  theorem varied_expr {vars : Str → Option (Item F)} : ∀ {l r : Nat} {k : X.Last} {w : List (Tok F)} {e : Expr F} {w' : List (Tok F)}, GExpr l r k w e →
      Varied vars w w' → ∃ e', GExpr l r k w' e' ∧ e'.fill vars = e.fill vars
    | _, _, _, _, _, _, .prim hp, h => by
      obtain ⟨e', h1, h2⟩ := varied_prim hp h
      exact ⟨e', .prim h1, h2⟩
    | _, _, _, _, _, _, .neg he hl, h => by
      obtain ⟨u_31, rfl, h_31⟩ := varied_cons h (by simp) (by simp)
      obtain ⟨e', h1, h2⟩ := varied_expr he h_31
      exact ⟨_, .neg h1 hl, by rw [Expr.fill, Expr.fill, h2]⟩
    | _, _, _, _, _, _, .binary (o := o) he ho he' h3 h4 h5 h6, h => by
      obtain ⟨a, b, rfl, ha, hb⟩ := varied_append h
      obtain ⟨u_32, rfl, hb_32⟩ := varied_cons hb (by rintro s rfl; cases ho) (by rintro s rfl; cases ho)
      obtain ⟨e1, k1, k2⟩ := varied_expr he ha
      obtain ⟨e2, k3, k4⟩ := varied_expr he' hb_32
      obtain ⟨e', k5, k6⟩ := fill_meaning h6 k2 k4
      exact ⟨e', .binary k1 ho k3 h3 h4 h5 k5, k6⟩
    | _, _, _, _, _, _, .slash he hk hr, h => by
      obtain ⟨a, b, rfl, ha, hb⟩ := varied_append h
      obtain ⟨u_33, rfl, hb_33⟩ := varied_cons hb (by simp) (by simp)
      obtain ⟨e1, k1, k2⟩ := varied_expr he ha
      exact ⟨_, .slash k1 hk (varied_rel hr hb_33), by rw [Expr.fill, Expr.fill, k2]⟩
    | _, _, _, _, _, _, .dslash he hk hr, h => by
      obtain ⟨a, b, rfl, ha, hb⟩ := varied_append h
      obtain ⟨u_34, rfl, hb_34⟩ := varied_cons hb (by simp) (by simp)
      obtain ⟨e1, k1, k2⟩ := varied_expr he ha
      exact ⟨_, .dslash k1 hk (varied_rel hr hb_34), by rw [Expr.fill, Expr.fill, k2]⟩
    | _, _, _, _, _, _, .pred he hk hp, h => by
      obtain ⟨a, b, rfl, ha, hb⟩ := varied_append h
      obtain ⟨e1, k1, k2⟩ := varied_expr he ha
      obtain ⟨ps', k3, k4⟩ := varied_preds hp hb
      exact ⟨_, .pred k1 hk k3, by rw [Expr.fill, Expr.fill, k2, k4]⟩
end

theorem noSubstring_sub {w w' : List (Tok F)} (h : NoSubstring w') (hs : w <:+: w') : NoSubstring w := fun h' => h (h'.trans hs)

theorem noSubstring_left {w₁ w₂ : List (Tok F)} (h : NoSubstring (w₁ ++ w₂)) : NoSubstring w₁ := noSubstring_sub h (List.prefix_append ..).isInfix
theorem noSubstring_right {w₁ w₂ : List (Tok F)} (h : NoSubstring (w₁ ++ w₂)) : NoSubstring w₂ := noSubstring_sub h (List.suffix_append ..).isInfix
theorem noSubstring_tail {t : Tok F} {w : List (Tok F)} (h : NoSubstring (t :: w)) : NoSubstring w := noSubstring_sub h (List.suffix_cons ..).isInfix

theorem name_substring : ∀ {t : Tok F}, t.isName → t.word = "substring".toList → t = .name "substring".toList
  | .name _, _, h => congrArg Tok.name h
  | .logical b, _, h => by cases b <;> simp [X.Tok.word] at h
  | .divmod b, _, h => by cases b <;> simp [X.Tok.word] at h

theorem step_noVar {b : Bool} {w : List (Tok F)} {e : Expr F} (h : X.GStep b w e) : e.NoVarPosition := by
  cases h <;> simp [Expr.NoVarPosition]

theorem rel_noVar : ∀ {b : Bool} {w : List (Tok F)} {e : Expr F}, X.GRel b w e → e.NoVarPosition
  | _, _, _, .step h => step_noVar h
  | _, _, _, .slash h h' => by rw [Expr.NoVarPosition]; exact ⟨rel_noVar h, step_noVar h'⟩
  | _, _, _, .dslash h h' => by rw [Expr.NoVarPosition]; exact ⟨rel_noVar h, step_noVar h'⟩

theorem noVarPositions_append {es es' : List (Expr F)} (h : Expr.NoVarPositions es) (h' : Expr.NoVarPositions es') : Expr.NoVarPositions (es ++ es') := by
  induction es with
  | nil => exact h'
  | cons e es ih =>
    rw [Expr.NoVarPositions] at h
    rw [List.cons_append, Expr.NoVarPositions]
    exact ⟨h.1, ih h.2⟩

mutual
  theorem args_noVar : ∀ {w : List (Tok F)} {es : List (Expr F)}, X.GArgs w es → NoSubstring w → Expr.NoVarPositions es
    | _, _, .none, _ => by rw [Expr.NoVarPositions]; trivial
    | _, _, .some hl, h => list_noVar hl (noSubstring_left (noSubstring_tail h))
  theorem list_noVar : ∀ {w : List (Tok F)} {es : List (Expr F)}, X.GList w es → NoSubstring w → Expr.NoVarPositions es
    | _, _, .one he, h => by
      simp only [Expr.NoVarPositions]
      exact ⟨expr_noVar he h, trivial⟩
    | _, _, .more hl he, h => by
      refine noVarPositions_append (list_noVar hl (noSubstring_left h)) ?_
      simp only [Expr.NoVarPositions]
      exact ⟨expr_noVar he (noSubstring_tail (noSubstring_right h)), trivial⟩
  theorem preds_noVar : ∀ {w : List (Tok F)} {es : List (Expr F)}, X.GPreds w es → NoSubstring w → Expr.NoVarPositions es
    | _, _, .one he, h => by
      simp only [Expr.NoVarPositions]
      exact ⟨expr_noVar he (noSubstring_left (noSubstring_tail h)), trivial⟩
    | _, _, .more hl he, h => by
      refine noVarPositions_append (preds_noVar hl (noSubstring_left h)) ?_
      simp only [Expr.NoVarPositions]
      exact ⟨expr_noVar he (noSubstring_left (noSubstring_tail (noSubstring_right h))), trivial⟩
  theorem prim_noVar : ∀ {k : X.Last} {w : List (Tok F)} {e : Expr F}, GPrim k w e → NoSubstring w → e.NoVarPosition
    | _, _, _, .literal, _ => by simp only [Expr.NoVarPosition]
    | _, _, _, .float, _ => by simp only [Expr.NoVarPosition]
    | _, _, _, .integer, _ => by simp only [Expr.NoVarPosition]
    | _, _, _, .var _, _ => by simp only [Expr.NoVarPosition]
    | _, _, _, .call (n := n) (w := w) (as := as) hn ha, h => by
      have h1 := args_noVar ha (noSubstring_tail h)
      unfold X.called
      split
      · simp only [Expr.NoVarPosition]
      · split
        · simp only [Expr.NoVarPosition]
        · rw [Expr.NoVarPosition]
          refine ⟨fun hw => ?_, h1⟩
          exfalso
          have hw' := name_substring hn hw
          subst hw'
          apply h
          cases ha with
          | none => exact ⟨[], [.rparen], rfl⟩
          | some _ => exact ⟨[], _, rfl⟩
    | _, _, _, .nil, _ => by simp only [Expr.NoVarPosition, Expr.NoVarPositions]
    | _, _, _, .seq hl, h => by
      rw [Expr.NoVarPosition]
      exact list_noVar hl (noSubstring_left (noSubstring_tail h))
    | _, _, _, .root, _ => by simp only [Expr.NoVarPosition]
    | _, _, _, .abs hr, _ => by rw [Expr.NoVarPosition]; exact rel_noVar hr
    | _, _, _, .absAll hr, _ => by rw [Expr.NoVarPosition]; exact rel_noVar hr
    | _, _, _, .rel hr, _ => rel_noVar hr
  theorem expr_noVar : ∀ {l r : Nat} {k : X.Last} {w : List (Tok F)} {e : Expr F}, GExpr l r k w e → NoSubstring w → e.NoVarPosition
    | _, _, _, _, _, .prim hp, h => prim_noVar hp h
    | _, _, _, _, _, .neg he _, h => by rw [Expr.NoVarPosition]; exact expr_noVar he (noSubstring_tail h)
    | _, _, _, _, _, .binary (o := o) he ho he' h3 h4 h5 h6, h => by
      have h7 := expr_noVar he (noSubstring_left h)
      have h8 := expr_noVar he' (noSubstring_tail (noSubstring_right h))
      cases o <;> simp only [X.meaning, Option.some.injEq, reduceCtorEq] at h6 <;> subst h6
      case logical b => cases b <;> simp only [if_true, if_false, Bool.false_eq_true, Expr.NoVarPosition] <;> exact ⟨h7, h8⟩
      case equal b => cases b <;> simp only [if_true, if_false, Bool.false_eq_true, Expr.NoVarPosition] <;> exact ⟨h7, h8⟩
      all_goals (rw [Expr.NoVarPosition]; exact ⟨h7, h8⟩)
    | _, _, _, _, _, .slash he _ hr, h => by rw [Expr.NoVarPosition]; exact ⟨expr_noVar he (noSubstring_left h), rel_noVar hr⟩
    | _, _, _, _, _, .dslash he _ hr, h => by rw [Expr.NoVarPosition]; exact ⟨expr_noVar he (noSubstring_left h), rel_noVar hr⟩
    | _, _, _, _, _, .pred he _ hp, h => by rw [Expr.NoVarPosition]; exact ⟨expr_noVar he (noSubstring_left h), preds_noVar hp (noSubstring_right h)⟩
end

/-- Taking constants in for variables does not bring in a call. -/
theorem varied_noSubstring {vars : Str → Option (Item F)} : ∀ {w w' : List (Tok F)}, Varied vars w w' → NoSubstring w' → NoSubstring w := by
  intro w w' h hw' ⟨a, b, he⟩
  subst he
  apply hw'
  rw [List.append_assoc] at h
  obtain ⟨a', b', rfl, _, h⟩ := varied_append h
  obtain ⟨u, rfl, h1⟩ := varied_cons h (by simp) (by simp)
  obtain ⟨u', rfl, h2⟩ := varied_cons h1 (by simp) (by simp)
  exact ⟨a', u', by simp⟩

theorem queryName_ends (fo : FloatOps F) {n : Str} (h : QueryName n) {r : Str} (hr : ∀ c s, r = c :: s → c = ']') :
    X.SpellsTok fo (X.nameTok n) n ∧ X.Ends (X.nameTok (F := F) n) r := by
  obtain ⟨⟨c, x, rfl, hc, hx⟩, h'⟩ := h
  refine X.nameTok_spells fo (.char (inRanges_start hc (h' c (by simp))) (xnameTail_of fun d hd => xnameChar_of (hx d hd) (h' d (by simp [hd])))) ?_ ?_
  · rintro ⟨d, s, rfl, hd⟩
    rw [hr d s rfl] at hd
    simp only [X.XNameChar, X.InRanges, X.nameStartRanges, X.nameExtraRanges, List.mem_cons, List.not_mem_nil, or_false, exists_eq_or_imp, exists_eq_left] at hd
    revert hd
    decide
  · rintro ⟨s, h⟩
    rw [X.slip_cons] at h
    have := hr _ _ h.symm
    revert this
    decide

/-! ### C170 -/

/-- C170: a query with variables yields what the query with their values written in yields, and raises what that raises, at
every item. -/
theorem C170_stands_for_its_value_partial (E : Env F) (n : Nat) {e : Expr F} (h : e.NoVarPosition) (x : Item F) :
    E.run n e x = E.run n (e.fill E.vars) x := by
  obtain ⟨dyn, h1⟩ := run_eval E n
  rw [h1, h1]
  exact (fill_same E.fo E.doc E.vars n dyn e h x).symm

/-- C170 as stated is false: `substring('abc', $i, 1)` raises where `substring('abc', 1, 1)` yields `a`. -/
theorem C170_full_statement_is_false :
    let E : Env NoF := { exEnv with vars := fun v => if v = ['i'] then some (.int 1) else none }
    let e : Expr NoF := .call "substring".toList [.lit (.str "abc".toList), .var ['i'], .lit (.int 1)]
    X.xparse noFloats "substring('abc', $i, 1)".toList = some (.ok e) ∧ E.run 0 e .root = ⟨[], .err .runtime⟩ ∧
      E.Yields 0 (e.fill E.vars) .root [.str ['a']] := by
  refine ⟨by with_unfolding_all rfl, by decide +kernel, by unfold Env.Yields; decide +kernel⟩

/-- C170: in the text of any query that does not call `substring`, string and number constants may be replaced by variables with
their values. -/
theorem C170_in_the_text_partial (fo : FloatOps F) (vars : Str → Option (Item F)) {w w' : List (Tok F)} {e : Expr F} (h : Denotes w e) (hw : Varied vars w w')
    (hn : NoSubstring w') {s : Str} (hs : Written fo w' s) :
    ∃ e', X.xparse fo s = some (.ok e') ∧ ∀ E : Env F, E.vars = vars → ∀ n x, E.run n e' x = E.run n e x := by
  obtain ⟨l, r, k, h⟩ := h
  obtain ⟨e', h1, h2⟩ := varied_expr h hw
  refine ⟨e', (C77_parser_follows_the_grammar fo s _).2 ⟨w', hs, _, _, _, h1⟩, ?_⟩
  rintro E rfl n x
  rw [C170_stands_for_its_value_partial E n (expr_noVar h1 hn), h2,
    ← C170_stands_for_its_value_partial E n (expr_noVar h (varied_noSubstring hw hn))]

/-- C170: so a query of C166 written with variables yields exactly its list on the text of a document. -/
theorem C170_on_a_text_partial (fo : FloatOps F) (vars : Str → Option (Item F)) (n : Nat) {e : Node} {d : Str} (hd : IsDoc e d) {b : Bool}
    {w w' : List (Tok F)} {l : TestedList} (h : WritesTestedList b w l) (hl : l.Ok) (hw : Varied vars w w') (hn : NoSubstring w') {s : Str}
    (hs : Written fo w' s) (a : Answer F) :
    QQuery fo vars n (.str d) (.str s) a ↔ ∃ fs, l.Gives e .root fs ∧ a = .items e ⟨fs.map Found.item, .done⟩ := by
  obtain ⟨_, _, h1, _⟩ := testedList_grammar h
  obtain ⟨e', h2, h3⟩ := C170_in_the_text_partial fo vars ⟨_, _, _, h1⟩ hw hn hs
  obtain ⟨fs, hf⟩ := C166_one_list (doc_noEmpty hd) (fun p m as cs hp => doc_dicts hd hp) hl (u := .root) trivial
  have h4 := (C166_exactly (queryEnv fo vars e) (doc_noEmpty hd) (fun p m as cs hp => doc_dicts hd hp) n hl (u := .root) trivial _).2 ⟨fs, (hf fs).2 rfl, rfl⟩
  rw [C83_query_of_a_text fo vars n hd h2, h3 (queryEnv fo vars e) rfl, show (queryEnv fo vars e).run n l.expr .root = _ from h4]
  constructor
  · rintro rfl; exact ⟨fs, (hf fs).2 rfl, rfl⟩
  · rintro ⟨gs, hg, rfl⟩
    rw [(hf gs).1 hg]

/-- C170: so a value need not be written in the query: for all names, `//m[k=$v]/@a` with any string at all for `v`, whatever
quotes or brackets are in it, finds in every document the attributes `a` of the elements `m` whose first child `k` has that
text, and nothing else. -/
theorem C170_lookup (fo : FloatOps F) (vars : Str → Option (Item F)) (n : Nat) {e : Node} {d : Str} (hd : IsDoc e d) {m k v a s : Str} (hm : QueryName m)
    (hk : QueryName k) (hv : QueryName v) (ha : QueryName a) (hs : vars v = some (.str s)) (out : Answer F) :
    QQuery fo vars n (.str d) (.str ("//".toList ++ m ++ "[".toList ++ k ++ "=$".toList ++ v ++ "]/@".toList ++ a)) out ↔
      ∃ fs, (lookup m k s a).Gives e .root fs ∧ out = .items e ⟨fs.map Found.item, .done⟩ := by
  have hw : WritesTestedList (F := F) false [.abbrevSep, X.nameTok m, .lbrack, X.nameTok k, .equal false, .literal s, .rbrack, .pathSep, .at, X.nameTok a]
      (lookup m k s a) := by
    have h1 := WritesPath.anywhere (.step (.child (nameTok_word (F := F) m).1))
    have h2 := WritesPath.rel (.step (.child (nameTok_word (F := F) k).1))
    have h3 := WritesEnd.attr (b := true) (nameTok_word (F := F) a).1
    rw [(nameTok_word m).2] at h1
    rw [(nameTok_word k).2] at h2
    rw [(nameTok_word a).2] at h3
    exact .seq (.filter (.core h1) (by simp) (.one (.is (s := s) (.path (.core h2))))) (.last h3)
  have hok : (lookup m k s a).Ok := by
    obtain ⟨⟨c, r, rfl, hc, _⟩, _⟩ := ha
    have : c :: r ≠ ['*'] := by
      intro h
      cases h
      revert hc
      decide
    simp [lookup, TestedList.Ok, TestedPath.Ok, Tests.Ok, ValueTest.Ok, CoreList.Ok, CoreEnd.Ok, CorePath.Ok, CorePath.startsDown, this]
  have hvar : Varied vars [.abbrevSep, X.nameTok m, .lbrack, X.nameTok k, .equal false, .literal s, .rbrack, .pathSep, .at, X.nameTok a]
      [.abbrevSep, X.nameTok m, .lbrack, X.nameTok k, .equal false, .dollar, X.nameTok v, .rbrack, .pathSep, .at, X.nameTok a] :=
    .same (.same (.same (.same (.same (.string (nameTok_word v).1 (by rw [(nameTok_word v).2]; exact hs) (.same (.same (.same (.same .nil)))))))))
  have hno : NoSubstring ([.abbrevSep, X.nameTok m, .lbrack, X.nameTok k, .equal false, .dollar, X.nameTok v, .rbrack, .pathSep, .at, X.nameTok a] : List (Tok F)) := by
    intro h
    have h1 : (.lparen : Tok F) ∈ [.abbrevSep, X.nameTok m, .lbrack, X.nameTok k, .equal false, .dollar, X.nameTok v, .rbrack, .pathSep, .at, X.nameTok a] :=
      h.subset (by simp)
    have h2 : ∀ x : Str, (.lparen : Tok F) ≠ X.nameTok x := fun x hx => by
      have := (nameTok_word (F := F) x).1
      rw [← hx] at this
      exact this
    simp [h2] at h1
  have nb : X.XBlank [] := by intro c hc; cases hc
  have hw' : Written fo [.abbrevSep, X.nameTok m, .lbrack, X.nameTok k, .equal false, .dollar, X.nameTok v, .rbrack, .pathSep, .at, X.nameTok a]
      ("//".toList ++ m ++ "[".toList ++ k ++ "=$".toList ++ v ++ "]/@".toList ++ a) := by
    have sm := queryName_spells fo hm (r := '[' :: (k ++ '=' :: '$' :: (v ++ ']' :: '/' :: '@' :: a))) (by rintro c s h; cases h; simp)
    have sk := queryName_spells fo hk (r := '=' :: '$' :: (v ++ ']' :: '/' :: '@' :: a)) (by rintro c s h; cases h; simp)
    have sv := queryName_ends fo hv (r := ']' :: '/' :: '@' :: a) (by rintro c s h; cases h; simp)
    have sa := queryName_spells fo ha (r := []) (by rintro c s h; cases h)
    have w0 : Written fo [X.nameTok a] a := by
      have := Written.cons nb sa.1 sa.2 (.nil nb)
      rwa [List.nil_append, List.append_nil] at this
    have w1 : Written fo [.at, X.nameTok a] ('@' :: a) := .cons nb .at trivial w0
    have w2 : Written fo [.pathSep, .at, X.nameTok a] ('/' :: '@' :: a) := .cons nb .pathSep (by rintro ⟨c, s, h, rfl⟩; cases h) w1
    have w3 : Written fo [.rbrack, .pathSep, .at, X.nameTok a] (']' :: '/' :: '@' :: a) := .cons nb .rbrack trivial w2
    have w4 := Written.cons nb sv.1 sv.2 w3
    have w4' := Written.cons (fo := fo) nb .dollar trivial w4
    have w5 := Written.cons (fo := fo) nb .eq trivial w4'
    have w6 := Written.cons nb sk.1 sk.2 w5
    have w7 := Written.cons (fo := fo) nb .lbrack trivial w6
    have w8 := Written.cons nb sm.1 sm.2 w7
    have w9 := Written.cons (fo := fo) nb .abbrevSep trivial w8
    simpa using w9
  exact C170_on_a_text_partial fo vars n hd hw hok hvar hno hw' out

/-- Beside C170: a value with both kinds of quotation marks, which no string constant can spell. -/
example (fo : FloatOps Unit) (n : Nat) {e : Node} {d : Str} (hd : IsDoc e d) (out : Answer Unit) :
    QQuery fo (fun x => if x = "who".toList then some (.str "O'Brien \"Ob\"".toList) else none) n (.str d) (.str "//p[name=$who]/@id".toList) out ↔
      ∃ fs, (lookup "p".toList "name".toList "O'Brien \"Ob\"".toList "id".toList).Gives e .root fs ∧ out = .items e ⟨fs.map Found.item, .done⟩ :=
  C170_lookup fo _ n hd (m := ['p']) (k := ['n', 'a', 'm', 'e']) (v := ['w', 'h', 'o']) (a := ['i', 'd'])
    ⟨⟨_, _, rfl, by decide, by simp⟩, by simp⟩
    ⟨⟨_, _, rfl, by decide, by intro c hc; simp only [List.mem_cons, List.not_mem_nil, or_false] at hc; rcases hc with rfl | rfl | rfl <;> exact .inl (by decide)⟩, by simp⟩
    ⟨⟨_, _, rfl, by decide, by intro c hc; simp only [List.mem_cons, List.not_mem_nil, or_false] at hc; rcases hc with rfl | rfl <;> exact .inl (by decide)⟩, by simp⟩
    ⟨⟨_, _, rfl, by decide, by intro c hc; simp only [List.mem_cons, List.not_mem_nil, or_false] at hc; subst hc; exact .inl (by decide)⟩, by simp⟩ rfl out

end Amara
