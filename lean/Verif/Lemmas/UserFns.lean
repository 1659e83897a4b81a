import Verif.Spec.UserFns
import Verif.Props.XPathFns
/-
Helper lemmas about evaluation with the functions of the caller.
-/
namespace Amara

variable {F : Type}

section
variable (fo : FloatOps F) (doc : Node) (T T' : FnTable F) (vars : Str → Option (Item F)) (n : Nat)
  (dyn dyn' : Str → Except XErr (Item F → Res F))

theorem callsAll_mem {V : Str → Prop} {es : List (Expr F)} (h : Expr.CallsAll V es) : ∀ e ∈ es, e.Calls V := by
  induction es with
  | nil => intro e he; cases he
  | cons a es ih =>
    intro e he
    rw [Expr.CallsAll] at h
    rcases List.mem_cons.1 he with rfl | he
    · exact h.1
    · exact ih h.2 e he

theorem evalT_dslash (l r : Expr F) (x : Item F) : evalT fo doc T vars n dyn (.dslash l r) x =
    (evalT fo doc T vars n dyn l x).bind fun y => evalT fo doc T vars n dyn r.setAxis (y.orElse fo doc x) := by
  rw [evalT]
  congr 1
  funext y
  cases r <;> simp only [Expr.setAxis]
  rw [evalT]

/-- Two entries do the same. -/
def SameFn (dyn dyn' : Str → Except XErr (Item F → Res F)) : Option (Fn F) → Option (Fn F) → Prop
  | none, none => True
  | some g, some g' => ∀ x args, g dyn x args = g' dyn' x args
  | _, _ => False

theorem calls_same (V : Str → Prop) (hV : ∀ v, V v → SameFn dyn dyn' (T v) (T' v)) (e : Expr F) :
    e.Calls V → ∀ x, evalT fo doc T vars n dyn e x = evalT fo doc T' vars n dyn' e x := by
  refine Expr.induct (P := fun e => e.Calls V → ∀ x, evalT fo doc T vars n dyn e x = evalT fo doc T' vars n dyn' e x)
    ?_ ?_ ?_ ?_ ?_ ?_ ?_ ?_ ?_ ?_ ?_ ?_ ?_ ?_ ?_ ?_ ?_ ?_ ?_ ?_ ?_ ?_ e
  · intro y _ x; rw [evalT, evalT]
  · intro e ih h x
    rw [Expr.Calls] at h
    rw [evalT, evalT, ih h]
  · intro l r il ir h x
    rw [Expr.Calls] at h
    rw [evalT, evalT, il h.1]
    simp only [ir h.2]
  · intro l r il ir h x
    rw [Expr.Calls] at h
    have ir' : ∀ x, evalT fo doc T vars n dyn r.setAxis x = evalT fo doc T' vars n dyn' r.setAxis x := by
      intro x
      cases r <;> first
        | exact ir h.2 x
        | (rw [Expr.setAxis, evalT, evalT])
    rw [evalT_dslash, evalT_dslash, il h.1]
    simp only [ir']
  · intro l r il ir h x
    rw [Expr.Calls] at h
    rw [evalT, evalT, il h.1, ir h.2]
  · intro l r il ir h x
    rw [Expr.Calls] at h
    rw [evalT, evalT, il h.1, ir h.2]
  · intro l r il ir h x
    rw [Expr.Calls] at h
    rw [evalT, evalT, il h.1, ir h.2]
  · intro op l r il ir h x
    rw [Expr.Calls] at h
    rw [evalT, evalT, il h.1, ir h.2]
  · intro l r il ir h x
    rw [Expr.Calls] at h
    rw [evalT, evalT, il h.1, ir h.2]
  · intro l r il ir h x
    rw [Expr.Calls] at h
    rw [evalT, evalT, il h.1, ir h.2]
  · intro op l r _ _ _ x
    rw [evalT, evalT]
  · intro _ x; rw [evalT, evalT]
  · intro r ir h x
    rw [Expr.Calls] at h
    rw [evalT, evalT]
    simp only [ir h]
  · intro r ir h x
    rw [Expr.Calls] at h
    rw [evalT, evalT]
    simp only [ir h]
  · intro a t _ x; rw [evalT, evalT]
  · intro t _ x; rw [evalT, evalT]
  · intro l ps il ips h x
    rw [Expr.Calls] at h
    have hp : ∀ pos y, evalPredsT fo doc T vars n dyn pos ps y = evalPredsT fo doc T' vars n dyn' pos ps y := by
      have hu := callsAll_mem h.2
      clear h
      intro pos y
      induction ps with
      | nil => rw [evalPredsT, evalPredsT]
      | cons p ps ih =>
        rw [evalPredsT, evalPredsT, ips p (by simp) (hu p (by simp)), ih (fun q hq => ips q (by simp [hq])) (fun q hq => hu q (by simp [hq]))]
    rw [evalT, evalT, il h.1]
    simp only [hp]
  · intro _ x; rw [evalT, evalT]
  · intro _ x; rw [evalT, evalT]
  · intro v _ x
    rw [evalT, evalT]
  · intro f as ias h x
    rw [Expr.Calls] at h
    have ha : evalArgsT fo doc T vars n dyn as = evalArgsT fo doc T' vars n dyn' as := by
      have hu := callsAll_mem h.2
      clear h
      induction as with
      | nil => rw [evalArgsT, evalArgsT]
      | cons a as ih =>
        rw [evalArgsT, evalArgsT, ih (fun q hq => ias q (by simp [hq])) (fun q hq => hu q (by simp [hq]))]
        simp only [ias a (by simp) (hu a (by simp))]
    rw [evalT, evalT, ha]
    have hv := hV f h.1
    cases hT : T f with
    | none =>
      rw [hT] at hv
      cases hT' : T' f with
      | none => rfl
      | some g' => rw [hT'] at hv; exact hv.elim
    | some g =>
      rw [hT] at hv
      cases hT' : T' f with
      | none => rw [hT'] at hv; exact hv.elim
      | some g' => rw [hT'] at hv; exact hv x _
  · intro es ies h x
    rw [Expr.Calls] at h
    have ha : evalSeqT fo doc T vars n dyn es x = evalSeqT fo doc T' vars n dyn' es x := by
      have hu := callsAll_mem h
      clear h
      induction es with
      | nil => rw [evalSeqT, evalSeqT]
      | cons a as ih =>
        rw [evalSeqT, evalSeqT, ies a (by simp) (hu a (by simp)), ih (fun q hq => ies q (by simp [hq])) (fun q hq => hu q (by simp [hq]))]
    rw [evalT, evalT, ha]


theorem builtins_same (hT : ∀ f x args, (match T f with | none => .fail .runtime | some g => g dyn x args) =
    callFn fo doc dyn x f (args.map Arg.expr) (args.map fun a => a.compute x)) (e : Expr F) :
    ∀ x, evalT fo doc T vars n dyn e x = eval fo doc vars n dyn e x := by
  refine Expr.induct (P := fun e => ∀ x, evalT fo doc T vars n dyn e x = eval fo doc vars n dyn e x)
    ?_ ?_ ?_ ?_ ?_ ?_ ?_ ?_ ?_ ?_ ?_ ?_ ?_ ?_ ?_ ?_ ?_ ?_ ?_ ?_ ?_ ?_ e
  · intro y x; rw [evalT, eval]
  · intro e ih x
    rw [evalT, eval, ih]
    rfl
  · intro l r il ir x
    rw [evalT, eval, il]
    simp only [ir]
  · intro l r il ir x
    have ir' : ∀ x, evalT fo doc T vars n dyn r.setAxis x = eval fo doc vars n dyn r.setAxis x := by
      intro x
      cases r <;> first
        | exact ir x
        | (rw [Expr.setAxis, evalT, eval])
    rw [evalT_dslash, eval_dslash, il]
    simp only [ir']
  · intro l r il ir x
    rw [evalT, eval, il, ir]
  · intro l r il ir x
    rw [evalT, eval, il, ir]
  · intro l r il ir x
    rw [evalT, eval, il, ir]
  · intro op l r il ir x
    rw [evalT, eval, il, ir]
    rfl
  · intro l r il ir x
    rw [evalT, eval, il, ir]
  · intro l r il ir x
    rw [evalT, eval, il, ir]
  · intro op l r _ _ x
    rw [evalT, eval]
  · intro x; rw [evalT, eval]
  · intro r ir x
    rw [evalT, eval]
    simp only [ir]
  · intro r ir x
    rw [evalT, eval]
    simp only [ir]
    rfl
  · intro a t x; rw [evalT, eval]
  · intro t x; rw [evalT, eval]
  · intro l ps il ips x
    have hp : ∀ pos y, evalPredsT fo doc T vars n dyn pos ps y = evalPreds fo doc vars n dyn pos ps y := by
      intro pos y
      induction ps with
      | nil => rw [evalPredsT, evalPreds]
      | cons p ps ih => rw [evalPredsT, evalPreds, ips p (by simp), ih fun q hq => ips q (by simp [hq])]; rfl
    rw [evalT, eval, il]
    simp only [hp]
  · intro x; rw [evalT, eval]
  · intro x; rw [evalT, eval]; rfl
  · intro v x
    rw [evalT, eval]
    rfl
  · intro f as ias x
    have ha : (evalArgsT fo doc T vars n dyn as).map Arg.expr = as ∧
        (evalArgsT fo doc T vars n dyn as).map (fun a => a.compute x) = evalArgs fo doc vars n dyn as x := by
      induction as with
      | nil => rw [evalArgsT, evalArgs]; exact ⟨rfl, rfl⟩
      | cons a as ih =>
        obtain ⟨i1, i2⟩ := ih fun q hq => ias q (by simp [hq])
        rw [evalArgsT, evalArgs, List.map_cons, List.map_cons, i1, i2]
        exact ⟨rfl, congrArg (· :: _) (ias a (by simp) x)⟩
    have h := hT f x (evalArgsT fo doc T vars n dyn as)
    rw [ha.1, ha.2] at h
    rw [evalT, eval, ← h]
    rfl
  · intro es ies x
    have ha : evalSeqT fo doc T vars n dyn es x = evalSeq fo doc vars n dyn es x := by
      induction es with
      | nil => rw [evalSeqT, evalSeq]
      | cons a as ih => rw [evalSeqT, evalSeq, ies a (by simp), ih fun q hq => ies q (by simp [hq])]
    rw [evalT, eval, ha]

end

theorem callFn_unknown (fo : FloatOps F) (doc : Node) (dyn : Str → Except XErr (Item F → Res F)) (x : Item F) {name : Str}
    (args : List (Expr F)) (rs : List (Res F)) (h : name ∉ builtinNames) : callFn fo doc dyn x name args rs = .fail .runtime := by
  simp only [builtinNames, List.mem_cons, not_or] at h
  simp only [callFn, h, if_false, or_self]

theorem fnLookup_map (fo : FloatOps F) (doc : Node) (name : Str) : ∀ ms : List Str,
    fnLookup (ms.map fun m => (m, builtinFn fo doc m)) name = if name ∈ ms then some (builtinFn fo doc name) else none
  | [] => rfl
  | m :: ms => by
    have ih := fnLookup_map fo doc name ms
    unfold fnLookup at ih ⊢
    by_cases hm : m = name
    · subst hm; simp
    · have : ¬ name = m := fun e => hm e.symm
      simp only [List.map_cons, List.find?_cons, beq_iff_eq, hm, Bool.false_eq_true, List.mem_cons, this, false_or]
      rw [show (m == name) = false by simpa using hm]
      exact ih

theorem fnLookup_builtin (fo : FloatOps F) (doc : Node) (name : Str) : fnLookup (builtinDict fo doc) name =
    if name ∈ builtinNames then some (builtinFn fo doc name) else none := fnLookup_map fo doc name _

theorem builtin_entry (fo : FloatOps F) (doc : Node) (dyn : Str → Except XErr (Item F → Res F)) (f : Str) (x : Item F)
    (args : List (Arg F)) : (match fnLookup (builtinDict fo doc) f with | none => .fail .runtime | some g => g dyn x args) =
    callFn fo doc dyn x f (args.map Arg.expr) (args.map fun a => a.compute x) := by
  rw [fnLookup_builtin]
  by_cases h : f ∈ builtinNames
  · rw [if_pos h]; rfl
  · rw [if_neg h, callFn_unknown fo doc dyn x _ _ h]

theorem evalTN_builtin (fo : FloatOps F) (doc : Node) (parse : Str → Except XErr (Expr F)) (vars : Str → Option (Item F)) :
    ∀ n e x, evalTN fo doc (fnLookup (builtinDict fo doc)) parse vars n e x = evalN fo doc parse vars n e x
  | 0, e, x => by
    rw [evalTN, evalN]
    exact builtins_same fo doc _ vars 0 _ (fun f x args => builtin_entry fo doc _ f x args) e x
  | n + 1, e, x => by
    rw [evalTN, evalN]
    have hd : (fun s => (parse s).map fun e => evalTN fo doc (fnLookup (builtinDict fo doc)) parse vars n e) =
        fun s => (parse s).map fun e => evalN fo doc parse vars n e := by
      funext s
      congr 1
      funext e y
      exact evalTN_builtin fo doc parse vars n e y
    rw [hd]
    exact builtins_same fo doc _ vars _ _ (fun f x args => builtin_entry fo doc _ f x args) e x

end Amara
