import Verif.Props.XPathOps
import Verif.Model.Serialize
/-
C56, C58, C66-C71: evaluation leaves expressions as they are, evaluation ends, attributes, `//`, successive
predicates, absolute paths.
-/
namespace Amara

variable {F : Type}

/-! ### Induction over expressions -/

theorem Expr.induct {P : Expr F → Prop}
    (lit : ∀ y, P (.lit y)) (neg : ∀ e, P e → P (.neg e))
    (slash : ∀ l r, P l → P r → P (.slash l r)) (dslash : ∀ l r, P l → P r → P (.dslash l r))
    (union : ∀ l r, P l → P r → P (.union l r)) (eq : ∀ l r, P l → P r → P (.eq l r))
    (ne : ∀ l r, P l → P r → P (.ne l r)) (rel : ∀ op l r, P l → P r → P (.rel op l r))
    (or : ∀ l r, P l → P r → P (.or l r)) (and : ∀ l r, P l → P r → P (.and l r))
    (arith : ∀ op l r, P l → P r → P (.arith op l r)) (root : P (.abs none)) (abs : ∀ r, P r → P (.abs (some r)))
    (absAll : ∀ r, P r → P (.absAll r)) (step : ∀ a t, P (.step a t)) (test : ∀ t, P (.test t))
    (pred : ∀ l ps, P l → (∀ p ∈ ps, P p) → P (.pred l ps)) (dot : P .dot) (dotdot : P .dotdot)
    (var : ∀ v, P (.var v)) (call : ∀ f as, (∀ a ∈ as, P a) → P (.call f as))
    (seq : ∀ es, (∀ e ∈ es, P e) → P (.seq es)) (e : Expr F) : P e := by
  refine Expr.rec (motive_1 := P) (motive_2 := fun o => ∀ r, o = some r → P r)
    (motive_3 := fun es => ∀ e ∈ es, P e) lit neg slash dslash union eq ne rel or and arith ?_ absAll step test
    pred dot dotdot var call seq ?_ ?_ ?_ ?_ e
  · intro r h
    cases r with
    | none => exact root
    | some r => exact abs r (h r rfl)
  · intro r h; cases h
  · intro r h r' h'; cases h'; exact h
  · intro e h; cases h
  · intro e es h1 h2 e' h'
    rcases List.mem_cons.1 h' with rfl | h'
    · exact h1
    · exact h2 e' h'

/-! ### C56 -/

mutual
  theorem Rewritten.refl : ∀ e : Expr F, Rewritten e e
    | .lit y => .lit y
    | .neg e => .neg (Rewritten.refl e)
    | .slash l r => .slash (Rewritten.refl l) (Rewritten.refl r)
    | .dslash l r => .dslash (Rewritten.refl l) (Rewritten.refl r)
    | .union l r => .union (Rewritten.refl l) (Rewritten.refl r)
    | .eq l r => .eq (Rewritten.refl l) (Rewritten.refl r)
    | .ne l r => .ne (Rewritten.refl l) (Rewritten.refl r)
    | .rel _ l r => .rel (Rewritten.refl l) (Rewritten.refl r)
    | .or l r => .or (Rewritten.refl l) (Rewritten.refl r)
    | .and l r => .and (Rewritten.refl l) (Rewritten.refl r)
    | .arith _ l r => .arith (Rewritten.refl l) (Rewritten.refl r)
    | .abs none => .root
    | .abs (some r) => .abs (Rewritten.refl r)
    | .absAll r => .absAll (Rewritten.refl r)
    | .step a t => .step a t
    | .test t => .test t
    | .pred l ps => .pred (Rewritten.refl l) (RewrittenAll.refl ps)
    | .dot => .dot
    | .dotdot => .dotdot
    | .var v => .var v
    | .call _ as => .call (RewrittenAll.refl as)
    | .seq es => .seq (RewrittenAll.refl es)
  theorem RewrittenAll.refl : ∀ es : List (Expr F), RewrittenAll es es
    | [] => .nil
    | e :: es => .cons (Rewritten.refl e) (RewrittenAll.refl es)
end

theorem rewritten_isJustNode {e e' : Expr F} (h : Rewritten e e') : e'.isJustNode = e.isJustNode := by
  cases h <;> rfl

theorem rewritten_step {a : Axis} {t : Test} {e' : Expr F} (h : Rewritten (.step a t) e') : e' = .step a t := by
  cases h; rfl

theorem rewritten_lit {y : Item F} {e' : Expr F} (h : Rewritten (.lit y) e') : e' = .lit y := by
  cases h; rfl

section
variable (fo : FloatOps F) (doc : Node) (vars : Str → Option (Item F)) (n : Nat)
  (dyn : Str → Except XErr (Item F → Res F))

/-- The right operand of `//`, evaluated with its axis changed. -/
theorem eval_dslash (l r : Expr F) (x : Item F) : eval fo doc vars n dyn (.dslash l r) x =
    (eval fo doc vars n dyn l x).bind fun y => eval fo doc vars n dyn r.setAxis (y.orElse fo doc x) := by
  rw [eval]
  congr 1
  funext y
  cases r <;> simp only [Expr.setAxis]
  rw [eval]

theorem intArg_rewritten {e e' : Expr F} (h : Rewritten e e') : intArg fo doc e' = intArg fo doc e := by
  funext f
  cases h <;> rfl

theorem rewrittenAll_length {es es' : List (Expr F)} (h : RewrittenAll es es') : es'.length = es.length := by
  induction es generalizing es' with
  | nil => cases h; rfl
  | cons e es ih => cases h with | cons h1 h2 => simp [ih h2]

theorem fnSubstring_rewritten {es es' : List (Expr F)} (h : RewrittenAll es es') (rs : List (Res F)) :
    fnSubstring fo doc es' rs = fnSubstring fo doc es rs := by
  cases h with
  | nil => rfl
  | cons h1 h =>
    cases h with
    | nil => rfl
    | cons h2 h =>
      cases h with
      | nil => rfl
      | cons h3 h =>
        cases h with
        | nil =>
          simp only [fnSubstring]
          cases rs with
          | nil => rfl
          | cons a rs => simp only [intArg_rewritten fo doc h2, intArg_rewritten fo doc h3]
        | cons h4 h => rfl

theorem callFn_rewritten {es es' : List (Expr F)} (h : RewrittenAll es es') (x : Item F) (name : Str)
    (rs : List (Res F)) : callFn fo doc dyn x name es' rs = callFn fo doc dyn x name es rs := by
  simp only [callFn, fnSubstring_rewritten fo doc h]

mutual
  theorem eval_rewritten : ∀ {e e' : Expr F}, Rewritten e e' → ∀ x,
      eval fo doc vars n dyn e' x = eval fo doc vars n dyn e x ∧
      eval fo doc vars n dyn e'.setAxis x = eval fo doc vars n dyn e.setAxis x
    | _, _, .lit y, x => ⟨rfl, rfl⟩
    | _, _, .neg h, x => by
      have := fun x => (eval_rewritten h x).1
      simp only [Expr.setAxis, eval, this, and_self]
    | _, _, .slash h1 h2, x => by
      have i1 := fun x => (eval_rewritten h1 x).1
      have i2 := fun x => (eval_rewritten h2 x).1
      simp only [Expr.setAxis, eval, i1, i2, and_self]
    | .dslash l r, .dslash l' r', .dslash h1 h2, x => by
      have i1 := fun x => (eval_rewritten h1 x).1
      have i2 := fun x => (eval_rewritten h2 x).2
      have key : eval fo doc vars n dyn (.dslash l' r') x = eval fo doc vars n dyn (.dslash l r) x := by
        simp only [eval_dslash, i1, i2]
      exact ⟨key, key⟩
    | .dslash l r, .dslash l' _, .evaluated (r' := r') h1 h2, x => by
      have i1 := fun x => (eval_rewritten h1 x).1
      have i2 := fun x => (eval_rewritten h2 x).2
      have hs : r'.setAxis.setAxis = r'.setAxis := by cases r' <;> rfl
      have key : eval fo doc vars n dyn (.dslash l' r'.setAxis) x = eval fo doc vars n dyn (.dslash l r) x := by
        simp only [eval_dslash, i1, hs, i2]
      exact ⟨key, key⟩
    | _, _, .union h1 h2, x => by
      have i1 := fun x => (eval_rewritten h1 x).1
      have i2 := fun x => (eval_rewritten h2 x).1
      simp only [Expr.setAxis, eval, i1, i2, and_self]
    | _, _, .eq h1 h2, x => by
      have i1 := fun x => (eval_rewritten h1 x).1
      have i2 := fun x => (eval_rewritten h2 x).1
      simp only [Expr.setAxis, eval, i1, i2, and_self]
    | _, _, .ne h1 h2, x => by
      have i1 := fun x => (eval_rewritten h1 x).1
      have i2 := fun x => (eval_rewritten h2 x).1
      simp only [Expr.setAxis, eval, i1, i2, and_self]
    | _, _, .rel h1 h2, x => by
      have i1 := fun x => (eval_rewritten h1 x).1
      have i2 := fun x => (eval_rewritten h2 x).1
      simp only [Expr.setAxis, eval, i1, i2, and_self]
    | _, _, .or h1 h2, x => by
      have i1 := fun x => (eval_rewritten h1 x).1
      have i2 := fun x => (eval_rewritten h2 x).1
      simp only [Expr.setAxis, eval, i1, i2, and_self]
    | _, _, .and h1 h2, x => by
      have i1 := fun x => (eval_rewritten h1 x).1
      have i2 := fun x => (eval_rewritten h2 x).1
      simp only [Expr.setAxis, eval, i1, i2, and_self]
    | _, _, .arith h1 h2, x => by
      simp only [Expr.setAxis, eval, and_self]
    | _, _, .root, x => ⟨rfl, rfl⟩
    | _, _, .abs h, x => by
      have i := fun x => (eval_rewritten h x).1
      simp only [Expr.setAxis, eval, rewritten_isJustNode h, i, and_self]
    | _, _, .absAll h, x => by
      have i := fun x => (eval_rewritten h x).1
      simp only [Expr.setAxis, eval, rewritten_isJustNode h, i, and_self]
    | _, _, .step a t, x => ⟨rfl, rfl⟩
    | _, _, .test t, x => ⟨rfl, rfl⟩
    | _, _, .pred h hs, x => by
      have i := fun x => (eval_rewritten h x).1
      have j := fun x pos => (evalAll_rewritten hs x).2.2 pos
      simp only [Expr.setAxis, eval, i, j, and_self]
    | _, _, .dot, x => ⟨rfl, rfl⟩
    | _, _, .dotdot, x => ⟨rfl, rfl⟩
    | _, _, .var v, x => ⟨rfl, rfl⟩
    | _, _, .call hs, x => by
      have j := fun x => (evalAll_rewritten hs x).1
      simp only [Expr.setAxis, eval, j, callFn_rewritten fo doc dyn hs, and_self]
    | _, _, .seq hs, x => by
      have j := fun x => (evalAll_rewritten hs x).2.1
      simp only [Expr.setAxis, eval, j, and_self]
  theorem evalAll_rewritten : ∀ {es es' : List (Expr F)}, RewrittenAll es es' → ∀ x,
      evalArgs fo doc vars n dyn es' x = evalArgs fo doc vars n dyn es x ∧
      evalSeq fo doc vars n dyn es' x = evalSeq fo doc vars n dyn es x ∧
      (∀ pos, evalPreds fo doc vars n dyn pos es' x = evalPreds fo doc vars n dyn pos es x)
    | _, _, .nil, x => ⟨rfl, rfl, fun _ => rfl⟩
    | _, _, .cons h hs, x => by
      have i := fun x => (eval_rewritten h x).1
      have j := evalAll_rewritten hs x
      refine ⟨?_, ?_, fun pos => ?_⟩
      · simp only [evalArgs, i, j.1]
      · simp only [evalSeq, i, j.2.1]
      · simp only [evalPreds, i, j.2.2]
end

end

/-- C56: whichever `//` operators of an expression have been evaluated before, on whatever documents, evaluating it
gives what a freshly parsed copy gives: the same items in the same order and the same end. -/
theorem C56_results_do_not_depend_on_history_partial (E : Env F) (n : Nat) {e e' : Expr F} (h : Rewritten e e')
    (x : Item F) : E.run n e' x = E.run n e x := by
  obtain ⟨dyn, hd⟩ := run_eval E n
  rw [hd, hd]
  exact (eval_rewritten E.fo E.doc E.vars n dyn h x).1

/-- No `//` between two steps. -/
inductive NoDslash : Expr F → Prop where
  | lit (y) : NoDslash (.lit y)
  | neg {e} : NoDslash e → NoDslash (.neg e)
  | slash {l r} : NoDslash l → NoDslash r → NoDslash (.slash l r)
  | union {l r} : NoDslash l → NoDslash r → NoDslash (.union l r)
  | eq {l r} : NoDslash l → NoDslash r → NoDslash (.eq l r)
  | ne {l r} : NoDslash l → NoDslash r → NoDslash (.ne l r)
  | rel {op l r} : NoDslash l → NoDslash r → NoDslash (.rel op l r)
  | or {l r} : NoDslash l → NoDslash r → NoDslash (.or l r)
  | and {l r} : NoDslash l → NoDslash r → NoDslash (.and l r)
  | arith {op l r} : NoDslash l → NoDslash r → NoDslash (.arith op l r)
  | root : NoDslash (.abs none)
  | abs {r} : NoDslash r → NoDslash (.abs (some r))
  | absAll {r} : NoDslash r → NoDslash (.absAll r)
  | step (a t) : NoDslash (.step a t)
  | test (t) : NoDslash (.test t)
  | pred {l ps} : NoDslash l → (∀ p ∈ ps, NoDslash p) → NoDslash (.pred l ps)
  | dot : NoDslash .dot
  | dotdot : NoDslash .dotdot
  | var (v) : NoDslash (.var v)
  | call {f as} : (∀ a ∈ as, NoDslash a) → NoDslash (.call f as)
  | seq {es} : (∀ e ∈ es, NoDslash e) → NoDslash (.seq es)

mutual
  theorem rewritten_noDslash : ∀ {e e' : Expr F}, Rewritten e e' → NoDslash e → e' = e
    | _, _, .lit _, _ => rfl
    | _, _, .neg h, d => by cases d with | neg d => rw [rewritten_noDslash h d]
    | _, _, .slash h1 h2, d => by
      cases d with | slash d1 d2 => rw [rewritten_noDslash h1 d1, rewritten_noDslash h2 d2]
    | _, _, .dslash _ _, d => by cases d
    | _, _, .evaluated _ _, d => by cases d
    | _, _, .union h1 h2, d => by
      cases d with | union d1 d2 => rw [rewritten_noDslash h1 d1, rewritten_noDslash h2 d2]
    | _, _, .eq h1 h2, d => by
      cases d with | eq d1 d2 => rw [rewritten_noDslash h1 d1, rewritten_noDslash h2 d2]
    | _, _, .ne h1 h2, d => by
      cases d with | ne d1 d2 => rw [rewritten_noDslash h1 d1, rewritten_noDslash h2 d2]
    | _, _, .rel h1 h2, d => by
      cases d with | rel d1 d2 => rw [rewritten_noDslash h1 d1, rewritten_noDslash h2 d2]
    | _, _, .or h1 h2, d => by
      cases d with | or d1 d2 => rw [rewritten_noDslash h1 d1, rewritten_noDslash h2 d2]
    | _, _, .and h1 h2, d => by
      cases d with | and d1 d2 => rw [rewritten_noDslash h1 d1, rewritten_noDslash h2 d2]
    | _, _, .arith h1 h2, d => by
      cases d with | arith d1 d2 => rw [rewritten_noDslash h1 d1, rewritten_noDslash h2 d2]
    | _, _, .root, _ => rfl
    | _, _, .abs h, d => by cases d with | abs d => rw [rewritten_noDslash h d]
    | _, _, .absAll h, d => by cases d with | absAll d => rw [rewritten_noDslash h d]
    | _, _, .step _ _, _ => rfl
    | _, _, .test _, _ => rfl
    | _, _, .pred h hs, d => by
      cases d with | pred d ds => rw [rewritten_noDslash h d, rewrittenAll_noDslash hs ds]
    | _, _, .dot, _ => rfl
    | _, _, .dotdot, _ => rfl
    | _, _, .var _, _ => rfl
    | _, _, .call hs, d => by cases d with | call ds => rw [rewrittenAll_noDslash hs ds]
    | _, _, .seq hs, d => by cases d with | seq ds => rw [rewrittenAll_noDslash hs ds]
  theorem rewrittenAll_noDslash : ∀ {es es' : List (Expr F)}, RewrittenAll es es' → (∀ e ∈ es, NoDslash e) → es' = es
    | _, _, .nil, _ => rfl
    | _, _, .cons h hs, d => by
      rw [rewritten_noDslash h (d _ (by simp)), rewrittenAll_noDslash hs (fun e he => d e (by simp [he]))]
end

/-- C56: an expression without `//` between steps serialises to the same text before and after. -/
theorem C56_serialisation_partial (fo : FloatOps F) {e e' : Expr F} (h : Rewritten e e') (hd : NoDslash e) :
    e'.serialize fo = e.serialize fo := by
  rw [rewritten_noDslash h hd]

/-- `a//b`, before and after it has been evaluated. -/
theorem C56_full_statement_is_false :
    ∃ e e' : Expr NoF, Rewritten e e' ∧ e.serialize noFloats = "child::a//child::b".toList ∧
      e'.serialize noFloats = "child::a//descendant-or-self::b".toList :=
  ⟨.dslash (.step .child (.name ['a'])) (.step .child (.name ['b'])), _,
    .evaluated (.step _ _) (.step _ _), by decide, by decide⟩

example : ∃ e' : Expr NoF, Rewritten (.dslash (.step .self .star) (.step .child (.name ['b']))) e' ∧
    e' ≠ .dslash (.step .self .star) (.step .child (.name ['b'])) ∧
    exEnv.Yields 0 e' (.node []) [.node [1], .node [2, 0]] :=
  ⟨_, .evaluated (.step _ _) (.step _ _), by simp [Expr.setAxis], by unfold Env.Yields; decide⟩

/-! ### C58 -/

/-- The evaluation was not cut off. -/
def Res.Ends (r : Res F) : Prop := r.tail ≠ .out

mutual
  /-- No step on the axis `ancestor-or-self`, and `for-each` only with a literal string in `D`. -/
  def Expr.Plain (D : Str → Prop) : Expr F → Prop
    | .lit _ | .abs none | .test _ | .dot | .dotdot | .var _ => True
    | .step a _ => a ≠ .ancestorOrSelf
    | .neg e | .abs (some e) | .absAll e => e.Plain D
    | .slash l r | .dslash l r | .union l r | .eq l r | .ne l r | .rel _ l r | .or l r | .and l r | .arith _ l r =>
      l.Plain D ∧ r.Plain D
    | .pred l ps => l.Plain D ∧ Expr.PlainAll D ps
    | .call f as => Expr.PlainAll D as ∧
        (f = "for-each".toList → ∃ a s, as = [a, .lit (.str s)] ∧ D s)
    | .seq es => Expr.PlainAll D es
  def Expr.PlainAll (D : Str → Prop) : List (Expr F) → Prop
    | [] => True
    | e :: es => e.Plain D ∧ Expr.PlainAll D es
end

/-- `Safe k`: no step on the axis `ancestor-or-self`, and `for-each` nested at most `k` deep, each with a literal
string that (if it parses at all) is an expression that is safe in turn. -/
def Env.Safe (E : Env F) : Nat → Expr F → Prop
  | 0 => Expr.Plain fun _ => False
  | k + 1 => Expr.Plain fun s => ∀ e, E.parse s = .ok e → E.Safe k e

theorem plainAll_mem {D : Str → Prop} {es : List (Expr F)} (h : Expr.PlainAll D es) : ∀ e ∈ es, e.Plain D := by
  induction es with
  | nil => intro e he; cases he
  | cons a es ih =>
    intro e he
    rw [Expr.PlainAll] at h
    rcases List.mem_cons.1 he with rfl | he
    · exact h.1
    · exact ih h.2 e he

theorem Res.Ends.append {a b : Res F} (ha : a.Ends) (hb : b.Ends) : (Res.append a b).Ends := by
  unfold Res.append
  cases h : a.tail with
  | done => exact hb
  | err e => intro h'; cases h'
  | out => exact absurd h ha

theorem Res.Ends.bindList {f : Item F → Res F} (hf : ∀ y, (f y).Ends) {t : Tail} (ht : t ≠ .out) :
    ∀ xs : List (Item F), (Res.bindList f t xs).Ends
  | [] => ht
  | x :: xs => (hf x).append (Res.Ends.bindList hf ht xs)

theorem Res.Ends.bind {a : Res F} (ha : a.Ends) {f : Item F → Res F} (hf : ∀ y, (f y).Ends) : (a.bind f).Ends :=
  Res.Ends.bindList hf ha _

theorem ends_one (y : Item F) : (Res.one y).Ends := by intro h; cases h
theorem ends_nil : (Res.nil : Res F).Ends := by intro h; cases h
theorem ends_fail (e : XErr) : (Res.fail e : Res F).Ends := by intro h; cases h
theorem ends_done (xs : List (Item F)) : (⟨xs, .done⟩ : Res F).Ends := by intro h; cases h

theorem Res.Ends.first {a : Res F} (ha : a.Ends) : ∀ t, a.first = .stop t → t ≠ .out := by
  intro t h
  unfold Res.first at h
  split at h
  · cases h
  · cases h
  · rename_i h1 _ _
    cases h; rename_i hne
    intro h'
    exact ha (by assumption)

theorem Res.Ends.need {a : Res F} (ha : a.Ends) {f : Item F → Res F} (hf : ∀ y, (f y).Ends) : (a.need f).Ends := by
  unfold Res.need
  split
  · exact hf _
  · exact ends_fail _
  · rename_i t h; exact ha.first t h

theorem Res.Ends.orDefault {a : Res F} (ha : a.Ends) (d : Item F) {f : Item F → Res F} (hf : ∀ y, (f y).Ends) :
    (a.orDefault d f).Ends := by
  unfold Res.orDefault
  split
  · exact hf _
  · exact hf _
  · rename_i t h; exact ha.first t h

theorem ends_toNum (fo : FloatOps F) (doc : Node) (y : Item F) : (y.toNum fo doc).Ends := by
  unfold Item.toNum
  repeat' split
  all_goals first | exact ends_one _ | exact ends_fail _

theorem ends_eqLoop (fo : FloatOps F) (doc : Node) (i : Item F) {t : Tail} (ht : t ≠ .out) :
    ∀ (xs : List (Item F)) (t' : Tail), eqLoop fo doc i t xs = .inr t' → t' ≠ .out := by
  intro xs
  induction xs with
  | nil => intro t' h; simp only [eqLoop, Sum.inr.injEq] at h; exact h ▸ ht
  | cons j r ih =>
    intro t' h
    simp only [eqLoop] at h
    split at h
    · cases h; intro h; cases h
    · split at h
      · cases h
      · exact ih t' h

theorem ends_getRoot (doc : Node) (x : Item F) : (x.getRoot doc).Ends := by
  unfold Item.getRoot
  repeat' split
  all_goals first | exact ends_one _ | exact ends_fail _

theorem ends_step (fo : FloatOps F) (doc : Node) (n : Nat) (a : Axis) (t : Test) (x : Item F)
    (ha : a ≠ .ancestorOrSelf) : (stepRes fo doc n a t x).Ends := by
  cases a <;> simp only [stepRes]
  case ancestorOrSelf => exact absurd rfl ha
  case descendantOrSelf =>
    refine Res.Ends.append (ends_done _) ?_
    split
    · exact ends_fail _
    · exact ends_done _
  all_goals repeat' split
  all_goals first
    | exact ends_done _ | exact ends_fail _ | exact ends_nil | exact ends_one _ | exact ends_getRoot _ _
    | exact Res.Ends.append (ends_done _) (ends_getRoot _ _)

theorem step_fuel (fo : FloatOps F) (doc : Node) (n m : Nat) (a : Axis) (t : Test) (x : Item F)
    (ha : a ≠ .ancestorOrSelf) : stepRes fo doc n a t x = stepRes fo doc m a t x := by
  cases a <;> first | rfl | exact absurd rfl ha

theorem ends_unionRes (doc : Node) (x : Item F) {l r : Res F} (hl : l.Ends) (hr : r.Ends) :
    (unionRes doc x l r).Ends := by
  unfold unionRes
  repeat' split
  all_goals first | exact ends_done _ | exact ends_fail _ | skip
  · intro h; exact hr h
  · intro h; exact hl h

theorem ends_eqRes (fo : FloatOps F) (doc : Node) {l r : Res F} (hl : l.Ends) (hr : r.Ends) :
    (eqRes fo doc l r).Ends := by
  unfold eqRes
  repeat' split
  all_goals first | exact ends_one _ | exact hl | skip
  rename_i h
  exact ends_eqLoop fo doc _ hr _ _ h

theorem ends_strArg (fo : FloatOps F) (doc : Node) {a : Res F} (ha : a.Ends) {f : Str → Res F}
    (hf : ∀ s, (f s).Ends) : (strArg fo doc a f).Ends := ha.orDefault _ fun _ => hf _

theorem ends_intArg (fo : FloatOps F) (doc : Node) (e : Expr F) {f : Int → Res F}
    (hf : ∀ s, (f s).Ends) : (intArg fo doc e f).Ends := by
  unfold intArg
  split
  · refine (ends_toNum _ _ _).need fun v => ?_
    repeat' split
    all_goals first | exact hf _ | exact ends_fail _
  · exact ends_fail _

theorem ends_fnStr2 (fo : FloatOps F) (doc : Node) {f : Str → Str → Res F} (hf : ∀ s t, (f s t).Ends)
    {rs : List (Res F)} (h : ∀ r ∈ rs, r.Ends) : (fnStr2 fo doc f rs).Ends := by
  unfold fnStr2
  split
  · exact ends_strArg fo doc (h _ (by simp)) fun s => ends_strArg fo doc (h _ (by simp)) fun t => hf s t
  · exact ends_fail _

theorem ends_concat (fo : FloatOps F) (doc : Node) {rs : List (Res F)} (h : ∀ r ∈ rs, r.Ends) :
    (concatRes fo doc rs).Ends := by
  have : (rs.foldr Res.append Res.nil).Ends := by
    induction rs with
    | nil => exact ends_nil
    | cons r rs ih => exact (h r (by simp)).append (ih fun r hr => h r (by simp [hr]))
  unfold concatRes
  simp only
  split
  · exact ends_one _
  · exact this

theorem ends_predHolds (fo : FloatOps F) (doc : Node) (pos : Nat) {r : Res F} (hr : r.Ends) :
    ∀ t, predHolds fo doc pos r = .inr t → t ≠ .out := by
  intro t h
  unfold predHolds at h
  repeat' split at h
  all_goals first | (cases h; intro h; cases h; done) | (cases h; done) | skip
  rename_i hs
  cases h
  exact hr.first _ hs

theorem ends_predLoop {f : Nat → Item F → Bool ⊕ Tail} (hf : ∀ pos y t, f pos y = .inr t → t ≠ .out) {t : Tail}
    (ht : t ≠ .out) : ∀ (xs : List (Item F)) (pos : Nat), (predLoop f t pos xs).Ends := by
  intro xs
  induction xs with
  | nil => intro pos; exact ht
  | cons x xs ih =>
    intro pos
    rw [predLoop]
    split
    · rename_i h; exact hf _ _ _ h
    · split
      · exact ih (pos + 1)
      · exact ih (pos + 1)

theorem ends_fns (fo : FloatOps F) (doc : Node) (x : Item F) {rs : List (Res F)} (h : ∀ r ∈ rs, r.Ends) :
    (fnName doc x rs).Ends ∧ (∀ r : Res F, r.Ends → (fnConst r rs).Ends) ∧ (fnCount rs).Ends ∧
    (fnString fo doc x rs).Ends ∧ (∀ args, (fnSubstring fo doc args rs).Ends) ∧ (fnLength doc rs).Ends ∧
    (fnBoolean fo doc rs).Ends ∧ (fnNot fo doc rs).Ends ∧ (fnNumber fo doc rs).Ends ∧
    (∀ k, (fnTodo k rs : Res F).Ends) := by
  refine ⟨?_, ?_, ?_, ?_, ?_, ?_, ?_, ?_, ?_, ?_⟩
  · unfold fnName; split
    · exact ends_one _
    · exact (h _ (by simp)).orDefault _ fun _ => ends_one _
    · exact ends_fail _
  · intro r hr; unfold fnConst; split
    · exact hr
    · exact ends_fail _
  · unfold fnCount; split
    · split
      · exact ends_one _
      · rename_i a _; exact h a (by simp)
    · exact ends_fail _
  · unfold fnString; split
    · exact ends_one _
    · exact (h _ (by simp)).orDefault _ fun _ => ends_one _
    · exact ends_fail _
  · intro args; unfold fnSubstring; split
    · split
      · exact ends_strArg fo doc (h _ (by simp)) fun _ => ends_intArg fo doc _ fun _ =>
          ends_intArg fo doc _ fun _ => ends_one _
      · exact ends_fail _
    · exact ends_fail _
  · unfold fnLength; split
    · exact ends_fail _
    · refine (h _ (by simp)).orDefault _ fun _ => ?_
      split
      · exact ends_one _
      · exact ends_fail _
    · exact ends_fail _
  · unfold fnBoolean; split
    · exact (h _ (by simp)).orDefault _ fun _ => ends_one _
    · exact ends_fail _
  · unfold fnNot; split
    · exact (h _ (by simp)).orDefault _ fun _ => ends_one _
    · exact ends_fail _
  · unfold fnNumber; split
    · exact ends_one _
    · exact (h _ (by simp)).orDefault _ fun _ => ends_toNum fo doc _
    · exact ends_fail _
  · intro k; unfold fnTodo; split
    · exact ends_fail _
    · exact ends_fail _

theorem ends_ite {c : Prop} [Decidable c] {a b : Res F} (ha : c → a.Ends) (hb : ¬ c → b.Ends) :
    (if c then a else b).Ends := by
  split
  · exact ha (by assumption)
  · exact hb (by assumption)

theorem ends_callFn (fo : FloatOps F) (doc : Node) (dyn : Str → Except XErr (Item F → Res F)) (x : Item F) (name : Str)
    (args : List (Expr F)) {rs : List (Res F)} (h : ∀ r ∈ rs, r.Ends) (hn : name ≠ "for-each".toList) :
    (callFn fo doc dyn x name args rs).Ends := by
  obtain ⟨h1, h2, h3, h4, h5, h6, h7, h8, h9, h10⟩ := ends_fns fo doc x h
  unfold callFn
  refine ends_ite (fun _ => h1) fun _ => ?_
  refine ends_ite (fun _ => h2 _ (ends_one _)) fun _ => ?_
  refine ends_ite (fun _ => h3) fun _ => ?_
  refine ends_ite (fun _ => h4) fun _ => ?_
  refine ends_ite (fun _ => ends_concat fo doc h) fun _ => ?_
  refine ends_ite (fun _ => ends_fnStr2 fo doc (fun _ _ => ends_one _) h) fun _ => ?_
  refine ends_ite (fun _ => ends_fnStr2 fo doc (fun _ _ => ends_one _) h) fun _ => ?_
  refine ends_ite (fun _ => ends_fnStr2 fo doc
    (fun _ _ => ends_ite (fun _ => ends_fail _) fun _ => ends_one _) h) fun _ => ?_
  refine ends_ite (fun _ => ends_fnStr2 fo doc
    (fun _ _ => ends_ite (fun _ => ends_fail _) fun _ => ends_one _) h) fun _ => ?_
  refine ends_ite (fun _ => h5 _) fun _ => ?_
  refine ends_ite (fun _ => h6) fun _ => ?_
  refine ends_ite (fun _ => h7) fun _ => ?_
  refine ends_ite (fun _ => h8) fun _ => ?_
  refine ends_ite (fun _ => h2 _ (ends_one _)) fun _ => ?_
  refine ends_ite (fun _ => h2 _ (ends_one _)) fun _ => ?_
  refine ends_ite (fun _ => h9) fun _ => ?_
  refine ends_ite (fun h => absurd h hn) fun _ => ?_
  refine ends_ite (fun _ => ends_fnStr2 fo doc (fun _ _ => ends_fail _) h) fun _ => ?_
  refine ends_ite (fun _ => h10 _) fun _ => ?_
  exact ends_ite (fun _ => h10 _) fun _ => ends_fail _

theorem callFn_dyn (fo : FloatOps F) (doc : Node) (dyn dyn' : Str → Except XErr (Item F → Res F)) (x : Item F) (name : Str)
    (args : List (Expr F)) (rs : List (Res F)) (hn : name ≠ "for-each".toList) :
    callFn fo doc dyn x name args rs = callFn fo doc dyn' x name args rs := by
  simp only [callFn, if_neg hn]

theorem callFn_forEach (fo : FloatOps F) (doc : Node) (dyn : Str → Except XErr (Item F → Res F)) (x : Item F)
    (args : List (Expr F)) (rs : List (Res F)) :
    callFn fo doc dyn x "for-each".toList args rs = fnForEach fo doc dyn x rs := by
  rw [callFn]
  repeat rw [if_neg (by decide)]
  rw [if_pos rfl]

/-- What is shown of a plain expression: it ends, and the bounds do not matter. -/
structure Same (fo : FloatOps F) (doc : Node) (vars : Str → Option (Item F)) (n m : Nat)
    (dyn dyn' : Str → Except XErr (Item F → Res F)) (e : Expr F) : Prop where
  ends : ∀ x, (eval fo doc vars n dyn e x).Ends
  same : ∀ x, eval fo doc vars n dyn e x = eval fo doc vars m dyn' e x

section
variable (fo : FloatOps F) (doc : Node) (vars : Str → Option (Item F)) (n m : Nat)
  (dyn dyn' : Str → Except XErr (Item F → Res F))

theorem evalArgs_same {es : List (Expr F)} (h : ∀ e ∈ es, Same fo doc vars n m dyn dyn' e) (x : Item F) :
    (∀ r ∈ evalArgs fo doc vars n dyn es x, r.Ends) ∧
    evalArgs fo doc vars n dyn es x = evalArgs fo doc vars m dyn' es x := by
  induction es with
  | nil => exact ⟨by intro r hr; rw [evalArgs] at hr; exact absurd hr (by simp), rfl⟩
  | cons e es ih =>
    have he := h e (by simp)
    have ⟨i1, i2⟩ := ih fun e he => h e (by simp [he])
    rw [evalArgs, evalArgs, i2, he.same]
    refine ⟨?_, rfl⟩
    intro r hr
    rcases List.mem_cons.1 hr with rfl | hr
    · rw [← he.same]; exact he.ends x
    · exact i1 r (i2 ▸ hr)

theorem evalSeq_same {es : List (Expr F)} (h : ∀ e ∈ es, Same fo doc vars n m dyn dyn' e) (x : Item F) :
    (evalSeq fo doc vars n dyn es x).Ends ∧ evalSeq fo doc vars n dyn es x = evalSeq fo doc vars m dyn' es x := by
  induction es with
  | nil => exact ⟨by rw [evalSeq]; exact ends_nil, rfl⟩
  | cons e es ih =>
    have he := h e (by simp)
    have ⟨i1, i2⟩ := ih fun e he => h e (by simp [he])
    rw [evalSeq, evalSeq, ← i2, ← he.same]
    exact ⟨(he.ends x).append i1, rfl⟩

theorem evalPreds_same {es : List (Expr F)} (h : ∀ e ∈ es, Same fo doc vars n m dyn dyn' e) (pos : Nat) (x : Item F) :
    (∀ t, evalPreds fo doc vars n dyn pos es x = .inr t → t ≠ .out) ∧
    evalPreds fo doc vars n dyn pos es x = evalPreds fo doc vars m dyn' pos es x := by
  induction es with
  | nil => exact ⟨by intro t h; rw [evalPreds] at h; exact absurd h (by simp), rfl⟩
  | cons e es ih =>
    have he := h e (by simp)
    have ⟨i1, i2⟩ := ih fun e he => h e (by simp [he])
    rw [evalPreds, evalPreds, ← i2, ← he.same]
    refine ⟨?_, rfl⟩
    intro t ht
    split at ht
    · exact i1 t ht
    · exact ends_predHolds fo doc pos (he.ends x) t ht

theorem plain_same (D : Str → Prop) (hD : ∀ s, D s → dyn s = dyn' s ∧ ∀ g, dyn s = .ok g → ∀ y, (g y).Ends)
    (e : Expr F) : e.Plain D → Same fo doc vars n m dyn dyn' e := by
  refine Expr.induct (P := fun e => e.Plain D → Same fo doc vars n m dyn dyn' e)
    ?_ ?_ ?_ ?_ ?_ ?_ ?_ ?_ ?_ ?_ ?_ ?_ ?_ ?_ ?_ ?_ ?_ ?_ ?_ ?_ ?_ ?_ e
  · intro y _
    exact ⟨fun x => by rw [eval]; exact ends_one _, fun x => by rw [eval, eval]⟩
  · intro e ih h
    rw [Expr.Plain] at h
    have i := ih h
    refine ⟨fun x => ?_, fun x => by rw [eval, eval, i.same]⟩
    rw [eval]
    split
    · rename_i t ht; exact (i.ends x).first t ht
    · exact ends_fail _
  · intro l r il ir h
    rw [Expr.Plain] at h
    have i := il h.1
    have j := ir h.2
    exact ⟨fun x => by rw [eval]; exact (i.ends x).bind fun y => j.ends _,
      fun x => by rw [eval, eval, i.same]; simp only [j.same]⟩
  · intro l r il ir h
    rw [Expr.Plain] at h
    have i := il h.1
    have j := ir h.2
    have k : Same fo doc vars n m dyn dyn' r.setAxis := by
      cases r <;> first
        | exact j
        | exact ⟨fun x => by rw [Expr.setAxis, eval]; exact ends_step fo doc n _ _ x (by decide),
            fun x => by rw [Expr.setAxis, eval, eval]; exact step_fuel fo doc n m _ _ x (by decide)⟩
    exact ⟨fun x => by rw [eval_dslash]; exact (i.ends x).bind fun y => k.ends _,
      fun x => by rw [eval_dslash, eval_dslash, i.same]; simp only [k.same]⟩
  · intro l r il ir h
    rw [Expr.Plain] at h
    have i := il h.1
    have j := ir h.2
    exact ⟨fun x => by rw [eval]; exact ends_unionRes doc x (i.ends x) (j.ends x),
      fun x => by rw [eval, eval, i.same, j.same]⟩
  · intro l r il ir h
    rw [Expr.Plain] at h
    have i := il h.1
    have j := ir h.2
    exact ⟨fun x => by rw [eval]; exact ends_eqRes fo doc (i.ends x) (j.ends x),
      fun x => by rw [eval, eval, i.same, j.same]⟩
  · intro l r il ir h
    rw [Expr.Plain] at h
    have i := il h.1
    have j := ir h.2
    exact ⟨fun x => by rw [eval]; exact (i.ends x).need fun _ => (j.ends x).need fun _ => ends_one _,
      fun x => by rw [eval, eval, i.same, j.same]⟩
  · intro op l r il ir h
    rw [Expr.Plain] at h
    have i := il h.1
    have j := ir h.2
    refine ⟨fun x => ?_, fun x => by rw [eval, eval, i.same, j.same]⟩
    rw [eval]
    refine (i.ends x).need fun _ => (j.ends x).need fun _ => ?_
    split
    · exact ends_one _
    · exact ends_fail _
  · intro l r il ir h
    rw [Expr.Plain] at h
    have i := il h.1
    have j := ir h.2
    refine ⟨fun x => ?_, fun x => by rw [eval, eval, i.same, j.same]⟩
    rw [eval]
    exact (i.ends x).need fun _ => ends_ite (fun _ => ends_one _) fun _ => (j.ends x).need fun _ => ends_one _
  · intro l r il ir h
    rw [Expr.Plain] at h
    have i := il h.1
    have j := ir h.2
    refine ⟨fun x => ?_, fun x => by rw [eval, eval, i.same, j.same]⟩
    rw [eval]
    exact (i.ends x).need fun _ => ends_ite (fun _ => (j.ends x).need fun _ => ends_one _) fun _ => ends_one _
  · intro op l r _ _ _
    exact ⟨fun x => by rw [eval]; exact ends_fail _, fun x => by rw [eval, eval]⟩
  · intro _
    exact ⟨fun x => by rw [eval]; exact ends_getRoot doc x, fun x => by rw [eval, eval]⟩
  · intro r ir h
    rw [Expr.Plain] at h
    have i := ir h
    exact ⟨fun x => by
        rw [eval]
        exact (ends_getRoot doc x).bind fun y => (ends_ite (fun _ => ends_one _) fun _ => ends_nil).append (i.ends y),
      fun x => by rw [eval, eval]; simp only [i.same]⟩
  · intro r ir h
    rw [Expr.Plain] at h
    have i := ir h
    refine ⟨fun x => ?_, fun x => by rw [eval, eval]; simp only [i.same]⟩
    rw [eval]
    refine (ends_getRoot doc x).bind fun y => (ends_ite (fun _ => ends_one _) fun _ => ends_nil).append
      ((i.ends y).append ?_)
    split
    · exact ends_fail _
    · exact Res.Ends.bindList (fun z => i.ends _) (by intro h; cases h) _
  · intro a t h
    rw [Expr.Plain] at h
    exact ⟨fun x => by rw [eval]; exact ends_step fo doc n a t x h,
      fun x => by rw [eval, eval]; exact step_fuel fo doc n m a t x h⟩
  · intro t _
    exact ⟨fun x => by rw [eval]; exact ends_done _, fun x => by rw [eval, eval]⟩
  · intro l ps il ip h
    rw [Expr.Plain] at h
    have i := il h.1
    have js : ∀ p ∈ ps, Same fo doc vars n m dyn dyn' p := fun p hp => ip p hp (plainAll_mem h.2 p hp)
    refine ⟨fun x => ?_, fun x => ?_⟩
    · rw [eval]
      exact ends_predLoop (fun pos y => (evalPreds_same fo doc vars n m dyn dyn' js pos _).1) (i.ends x) _ _
    · rw [eval, eval, i.same]
      congr 1
      funext pos y
      exact (evalPreds_same fo doc vars n m dyn dyn' js pos _).2
  · intro _
    exact ⟨fun x => by rw [eval]; exact ends_one _, fun x => by rw [eval, eval]⟩
  · intro _
    refine ⟨fun x => ?_, fun x => by rw [eval, eval]⟩
    rw [eval]
    split
    · exact ends_fail _
    · exact ends_getRoot doc x
    · exact ends_one _
  · intro v _
    refine ⟨fun x => ?_, fun x => by rw [eval, eval]⟩
    rw [eval]
    split
    · exact ends_one _
    · exact ends_fail _
  · intro f as ia h
    rw [Expr.Plain] at h
    have js : ∀ p ∈ as, Same fo doc vars n m dyn dyn' p := fun p hp => ia p hp (plainAll_mem h.1 p hp)
    by_cases hf : f = "for-each".toList
    · obtain ⟨a, s, rfl, hs⟩ := h.2 hf
      subst hf
      have i := js a (by simp)
      obtain ⟨d1, d2⟩ := hD s hs
      have key : ∀ (k : Nat) (d : Str → Except XErr (Item F → Res F)) (x : Item F),
          eval fo doc vars k d (.call "for-each".toList [a, .lit (.str s)]) x = match d s with
            | .ok g => (eval fo doc vars k d a x).bind fun y => g (y.orElse fo doc x)
            | .error e => .fail e := by
        intro k d x
        rw [eval, callFn_forEach]
        simp only [evalArgs, eval, fnForEach]
        rfl
      refine ⟨fun x => ?_, fun x => ?_⟩
      · rw [key]
        cases hg : dyn s with
        | error _ => exact ends_fail _
        | ok g => exact (i.ends x).bind fun y => d2 g hg _
      · rw [key, key, ← d1, i.same]
    · refine ⟨fun x => ?_, fun x => ?_⟩
      · rw [eval]
        exact ends_callFn fo doc dyn x f as (evalArgs_same fo doc vars n m dyn dyn' js x).1 hf
      · rw [eval, eval, (evalArgs_same fo doc vars n m dyn dyn' js x).2]
        exact callFn_dyn fo doc dyn dyn' x f as _ hf
  · intro es ie h
    rw [Expr.Plain] at h
    have js : ∀ p ∈ es, Same fo doc vars n m dyn dyn' p := fun p hp => ie p hp (plainAll_mem h p hp)
    exact ⟨fun x => by rw [eval]; exact (evalSeq_same fo doc vars n m dyn dyn' js x).1,
      fun x => by rw [eval, eval]; exact (evalSeq_same fo doc vars n m dyn dyn' js x).2⟩

end

/-- C58: evaluating an expression ends, on every document and at every item, if it has no step on the axis
`ancestor-or-self` and the expressions `for-each` is given are literals that are of this kind too. -/
theorem C58_evaluation_ends_partial (E : Env F) : ∀ (k : Nat) (e : Expr F), E.Safe k e → ∀ n, k ≤ n → ∀ x,
    (E.run n e x).tail ≠ .out ∧ E.run n e x = E.run k e x := by
  intro k
  induction k with
  | zero =>
    intro e h n _ x
    have key : ∀ dyn dyn', Same E.fo E.doc E.vars n 0 dyn dyn' e := fun dyn dyn' =>
      plain_same E.fo E.doc E.vars n 0 dyn dyn' _ (fun s h => h.elim) e h
    obtain ⟨dyn, hd⟩ := run_eval E n
    obtain ⟨dyn', hd'⟩ := run_eval E 0
    rw [hd, hd']
    exact ⟨(key dyn dyn').ends x, (key dyn dyn').same x⟩
  | succ k ih =>
    intro e h n hn x
    cases n with
    | zero => omega
    | succ n =>
      have key := plain_same E.fo E.doc E.vars (n + 1) (k + 1)
        (fun s => (E.parse s).map fun e => evalN E.fo E.doc E.parse E.vars n e)
        (fun s => (E.parse s).map fun e => evalN E.fo E.doc E.parse E.vars k e) _ (by
          intro s hs
          cases hp : E.parse s with
          | error _ => exact ⟨rfl, fun g hg => by cases hg⟩
          | ok e' =>
            have := fun y => ih e' (hs e' hp) n (by omega) y
            refine ⟨?_, ?_⟩
            · simp only [Except.map, Except.ok.injEq]
              funext y
              exact (this y).2
            · intro g hg y
              simp only [Except.map, Except.ok.injEq] at hg
              subst hg
              exact (this y).1) e h
      exact ⟨key.ends x, key.same x⟩

/-- C58 is false as stated.  The axis `ancestor-or-self`, at any item that has a parent, yields that parent over
and over; -/
theorem C58_full_statement_is_false (n : Nat) :
    exEnv.run n (.step .ancestorOrSelf .star) (.node [2, 0]) =
      ⟨.node [2, 0] :: List.replicate n (.node [2]), .out⟩ := by
  obtain ⟨dyn, h⟩ := run_eval exEnv n
  rw [h, eval]
  have hv : ∀ k, visit exEnv.fo exEnv.doc .star (.node [2, 0]) (List.replicate k (.node [2])) =
      List.replicate k (.node [2]) := by
    intro k
    induction k with
    | zero => rfl
    | succ k ih =>
      rw [List.replicate_succ, visit, List.flatMap_cons, ← visit, ih]
      rfl
  simp only [stepRes, Item.parent, List.dropLast]
  rw [if_neg (by decide)]
  simp only [hv]
  rfl

/-- an expression can also evaluate itself: `for-each(., $v)` where the variable `v` holds that very text. -/
theorem C58_self_application (fo : FloatOps F) (doc : Node) (v s : Str) (n : Nat) :
    let E : Env F := ⟨fo, doc, fun u => if u = v then some (.str s) else none,
      fun u => if u = s then .ok (.call "for-each".toList [.dot, .var v]) else .error .runtime⟩
    ∀ x, (E.run n (.call "for-each".toList [.dot, .var v]) x).tail = .out := by
  intro E
  have h1 : E.vars v = some (.str s) := if_pos rfl
  have h2 : E.parse s = .ok (.call "for-each".toList [.dot, .var v]) := if_pos rfl
  have key : ∀ (k : Nat) (d : Str → Except XErr (Item F → Res F)) (g : Item F → Res F) (x : Item F), d s = .ok g →
      (g (x.orElse E.fo E.doc x)).tail = .out →
      (eval E.fo E.doc E.vars k d (.call "for-each".toList [.dot, .var v]) x).tail = .out := by
    intro k d g x hg ho
    rw [eval, callFn_forEach]
    have ha : evalArgs E.fo E.doc E.vars k d [.dot, .var v] x = [.one x, .one (.str s)] := by
      rw [evalArgs, evalArgs, evalArgs, eval, eval, h1]
    rw [ha, fnForEach]
    show (match d s with | .ok g => _ | .error e => _ : Res F).tail = .out
    rw [hg]
    simp only [Res.bind, Res.one, Res.bindList, Res.append]
    rw [ho]
  induction n with
  | zero =>
    intro x
    exact key 0 _ (fun _ => ⟨[], .out⟩) x (by simp only [h2]; rfl) rfl
  | succ n ih =>
    intro x
    exact key (n + 1) _ (fun y => E.run n (.call "for-each".toList [.dot, .var v]) y) x
      (by simp only [h2]; rfl) (ih _)

example : exEnv.Safe 1 (.slash (.absAll (.step .child (.name ['c']))) (.call "count".toList [.step .child .star])) := by
  simp [Env.Safe, Expr.Plain, Expr.PlainAll]

/-! ### C66: attributes -/

/-- C66: `@*` yields the attributes of the element, in order, with their values, and `@name` those of that name. -/
theorem C66_attributes_partial (E : Env F) (n : Nat) (p : Path) (m : Str) (as : List (Str × Str)) (cs : List Node)
    (h : E.doc.at? p = some (.elem m as cs)) :
    E.Yields n (.step .attribute .star) (.node p) (as.map fun kv => .attr p kv.1 kv.2) ∧
    (∀ k v, k ≠ ['*'] → as.Pairwise (fun a b => a.1 ≠ b.1) → (k, v) ∈ as →
      E.Yields n (.step .attribute (.name k)) (.node p) [.attr p k v]) ∧
    (∀ k, k ≠ ['*'] → (∀ v, (k, v) ∉ as) → E.Yields n (.step .attribute (.name k)) (.node p) []) := by
  refine ⟨?_, ?_, ?_⟩
  · rw [Env.Yields, run_step]
    simp only [stepRes, h, Test.theName, true_or, decide_true]
    rw [List.filter_eq_self.2 (by simp)]
  · intro k v hk hd hm
    rw [Env.Yields, run_step]
    simp only [stepRes, h]
    have : (as.filter fun kv => decide (k = "*".toList ∨ k = kv.1)) = [(k, v)] := by
      clear h
      have hk' : ¬ k = "*".toList := hk
      induction as with
      | nil => cases hm
      | cons a as ih =>
        rw [List.pairwise_cons] at hd
        rcases List.mem_cons.1 hm with rfl | hm
        · rw [List.filter_cons_of_pos (by simp)]
          rw [List.filter_eq_nil_iff.2]
          intro b hb
          have := hd.1 b hb
          simpa [hk] using this
        · rw [List.filter_cons_of_neg, ih hd.2 hm]
          have := hd.1 _ hm
          simp only [decide_eq_true_eq, hk', false_or]
          exact fun h => this h.symm
    show (⟨List.map _ (as.filter fun kv => decide (k = "*".toList ∨ k = kv.1)), .done⟩ : Res F) = _
    rw [this]; rfl
  · intro k hk hn
    rw [Env.Yields, run_step]
    simp only [stepRes, h, Test.theName]
    rw [List.filter_eq_nil_iff.2]
    · rfl
    · rintro ⟨k', v'⟩ hb
      have hk' : ¬ k = "*".toList := hk
      simp only [decide_eq_true_eq, hk', false_or]
      rintro rfl
      exact hn v' hb

/-- C66 as stated is false of `@node()`, which yields only an attribute called `node`; and `name(@i)` is empty. -/
theorem C66_full_statement_is_false :
    exEnv.Yields 0 (.step .attribute .star) (.node [2]) [.attr [2] ['i'] ['1']] ∧
    exEnv.Yields 0 (.step .attribute .node) (.node [2]) [] ∧
    exEnv.Yields 0 (.call "name".toList [.step .attribute .star]) (.node [2]) [.str []] := by
  unfold Env.Yields; decide

/-! ### C67: `//` between steps -/

/-- C67: `l//name` yields, for each element `l` yields, the elements of that name among it and what is below it, in
document order: more than the descendants, the element itself too. -/
theorem C67_descendant_or_self_partial (E : Env F) (n : Nat) (l : Expr F) (a : Axis) (m : Str) (x : Item F)
    (ps : List Path) (hl : E.Yields n l x (ps.map .node)) (hp : ∀ p ∈ ps, E.doc.ElemAt p) (hd : E.doc.NoEmptyText) :
    ∃ qs : Path → List Path, E.Yields n (.dslash l (.step a (.name m))) x ((ps.flatMap qs).map .node) ∧
      ∀ p ∈ ps, (qs p).Pairwise docLt ∧ ∀ q, q ∈ qs p ↔ (∃ r, q = p ++ r) ∧ E.doc.Named m q := by
  have hk := fun p (h : E.doc.ElemAt p) => C47_name_tests E hd h n .descendantOrSelf (by simp) m
  have hc : ∀ p, ∃ q : List Path, E.doc.ElemAt p → E.Yields n (.step .descendantOrSelf (.name m)) (.node p) (q.map .node) ∧
      (∀ z, z ∈ q ↔ OnAxis .descendantOrSelf p z ∧ E.doc.Named m z) ∧ q.Pairwise docLt := by
    intro p
    by_cases h : E.doc.ElemAt p
    · obtain ⟨q, h1, h2, h3⟩ := hk p h
      exact ⟨q, fun _ => ⟨h1, h2, by simpa using h3⟩⟩
    · exact ⟨[], fun h' => absurd h' h⟩
  refine ⟨fun p => (hc p).choose, ?_, fun p hpm => ?_⟩
  · rw [Env.Yields, run_dslash]
    have := C45_steps_compose E n l (.step .descendantOrSelf (.name m)) x (ps.map .node)
      (fun y => match y with | .node p => ((hc p).choose).map .node | _ => []) hl
      (by
        intro y hy
        obtain ⟨p, hp', rfl⟩ := List.mem_map.1 hy
        exact truthy_elem E.fo (hp p hp'))
      (by
        intro y hy
        obtain ⟨p, hp', rfl⟩ := List.mem_map.1 hy
        exact ((hc p).choose_spec (hp p hp')).1)
    rw [Env.Yields] at this
    rw [this]
    congr 1
    clear this hl hp
    induction ps with
    | nil => rfl
    | cons p ps ih => simp only [List.map_cons, List.flatMap_cons, List.map_append, ih]
  · obtain ⟨_, h2, h3⟩ := (hc p).choose_spec (hp p hpm)
    exact ⟨h3, h2⟩

/-- C67 as stated is false: in `<a>x<b/><c i="1"><b>y</b></c></a>`, `child::b//b` yields the `b` it starts from. -/
theorem C67_full_statement_is_false :
    exEnv.Yields 0 (.step .child (.name ['b'])) (.node []) [.node [1]] ∧
    exEnv.Yields 0 (.step .descendant (.name ['b'])) (.node [1]) [] ∧
    exEnv.Yields 0 (.dslash (.step .child (.name ['b'])) (.step .child (.name ['b']))) (.node []) [.node [1]] := by
  unfold Env.Yields; decide

example : exEnv.Yields 0 (.dslash (.step .child .star) (.step .child (.name ['b']))) (.node [])
    [.node [1], .node [2, 0]] := by unfold Env.Yields; decide

/-! ### C68: successive predicates -/

theorem predLoop_then (f : Nat → Item F → Bool ⊕ Tail) (g : Item F → Bool ⊕ Tail) (t : Tail) (xs : List (Item F)) :
    ∀ pos pos', predLoop (fun k y => match f k y with
        | .inl true => g y
        | v => v) t pos xs = predLoop (fun _ y => g y) (predLoop f t pos xs).tail pos' (predLoop f t pos xs).items := by
  induction xs with
  | nil => intro pos pos'; rfl
  | cons x xs ih =>
    intro pos pos'
    rw [predLoop, predLoop]
    cases hf : f pos x with
    | inr t' => simp only; rw [predLoop]
    | inl b =>
      cases b with
      | false =>
        simp only [Bool.false_eq_true, if_false]
        exact ih (pos + 1) pos'
      | true =>
        simp only [if_true]
        rw [predLoop]
        cases g x with
        | inr t' => rfl
        | inl c =>
          simp only
          rw [ih (pos + 1) (pos' + 1)]

theorem predLoop_congr {f g : Nat → Item F → Bool ⊕ Tail} (t : Tail) (xs : List (Item F))
    (h : ∀ k, ∀ y ∈ xs, f k y = g k y) : ∀ pos, predLoop f t pos xs = predLoop g t pos xs := by
  induction xs with
  | nil => intro pos; rfl
  | cons x xs ih =>
    intro pos
    rw [predLoop, predLoop, h pos x (by simp), ih (fun k y hy => h k y (by simp [hy]))]

theorem predLoop_sub (f : Nat → Item F → Bool ⊕ Tail) (t : Tail) (xs : List (Item F)) :
    ∀ pos, ∀ y ∈ (predLoop f t pos xs).items, y ∈ xs := by
  induction xs with
  | nil => intro pos y h; cases h
  | cons x xs ih =>
    intro pos y h
    rw [predLoop] at h
    split at h
    · cases h
    · simp only at h
      split at h
      · rcases List.mem_cons.1 h with rfl | h
        · exact List.mem_cons_self
        · exact List.mem_cons_of_mem _ (ih _ y h)
      · exact List.mem_cons_of_mem _ (ih _ y h)

theorem predHolds_pos (fo : FloatOps F) (doc : Node) (r : Res F) (h : NotNumber r.items) (k k' : Nat) :
    predHolds fo doc k r = predHolds fo doc k' r := by
  obtain ⟨items, tail⟩ := r
  cases items with
  | nil => cases tail <;> rfl
  | cons y ys =>
    simp only [predHolds, Res.first]
    cases y <;> first | rfl | exact h.elim

theorem evalPreds_pos (fo : FloatOps F) (doc : Node) (vars : Str → Option (Item F)) (n : Nat)
    (dyn : Str → Except XErr (Item F → Res F)) (qs : List (Expr F)) (z : Item F)
    (h : ∀ q ∈ qs, NotNumber (eval fo doc vars n dyn q z).items) (k k' : Nat) :
    evalPreds fo doc vars n dyn k qs z = evalPreds fo doc vars n dyn k' qs z := by
  induction qs with
  | nil => rfl
  | cons q qs ih =>
    rw [evalPreds, evalPreds, predHolds_pos fo doc _ (h q (by simp)) k k', ih fun q hq => h q (by simp [hq])]

/-- C68: `e[p][q]...` yields what `e[p]` filtered by `[q]...` yields, for any `p`, if the predicates after the first
are not numbers. -/
theorem C68_successive_predicates_partial (E : Env F) (n : Nat) (e p : Expr F) (qs : List (Expr F)) (x : Item F)
    (ht : ∀ y ∈ (E.run n e x).items, E.Truthy y)
    (hq : ∀ q ∈ qs, ∀ y ∈ (E.run n e x).items, NotNumber (E.run n q y).items) :
    E.run n (.pred e (p :: qs)) x = E.run n (.pred (.pred e [p]) qs) x := by
  obtain ⟨dyn, h⟩ := run_eval E n
  simp only [h] at ht hq ⊢
  rw [eval, eval, eval]
  have hp : ∀ (k : Nat) (y : Item F), evalPreds E.fo E.doc E.vars n dyn k [p] y =
      predHolds E.fo E.doc k (eval E.fo E.doc E.vars n dyn p y) := by
    intro k y
    rw [evalPreds]
    split
    · rename_i h'; rw [h']; rfl
    · rfl
  simp only [hp]
  have h1 := predLoop_then (fun k y => predHolds E.fo E.doc k (eval E.fo E.doc E.vars n dyn p (y.orElse E.fo E.doc x)))
    (fun y => evalPreds E.fo E.doc E.vars n dyn 1 qs (y.orElse E.fo E.doc x))
    (eval E.fo E.doc E.vars n dyn e x).tail (eval E.fo E.doc E.vars n dyn e x).items 1 1
  refine Eq.trans ?_ (h1.trans ?_)
  · refine predLoop_congr _ _ (fun k y hy => ?_) _
    rw [evalPreds]
    have hz := orElse_truthy (x := x) (ht y hy)
    rw [evalPreds_pos E.fo E.doc E.vars n dyn qs _ (fun q hq' => by rw [hz]; exact hq q hq' y hy) k 1]
    rfl
  · refine predLoop_congr _ _ (fun k y hy => ?_) _
    have hy' := predLoop_sub _ _ _ _ y hy
    have hz := orElse_truthy (x := x) (ht y hy')
    exact evalPreds_pos E.fo E.doc E.vars n dyn qs _ (fun q hq' => by rw [hz]; exact hq q hq' y hy') 1 k

/-- C68 as stated is false: `*[name() = 'c'][1]` yields nothing when the `c` is the second child, since the second
predicate still counts all children. -/
theorem C68_full_statement_is_false :
    let p : Expr NoF := .eq (.call "name".toList []) (.lit (.str ['c']))
    exEnv.Yields 0 (.pred (.step .child .star) [p]) (.node []) [.node [2]] ∧
    exEnv.Yields 0 (.pred (.pred (.step .child .star) [p]) [.lit (.int 1)]) (.node []) [.node [2]] ∧
    exEnv.Yields 0 (.pred (.step .child .star) [p, .lit (.int 1)]) (.node []) [] := by
  unfold Env.Yields; decide

example : exEnv.Yields 0 (.pred (.step .child .star) [.lit (.int 2), .step .child .star]) (.node []) [.node [2]] := by
  unfold Env.Yields; decide

/-! ### C70: the string value of nodes -/

/-- C70: `string()` of an element is all the text in it. -/
theorem C70_string_of_element_partial (E : Env F) (n : Nat) (a : Expr F) (x : Item F) (p : Path) (z : Node)
    (xs : List (Item F)) (hz : E.doc.at? p = some z) (h : E.Yields n a x (.node p :: xs)) :
    ∃ r, E.Yields n (.call "string".toList [a]) x [r] ∧ E.strVal r = z.texts.flatten := by
  obtain ⟨r, h1, h2⟩ := C55_string E n a x _ h
  exact ⟨r, h1, by rw [h2]; simp [Env.strVal, hz]⟩

/-- C70 is false of the root: `string(/)` is empty although the document has text. -/
theorem C70_full_statement_is_false :
    exEnv.Yields 0 (.call "string".toList [.abs none]) (.node []) [.str []] ∧ exTree.texts.flatten = ['x', 'y'] := by
  unfold Env.Yields; decide

/-! ### C71: absolute paths -/

/-- C71: an absolute path yields the same from every element of the document and from the root. -/
theorem C71_absolute_paths (E : Env F) (n : Nat) (x y : Item F)
    (hx : x = .root ∨ ∃ p, x = .node p ∧ E.doc.ElemAt p) (hy : y = .root ∨ ∃ p, y = .node p ∧ E.doc.ElemAt p) :
    (∀ r, E.run n (.abs r) x = E.run n (.abs r) y) ∧
    (E.doc.NoEmptyText → ∀ r, E.run n (.absAll r) x = E.run n (.absAll r) y) := by
  have hr : ∀ z : Item F, (z = .root ∨ ∃ p, z = .node p ∧ E.doc.ElemAt p) → z.getRoot E.doc = Res.one .root := by
    rintro z (rfl | ⟨p, rfl, h⟩)
    · rfl
    · exact getRoot_elem h
  constructor
  · intro r
    cases r with
    | none =>
      obtain ⟨dyn, h⟩ := run_eval E n
      rw [h, h, eval, eval, hr x hx, hr y hy]
    | some r => rw [run_abs, run_abs, hr x hx, hr y hy]
  · intro hd r
    rw [run_absAll, run_absAll, hr x hx, hr y hy, bind_one, bind_one]
    congr 2
    simp only [Item.below]
    refine bindList_congr _ _ fun z hz => ?_
    have : E.Truthy z := by
      rcases List.mem_cons.1 hz with rfl | hz
      · exact truthy_node E.fo hd _
      · obtain ⟨p, _, rfl⟩ := List.mem_map.1 hz
        exact truthy_node E.fo hd _
    rw [orElse_truthy this, orElse_truthy this]

example : exEnv.Yields 0 (.abs (some (.slash (.step .child (.name ['a'])) (.step .child (.name ['c']))))) (.node [2, 0])
    [.node [2]] := by unfold Env.Yields; decide

end Amara
