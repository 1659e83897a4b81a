import Verif.Lemmas.UserFns
/-
C151: functions given by the caller.
-/
namespace Amara

variable {F : Type}

theorem FEnv.run_eval (E : FEnv F) (n : Nat) (e : Expr F) (x : Item F) :
    E.run n e x = evalT E.fo E.doc (fnTable E.fo E.doc E.funcs) E.vars n (E.runText n) e x := by
  cases n with
  | zero => rw [FEnv.run, evalTN]; rfl
  | succ n => rw [FEnv.run, evalTN]; rfl

theorem evalArgsT_map (fo : FloatOps F) (doc : Node) (T : FnTable F) (vars : Str → Option (Item F)) (n : Nat)
    (dyn : Str → Except XErr (Item F → Res F)) : ∀ es : List (Expr F),
    evalArgsT fo doc T vars n dyn es = es.map fun e => ⟨e, fun y => evalT fo doc T vars n dyn e y⟩
  | [] => by rw [evalArgsT]; rfl
  | e :: es => by rw [evalArgsT, evalArgsT_map fo doc T vars n dyn es]; rfl

theorem FEnv.run_call (E : FEnv F) (n : Nat) (m : Str) (es : List (Expr F)) (x : Item F) :
    E.run n (.call m es) x = match fnTable E.fo E.doc E.funcs m with
      | none => .fail .runtime
      | some g => g (E.runText n) x (es.map fun e => ⟨e, E.run n e⟩) := by
  rw [E.run_eval, evalT, evalArgsT_map]
  have : (fun e : Expr F => (⟨e, fun y => evalT E.fo E.doc (fnTable E.fo E.doc E.funcs) E.vars n (E.runText n) e y⟩ : Arg F)) =
      fun e => ⟨e, E.run n e⟩ := by
    funext e
    congr 1
    funext y
    exact (E.run_eval n e y).symm
  rw [this]
  rfl

theorem fnLookup_given {d : List (Str × Fn F)} {m : Str} {g : Fn F} (h : GivenAs d m g) : fnLookup d m = some g := by
  obtain ⟨a, b, rfl, ha⟩ := h
  unfold fnLookup
  rw [List.find?_append, List.find?_eq_none.2 (by intro kv hkv; simpa using ha kv hkv)]
  simp

theorem fnLookup_none {d : List (Str × Fn F)} {m : Str} (h : ∀ kv ∈ d, kv.1 ≠ m) : fnLookup d m = none := by
  unfold fnLookup
  rw [List.find?_eq_none.2 (by intro kv hkv; simpa using h kv hkv)]
  rfl

theorem given_ne {d : List (Str × Fn F)} {m : Str} {g : Fn F} (h : GivenAs d m g) : d ≠ [] := by
  obtain ⟨a, b, rfl, _⟩ := h
  simp

theorem fnTable_some (fo : FloatOps F) (doc : Node) {d : List (Str × Fn F)} (h : d ≠ []) : fnTable fo doc (some d) = fnLookup d := by
  cases d with
  | nil => exact absurd rfl h
  | cons _ _ => rfl

/-- C151: without functions of the caller, and with an empty mapping, there are the built-in ones: evaluation is what all other
theorems are about. -/
theorem C151_none_given (E : FEnv F) (h : E.funcs = none ∨ E.funcs = some []) (n : Nat) (e : Expr F) (x : Item F) :
    E.run n e x = E.toEnv.run n e x := by
  rw [FEnv.run, Env.run]
  rcases h with h | h <;> rw [h] <;> exact evalTN_builtin E.fo E.doc E.parse E.vars n e x

/-- C151: a call yields what the function yields (and raises what it raises) when it is given the context item and the arguments as
expressions that it may evaluate, in the same surroundings, at any item. -/
theorem C151_a_call (E : FEnv F) {d : List (Str × Fn F)} (hd : E.funcs = some d) {m : Str} {g : Fn F} (hg : GivenAs d m g) (n : Nat)
    (es : List (Expr F)) (x : Item F) : E.run n (.call m es) x = g (E.runText n) x (es.map fun e => ⟨e, E.run n e⟩) := by
  rw [E.run_call, hd, fnTable_some _ _ (given_ne hg), fnLookup_given hg]

/-- C151, what is not in the mapping given cannot be called, the built-in functions included. -/
theorem C151_nothing_else_can_be_called (E : FEnv F) {d : List (Str × Fn F)} (hd : E.funcs = some d) (hne : d ≠ []) {m : Str}
    (hm : ∀ kv ∈ d, kv.1 ≠ m) (n : Nat) (es : List (Expr F)) (x : Item F) : E.run n (.call m es) x = ⟨[], .err .runtime⟩ := by
  rw [E.run_call, hd, fnTable_some _ _ hne, fnLookup_none hm]
  rfl

/-- C151: functions that an expression does not call make no difference: two mappings in which the functions it calls are the same
(and evaluate no texts) give the same result. -/
theorem C151_other_functions_do_not_matter (E E' : FEnv F) (he : E'.toEnv = E.toEnv) {d d' : List (Str × Fn F)} (hd : E.funcs = some d)
    (hd' : E'.funcs = some d') (hne : d ≠ []) (hne' : d' ≠ []) (V : Str → Prop)
    (hV : ∀ m, V m → (∃ g : Fn F, GivenAs d m g ∧ GivenAs d' m g ∧ g.NoTexts) ∨ ((∀ kv ∈ d, kv.1 ≠ m) ∧ ∀ kv ∈ d', kv.1 ≠ m))
    (n : Nat) (e : Expr F) (hc : e.Calls V) (x : Item F) : E.run n e x = E'.run n e x := by
  rw [E.run_eval, E'.run_eval, he, hd, hd', fnTable_some _ _ hne, fnTable_some _ _ hne']
  refine calls_same _ _ _ _ _ _ _ _ V ?_ e hc x
  intro m hm
  rcases hV m hm with ⟨g, h1, h2, h3⟩ | ⟨h1, h2⟩
  · rw [fnLookup_given h1, fnLookup_given h2]
    exact fun x args => h3 _ _ x args
  · rw [fnLookup_none h1, fnLookup_none h2]
    trivial

theorem builtinFn_noTexts (fo : FloatOps F) (doc : Node) {m : Str} (h : m ≠ "for-each".toList) : (builtinFn fo doc m).NoTexts :=
  fun dyn dyn' x _ => callFn_dyn fo doc dyn dyn' x m _ _ h

/-- C151: functions added to the built-in ones (`{**BUILTIN_FUNCTIONS, **more}`, or registered with `microxpath_function`) change nothing
for expressions that call built-in functions only, other than `for-each` and than those that are replaced. -/
theorem C151_added_to_the_built_in (E : FEnv F) {d : List (Str × Fn F)} (hd : E.funcs = some d)
    (hb : ∃ m ∈ builtinNames, GivenAs d m (builtinFn E.fo E.doc m)) (n : Nat) (e : Expr F)
    (hc : e.Calls fun m => m ∈ builtinNames ∧ m ≠ "for-each".toList ∧ GivenAs d m (builtinFn E.fo E.doc m)) (x : Item F) :
    E.run n e x = E.toEnv.run n e x := by
  obtain ⟨m, hm, hg⟩ := hb
  rw [← C151_none_given { E with funcs := none } (.inl rfl), E.run_eval, FEnv.run_eval, hd, fnTable_some _ _ (given_ne hg)]
  refine calls_same _ _ _ _ _ _ _ _ _ ?_ e hc x
  rintro m ⟨h1, h2, h3⟩
  rw [fnLookup_given h3]
  show SameFn _ _ _ (fnLookup (builtinDict E.fo E.doc) m)
  rw [fnLookup_builtin, if_pos h1]
  exact fun x args => builtinFn_noTexts E.fo E.doc h2 _ _ x args

/-- C151: a function of the caller as a test: `e[f(...)]` yields, in order, exactly the items for which the function yields true
first. -/
theorem C151_as_a_test (E : FEnv F) {d : List (Str × Fn F)} (hd : E.funcs = some d) {m : Str} {g : Fn F} (hg : GivenAs d m g) (n : Nat)
    (e : Expr F) (es : List (Expr F)) (x : Item F) {xs : List (Item F)} {t : Tail} (h : E.run n e x = ⟨xs, t⟩)
    (hx : ∀ y ∈ xs, E.toEnv.Truthy y) (b : Item F → Bool)
    (hb : ∀ y ∈ xs, (g (E.runText n) y (es.map fun e => ⟨e, E.run n e⟩)).items.head? = some (.bool (b y))) :
    E.run n (.pred e [.call m es]) x = ⟨xs.filter b, t⟩ := by
  rw [E.run_eval, evalT, ← E.run_eval, h]
  refine predLoop_bool _ b _ _ _ (fun pos y hy => ?_)
  have hc := C151_a_call E hd hg n es y
  have hb' := hb y hy
  rw [← hc] at hb'
  rw [show y.orElse E.fo E.doc x = y from orElse_truthy (hx y hy), evalPredsT, ← E.run_eval]
  rcases hr : E.run n (.call m es) y with ⟨is, tl⟩
  rw [hr] at hb'
  cases is with
  | nil => cases hb'
  | cons i is =>
    cases hb'
    simp only [predHolds, Res.first, Item.toBool, evalPredsT]
    cases b y <;> rfl

/-! ### The cases are met -/

section
/-- `def either(ctx, a, b)`: the items of the first argument, or of the second one if it has none. -/
def exEither : Fn NoF := fun _ x args => match args with
  | [a, b] => if (a.compute x).items.isEmpty then b.compute x else a.compute x
  | _ => .fail .type

/-- `def has(ctx, a)`: whether the argument has an item. -/
def exHas : Fn NoF := fun _ x args => match args with
  | [a] => .one (.bool !(a.compute x).items.isEmpty)
  | _ => .fail .type

/-- `<a><b/><b i="1"/><c/></a>`, with both functions. -/
def exFnEnv : FEnv NoF where
  fo := noFloats
  doc := .elem ['a'] [] [.elem ['b'] [] [], .elem ['b'] [(['i'], ['1'])] [], .elem ['c'] [] []]
  vars := fun _ => none
  parse := fun _ => .error .runtime
  funcs := some [("either".toList, exEither), ("has".toList, exHas)]

-- both are given; `either` is the first entry and `has` the second
example : GivenAs [("either".toList, exEither), ("has".toList, exHas)] "either".toList exEither :=
  ⟨[], _, rfl, fun _ h => by cases h⟩
example : GivenAs [("either".toList, exEither), ("has".toList, exHas)] "has".toList exHas :=
  ⟨[_], _, rfl, fun kv h => by simp only [List.mem_singleton] at h; subst h; decide⟩
example : exHas.NoTexts ∧ exEither.NoTexts := ⟨fun _ _ _ _ => rfl, fun _ _ _ _ => rfl⟩

-- `either(c, $v)` yields the `c`; the variable, that is not bound, is not asked for; `either(d, $v)` raises
example : exFnEnv.run 0 (.call "either".toList [.step .child (.name ['c']), .var ['v']]) (.node []) = ⟨[.node [2]], .done⟩ ∧
    exFnEnv.run 0 (.call "either".toList [.step .child (.name ['d']), .var ['v']]) (.node []) = ⟨[], .err .key⟩ := by
  exact ⟨by rfl, by rfl⟩

-- `b[has(@i)]`: the second `b`
example : exFnEnv.run 0 (.pred (.step .child (.name ['b'])) [.call "has".toList [.step .attribute (.name ['i'])]]) (.node []) =
    ⟨[.node [1]], .done⟩ := by rfl

-- functions added to the built-in ones: `count(b)` calls one that is given as it is
example : let d := ("has".toList, exHas) :: builtinDict noFloats exFnEnv.doc
    (Expr.call "count".toList [.step .child (.name ['b'])] : Expr NoF).Calls
      fun m => m ∈ builtinNames ∧ m ≠ "for-each".toList ∧ GivenAs d m (builtinFn noFloats exFnEnv.doc m) := by
  refine ⟨⟨by decide +kernel, by decide +kernel, ?_⟩, trivial, trivial⟩
  refine ⟨[_, _, _], _, rfl, fun kv h => ?_⟩
  simp only [List.mem_cons, List.not_mem_nil, or_false] at h
  rcases h with rfl | rfl | rfl <;> decide +kernel
end

/-- C151, full statement: functions that are given can be called next to the built-in ones.  It is false: they replace them, so an
expression that calls a built-in function yields its result without `funcs`, and raises RuntimeError with `funcs={'has': has}`,
whether or not it calls `has`. -/
theorem C151_full_statement_is_false : ∃ (E : FEnv NoF) (e : Expr NoF), E.funcs = some [("has".toList, exHas)] ∧
    e = .call "count".toList [.step .child (.name ['b'])] ∧
    E.toEnv.run 0 e (.node []) = ⟨[.int 2], .done⟩ ∧ E.run 0 e (.node []) = ⟨[], .err .runtime⟩ ∧
    E.run 0 (.call "has".toList [.step .child (.name ['b'])]) (.node []) = ⟨[.bool true], .done⟩ :=
  ⟨{ exFnEnv with funcs := some [("has".toList, exHas)] }, _, rfl, rfl, by rfl, by rfl, by rfl⟩

end Amara
