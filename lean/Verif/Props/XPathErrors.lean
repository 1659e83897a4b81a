import Verif.Spec.XPathErrors
import Verif.Props.XPathFns
/-
C131: errors in the parts of an expression; `true()` and `false()`.
-/
namespace Amara

variable {F : Type}

theorem callFn_names (fo : FloatOps F) (doc : Node) (dyn : Str → Except XErr (Item F → Res F)) (x : Item F)
    (args : List (Expr F)) (rs : List (Res F)) :
    callFn fo doc dyn x "name".toList args rs = fnName doc x rs ∧
    callFn fo doc dyn x "string".toList args rs = fnString fo doc x rs ∧
    callFn fo doc dyn x "string-length".toList args rs = fnLength doc rs ∧
    callFn fo doc dyn x "boolean".toList args rs = fnBoolean fo doc rs ∧
    callFn fo doc dyn x "not".toList args rs = fnNot fo doc rs ∧
    callFn fo doc dyn x "number".toList args rs = fnNumber fo doc rs ∧
    callFn fo doc dyn x "count".toList args rs = fnCount rs ∧
    callFn fo doc dyn x "concat".toList args rs = concatRes fo doc rs ∧
    callFn fo doc dyn x "substring".toList args rs = fnSubstring fo doc args rs ∧
    callFn fo doc dyn x "true".toList args rs = fnConst (.one (.bool true)) rs ∧
    callFn fo doc dyn x "false".toList args rs = fnConst (.one (.bool false)) rs := by
  refine ⟨?_, ?_, ?_, ?_, ?_, ?_, ?_, ?_, ?_, ?_, ?_⟩ <;>
  · rw [callFn]
    repeat rw [if_neg (by decide)]
    rw [if_pos rfl]

theorem callFn_two (fo : FloatOps F) (doc : Node) (dyn : Str → Except XErr (Item F → Res F)) (x : Item F)
    {f : String} (hf : f ∈ twoStringFunctions) : ∃ g, ∀ (args : List (Expr F)) (rs : List (Res F)),
    callFn fo doc dyn x f.toList args rs = fnStr2 fo doc g rs := by
  simp only [twoStringFunctions, List.mem_cons, List.not_mem_nil, or_false] at hf
  rcases hf with rfl | rfl | rfl | rfl | rfl <;>
  · refine ⟨?_, ?_⟩
    rotate_left
    · intro args rs
      rw [callFn]
      repeat rw [if_neg (by decide)]
      rw [if_pos rfl]

theorem first_stop {t : Tail} (h : t ≠ .done) : (⟨[], t⟩ : Res F).first = .stop t := by
  cases t <;> first | rfl | exact absurd rfl h

/-- What an expression that takes the first item does depends on that first item, and it passes on the end of a part that
yields nothing. -/
theorem takesFirst_eq (E : Env F) (n : Nat) (x : Item F) {C : Expr F → Expr F} (h : E.TakesFirst n x C) :
    ∃ g : Res.First F → Res F, (∀ t, t ≠ .done → g (.stop t) = ⟨[], t⟩) ∧ ∀ e, E.run n (C e) x = g (E.run n e x).first := by
  obtain ⟨dyn, hd⟩ := run_eval E n
  have hcall : ∀ nm es, E.run n (.call nm es) x = callFn E.fo E.doc dyn x nm es (es.map fun e => E.run n e x) := by
    intro nm es
    simp only [hd]; rw [eval, evalArgs_map]
  induction h with
  | @fn f hf =>
    have hn := fun e => callFn_names E.fo E.doc dyn x [e] [E.run n e x]
    simp only [firstItemFunctions, List.mem_cons, List.not_mem_nil, or_false] at hf
    rcases hf with rfl | rfl | rfl | rfl | rfl | rfl
    · exact ⟨fun a => match a with
        | .got y => .one (.str (y.nameOf E.doc)) | .empty => .one (.str ((.str [] : Item F).nameOf E.doc)) | .stop t => ⟨[], t⟩,
        fun t _ => rfl, fun e => by
          rw [hcall]; refine (hn e).1.trans ?_
          rw [fnName, Res.orDefault]; cases (E.run n e x).first <;> rfl⟩
    · exact ⟨fun a => match a with
        | .got y => .one (y.toStrItem E.fo E.doc) | .empty => .one ((.str [] : Item F).toStrItem E.fo E.doc) | .stop t => ⟨[], t⟩,
        fun t _ => rfl, fun e => by
          rw [hcall]; refine (hn e).2.1.trans ?_
          rw [fnString, Res.orDefault]; cases (E.run n e x).first <;> rfl⟩
    · exact ⟨fun a => match a with
        | .got y => (match y.strOf E.doc with | some s => .one (.int s.length) | none => .fail .type)
        | .empty => (match (.str [] : Item F).strOf E.doc with | some s => .one (.int s.length) | none => .fail .type)
        | .stop t => ⟨[], t⟩,
        fun t _ => rfl, fun e => by
          rw [hcall]; refine (hn e).2.2.1.trans ?_
          rw [fnLength, Res.orDefault]; cases (E.run n e x).first <;> rfl⟩
    · exact ⟨fun a => match a with
        | .got y => .one (.bool (y.toBool E.fo E.doc)) | .empty => .one (.bool ((.str [] : Item F).toBool E.fo E.doc)) | .stop t => ⟨[], t⟩,
        fun t _ => rfl, fun e => by
          rw [hcall]; refine (hn e).2.2.2.1.trans ?_
          rw [fnBoolean, Res.orDefault]; cases (E.run n e x).first <;> rfl⟩
    · exact ⟨fun a => match a with
        | .got y => .one (.bool (!y.toBool E.fo E.doc)) | .empty => .one (.bool (!(.bool false : Item F).toBool E.fo E.doc)) | .stop t => ⟨[], t⟩,
        fun t _ => rfl, fun e => by
          rw [hcall]; refine (hn e).2.2.2.2.1.trans ?_
          rw [fnNot, Res.orDefault]; cases (E.run n e x).first <;> rfl⟩
    · exact ⟨fun a => match a with
        | .got y => y.toNum E.fo E.doc | .empty => (.str [] : Item F).toNum E.fo E.doc | .stop t => ⟨[], t⟩,
        fun t _ => rfl, fun e => by
          rw [hcall]; refine (hn e).2.2.2.2.2.1.trans ?_
          rw [fnNumber, Res.orDefault]; cases (E.run n e x).first <;> rfl⟩
  | minus =>
    exact ⟨fun a => match a with | .stop t => ⟨[], t⟩ | _ => .fail .type, fun t _ => rfl, fun e => by
      simp only [hd]; rw [eval]; cases (eval E.fo E.doc E.vars n dyn e x).first <;> rfl⟩
  | @neLeft r =>
    exact ⟨fun a => match a with
      | .got a => (E.run n r x).need fun b => .one (.bool (!a.pyEq E.fo E.doc b)) | .empty => .fail .runtime | .stop t => ⟨[], t⟩,
      fun t _ => rfl, fun e => by rw [run_ne, Res.need]; cases (E.run n e x).first <;> rfl⟩
  | @neRight l y hl =>
    exact ⟨fun b => match b with
      | .got b => .one (.bool (!y.pyEq E.fo E.doc b)) | .empty => .fail .runtime | .stop t => ⟨[], t⟩,
      fun t _ => rfl, fun e => by
        rw [run_ne, Res.need, first_got hl]; simp only; rw [Res.need]; cases (E.run n e x).first <;> rfl⟩
  | @relLeft op r =>
    exact ⟨fun a => match a with
      | .got a => (E.run n r x).need fun b => match a.pyRel E.fo E.doc op b with
        | some v => .one (.bool v)
        | none => .fail .type
      | .empty => .fail .runtime | .stop t => ⟨[], t⟩,
      fun t _ => rfl, fun e => by rw [run_rel, Res.need]; cases (E.run n e x).first <;> rfl⟩
  | @relRight op l y hl =>
    exact ⟨fun b => match b with
      | .got b => (match y.pyRel E.fo E.doc op b with
        | some v => .one (.bool v)
        | none => .fail .type)
      | .empty => .fail .runtime | .stop t => ⟨[], t⟩,
      fun t _ => rfl, fun e => by
        rw [run_rel, Res.need, first_got hl]; simp only; rw [Res.need]; cases (E.run n e x).first <;> rfl⟩
  | @orLeft r =>
    exact ⟨fun a => match a with
      | .got a => if a.truthy E.fo E.doc then .one a else (E.run n r x).need .one
      | .empty => .fail .runtime | .stop t => ⟨[], t⟩,
      fun t _ => rfl, fun e => by rw [run_or, Res.need]; cases (E.run n e x).first <;> rfl⟩
  | @orRight l y hl hy =>
    rw [← truthy_iff] at hy
    exact ⟨fun b => match b with
      | .got b => .one b | .empty => .fail .runtime | .stop t => ⟨[], t⟩,
      fun t _ => rfl, fun e => by
        rw [run_or, Res.need, first_got hl]; simp only [if_neg hy]; rw [Res.need]; cases (E.run n e x).first <;> rfl⟩
  | @andLeft r =>
    exact ⟨fun a => match a with
      | .got a => if a.truthy E.fo E.doc then (E.run n r x).need .one else .one a
      | .empty => .fail .runtime | .stop t => ⟨[], t⟩,
      fun t _ => rfl, fun e => by rw [run_and, Res.need]; cases (E.run n e x).first <;> rfl⟩
  | @andRight l y hl hy =>
    rw [← truthy_iff] at hy
    exact ⟨fun b => match b with
      | .got b => .one b | .empty => .fail .runtime | .stop t => ⟨[], t⟩,
      fun t _ => rfl, fun e => by
        rw [run_and, Res.need, first_got hl]; simp only [if_pos hy]; rw [Res.need]; cases (E.run n e x).first <;> rfl⟩
  | @fnLeft f r hf =>
    obtain ⟨g, hg⟩ := callFn_two E.fo E.doc dyn x hf
    exact ⟨fun a => match a with
      | .got y => strArg E.fo E.doc (E.run n r x) fun t => g (y.toStr E.fo E.doc) t
      | .empty => strArg E.fo E.doc (E.run n r x) fun t => g ((.bool false : Item F).toStr E.fo E.doc) t
      | .stop t => ⟨[], t⟩,
      fun t _ => rfl, fun e => by
        rw [hcall, hg, List.map_cons, List.map_cons, List.map_nil, fnStr2, strArg, Res.orDefault]
        cases (E.run n e x).first <;> rfl⟩
  | @fnRight f l y hf hl =>
    obtain ⟨g, hg⟩ := callFn_two E.fo E.doc dyn x hf
    exact ⟨fun b => match b with
      | .got z => g (y.toStr E.fo E.doc) (z.toStr E.fo E.doc)
      | .empty => g (y.toStr E.fo E.doc) ((.bool false : Item F).toStr E.fo E.doc)
      | .stop t => ⟨[], t⟩,
      fun t _ => rfl, fun e => by
        rw [hcall, hg, List.map_cons, List.map_cons, List.map_nil, fnStr2, strArg, Res.orDefault, first_got hl]
        simp only
        rw [strArg, Res.orDefault]
        cases (E.run n e x).first <;> rfl⟩
  | @substring i k =>
    exact ⟨fun a => match a with
      | .got y => intArg E.fo E.doc i fun i => intArg E.fo E.doc k fun k =>
          .one (.str (pySlice (y.toStr E.fo E.doc) (i - 1) (i - 1 + k)))
      | .empty => intArg E.fo E.doc i fun i => intArg E.fo E.doc k fun k =>
          .one (.str (pySlice ((.bool false : Item F).toStr E.fo E.doc) (i - 1) (i - 1 + k)))
      | .stop t => ⟨[], t⟩,
      fun t _ => rfl, fun e => by
        rw [hcall]
        refine (callFn_names E.fo E.doc dyn x [e, i, k] _).2.2.2.2.2.2.2.2.1.trans ?_
        simp only [fnSubstring, strArg, Res.orDefault, List.map]
        cases (E.run n e x).first <;> rfl⟩
  | @forEach l =>
    exact ⟨fun b => match b with
      | .got z => (match dyn (z.toStr E.fo E.doc) with
        | .ok g => (E.run n l x).bind fun y => g (y.orElse E.fo E.doc x)
        | .error e => .fail e)
      | .empty => (match dyn ((.bool false : Item F).toStr E.fo E.doc) with
        | .ok g => (E.run n l x).bind fun y => g (y.orElse E.fo E.doc x)
        | .error e => .fail e)
      | .stop t => ⟨[], t⟩,
      fun t _ => rfl, fun e => by
        rw [hcall, callFn_forEach, List.map_cons, List.map_cons, List.map_nil, fnForEach, strArg, Res.orDefault]
        cases (E.run n e x).first <;> rfl⟩
  | @inside C D h1 h2 ih1 ih2 =>
    obtain ⟨g1, a1, b1⟩ := ih1
    obtain ⟨g2, a2, b2⟩ := ih2
    refine ⟨fun a => g1 (g2 a).first, fun t ht => ?_, fun e => by rw [b1, b2]⟩
    show g1 (g2 _).first = _
    rw [a2 t ht, first_stop ht, a1 t ht]

/-- C131: nothing but the first item of a part counts where the first item is asked for. -/
theorem C131_first_item_decides (E : Env F) (n : Nat) (x : Item F) {C : Expr F → Expr F} (h : E.TakesFirst n x C)
    {e e' : Expr F} (he : E.StartAlike n x e e') : E.run n (C e) x = E.run n (C e') x := by
  obtain ⟨g, _, hg⟩ := takesFirst_eq E n x h
  rw [hg, hg]
  congr 1
  rcases he with ⟨y, h1, h2⟩ | ⟨h1, h2, h3⟩
  · rw [first_got h1, first_got h2]
  · unfold Res.first
    rw [h1, h2, h3]

/-- C131: an error is not swallowed: raised by the part an expression begins with, it is raised by the expression. -/
theorem C131_errors_come_out (E : Env F) (n : Nat) (x : Item F) {C : Expr F → Expr F} (h : E.Begins n x C)
    {e : Expr F} {er : XErr} (he : E.RaisesAtOnce n e x er) : E.RaisesAtOnce n (C e) x er := by
  obtain ⟨dyn, hd⟩ := run_eval E n
  have hcall : ∀ nm es, E.run n (.call nm es) x = callFn E.fo E.doc dyn x nm es (es.map fun e => E.run n e x) := by
    intro nm es
    simp only [hd]; rw [eval, evalArgs_map]
  unfold Env.RaisesAtOnce at *
  induction h generalizing e with
  | first h =>
    obtain ⟨g, h1, hg⟩ := takesFirst_eq E n x h
    rw [hg, he, first_stop (by simp), h1 _ (by simp)]
  | path => rw [run_slash, he]; rfl
  | deepPath =>
    simp only [hd] at he ⊢
    rw [eval, he]; rfl
  | filter =>
    simp only [hd] at he ⊢
    rw [eval, he]; rfl
  | eqLeft =>
    simp only [hd] at he ⊢
    rw [eval, he]; rfl
  | @eqRight l y hl =>
    simp only [hd] at he ⊢
    rw [eval, he, ← hd]
    rw [Env.First] at hl
    cases hi : (E.run n l x).items with
    | nil => rw [hi] at hl; cases hl
    | cons z zs => rw [eqRes, hi]; rfl
  | @sequence es rest hes =>
    induction es with
    | nil => exact (run_seq_cons E n x e rest).trans (by rw [he]; rfl)
    | cons e1 es ih =>
      have h1 := hes e1 (by simp)
      rw [Env.Yields] at h1
      refine (run_seq_cons E n x e1 (es ++ e :: rest)).trans ?_
      have h2 := ih (fun e he => hes e (by simp [he]))
      simp only at h2
      rw [h1, h2]
      rfl
  | count => rw [hcall, (callFn_names E.fo E.doc dyn x _ _).2.2.2.2.2.2.1, List.map_cons, he]; rfl
  | @concat es rest hes =>
    rw [hcall, (callFn_names E.fo E.doc dyn x _ _).2.2.2.2.2.2.2.1]
    have : (((es ++ e :: rest).map fun e => E.run n e x).foldr Res.append Res.nil).tail = .err er := by
      induction es with
      | nil => rw [List.nil_append, List.map_cons, List.foldr_cons, he]; rfl
      | cons e1 es ih =>
        have h1 := hes e1 (by simp)
        rw [List.cons_append, List.map_cons, List.foldr_cons, Res.append, h1]
        exact ih (fun e he => hes e (by simp [he]))
    unfold concatRes
    simp only [this]
  | inside _ _ ih1 ih2 => exact ih1 (ih2 he)

/-- C131: an error after some items is raised by `count`; a path and a sequence yield what they have and then raise it. -/
theorem C131_errors_later (E : Env F) (n : Nat) (x : Item F) {e : Expr F} {xs : List (Item F)} {er : XErr}
    (he : E.run n e x = ⟨xs, .err er⟩) (es : List (Expr F)) :
    E.RaisesAtOnce n (.call "count".toList [e]) x er ∧ E.run n (.seq (e :: es)) x = ⟨xs, .err er⟩ ∧
    E.run n (.slash e .dot) x = ⟨xs.map fun y => y.orElse E.fo E.doc x, .err er⟩ := by
  obtain ⟨d1, h1⟩ := run_call E n x "count".toList [e]
  refine ⟨?_, ?_, ?_⟩
  · rw [Env.RaisesAtOnce, h1, (callFn_names E.fo E.doc d1 x _ _).2.2.2.2.2.2.1, List.map_cons, he]; rfl
  · rw [run_seq_cons, he]; rfl
  · rw [run_slash, he]
    unfold Res.bind
    simp only [run_dot]
    clear he
    induction xs with
    | nil => rfl
    | cons y ys ih => rw [Res.bindList, ih]; rfl

-- `not(count(b) < (1 + 2))` begins with `1 + 2`, which raises NotImplementedError
example : exEnv.Begins 0 (.node []) (fun e => .call "not".toList [.rel .lt (.call "count".toList [.step .child (.name ['b'])]) e]) ∧
    exEnv.RaisesAtOnce 0 (.arith .add (.lit (.int 1)) (.lit (.int 2))) (.node []) .notImplemented ∧
    exEnv.StartAlike 0 (.node []) (.step .child .star) (.seq [.step .child .star, .arith .add .dot .dot]) := by
  refine ⟨.inside (C := fun e => .call "not".toList [e]) (D := fun e => .rel .lt _ e) (.first (.fn (by decide)))
    (.first (.relRight (y := .int 1) ?_)), ?_, ?_⟩
  · unfold Env.First; decide
  · unfold Env.RaisesAtOnce; decide
  · exact .inl ⟨.node [1], by unfold Env.First; decide, by unfold Env.First; decide⟩

/-- C53: `true()` and `false()`. -/
theorem C53_constants (E : Env F) (n : Nat) (x : Item F) :
    E.Yields n (.call "true".toList []) x [.bool true] ∧ E.Yields n (.call "false".toList []) x [.bool false] := by
  obtain ⟨d1, h1⟩ := run_call E n x "true".toList []
  obtain ⟨d2, h2⟩ := run_call E n x "false".toList []
  rw [Env.Yields, Env.Yields, h1, h2, (callFn_names E.fo E.doc d1 x _ _).2.2.2.2.2.2.2.2.2.1,
    (callFn_names E.fo E.doc d2 x _ _).2.2.2.2.2.2.2.2.2.2]
  exact ⟨rfl, rfl⟩

end Amara
