import Verif.Spec.XPathFns
import Verif.Props.XPathMore
import Verif.Props.XPathOps
/-
Properties C86 to C93: comparisons, variables, for-each and other functions of MicroXPath.
-/
namespace Amara

variable {F : Type}

/-! ### C86: comparisons -/

theorem first_got {E : Env F} {n : Nat} {e : Expr F} {x y : Item F} (h : E.First n e x y) : (E.run n e x).first = .got y := by
  rw [Env.First] at h
  rw [Res.first]
  cases hi : (E.run n e x).items with
  | nil => rw [hi] at h; cases h
  | cons z zs => rw [hi] at h; cases h; rfl

theorem need_got {a : Res F} {y : Item F} (h : a.first = .got y) (f : Item F → Res F) : a.need f = f y := by
  rw [Res.need, h]

theorem run_ne (E : Env F) (n : Nat) (x : Item F) (l r : Expr F) : E.run n (.ne l r) x =
    (E.run n l x).need fun a => (E.run n r x).need fun b => .one (.bool (!a.pyEq E.fo E.doc b)) := by
  obtain ⟨dyn, h⟩ := run_eval E n
  simp only [h]; rw [eval]

theorem run_rel (E : Env F) (n : Nat) (x : Item F) (op : Rel) (l r : Expr F) : E.run n (.rel op l r) x =
    (E.run n l x).need fun a => (E.run n r x).need fun b => match a.pyRel E.fo E.doc op b with
        | some v => .one (.bool v)
        | none => .fail .type := by
  obtain ⟨dyn, h⟩ := run_eval E n
  simp only [h]; rw [eval]
  rfl

theorem strCmp_iff : ∀ s t : Str, (strCmp s t = .lt ↔ s < t) ∧ (strCmp s t = .gt ↔ t < s) ∧ (strCmp s t = .eq ↔ s = t)
  | [], [] => by simp [strCmp]
  | [], d :: t => by simp [strCmp]
  | c :: s, [] => by simp [strCmp]
  | c :: s, d :: t => by
    have ih := strCmp_iff s t
    have hcd : c.toNat = d.toNat ↔ c = d := ⟨fun h => Char.ext (UInt32.toNat_inj.1 h), fun h => h ▸ rfl⟩
    have hlt : ∀ c d : Char, c < d ↔ c.toNat < d.toNat := fun _ _ => Iff.rfl
    rw [List.cons_lt_cons_iff, List.cons_lt_cons_iff, hlt, hlt]
    simp only [strCmp]
    rcases Nat.lt_trichotomy c.toNat d.toNat with h | h | h
    · have : compare c.toNat d.toNat = .lt := Nat.compare_eq_lt.2 h
      rw [this]
      have hne : c ≠ d := fun e => by rw [e] at h; omega
      simp [h, hne, Ne.symm hne]
      omega
    · have : compare c.toNat d.toNat = .eq := Nat.compare_eq_eq.2 h
      rw [this]
      have he := hcd.1 h
      subst he
      simpa using ih
    · have : compare c.toNat d.toNat = .gt := Nat.compare_eq_gt.2 h
      rw [this]
      have hne : c ≠ d := fun e => by rw [e] at h; omega
      simp [h, hne, Ne.symm hne]
      omega

theorem isString_strOf {E : Env F} {y : Item F} {s : Str} (h : E.IsString y s) : y.strOf E.doc = some s ∧ y.num = none := by
  rcases h with rfl | ⟨p, rfl, hp⟩
  · exact ⟨rfl, rfl⟩
  · simp [Item.strOf, Item.textOf, hp, Item.num]

theorem strOf_isString {E : Env F} {y : Item F} {s : Str} (h : y.strOf E.doc = some s) : E.IsString y s := by
  cases y with
  | str t => cases h; exact .inl rfl
  | node p =>
    refine .inr ⟨p, rfl, ?_⟩
    simp only [Item.strOf, Item.textOf] at h
    cases hp : E.doc.at? p with
    | none => simp [hp] at h
    | some z =>
      cases z with
      | elem m as cs => simp [hp] at h
      | text t => simp [hp] at h; rw [h]
  | _ => cases h

theorem num_isNumber {y : Item F} : y.IsNumber ↔ ∃ v, y.num = some v := by
  cases y <;> simp [Item.IsNumber, Item.num]

/-- C86: of two integers, every comparison gives its truth. -/
theorem C86_integers (E : Env F) (n : Nat) (l r : Expr F) (x : Item F) (i j : Int)
    (hl : E.First n l x (.int i)) (hr : E.First n r x (.int j)) :
    (∀ op : Rel, ∃ b, E.Yields n (.rel op l r) x [.bool b] ∧ (b = true ↔ op.Says i j)) ∧
    ∃ b, E.Yields n (.ne l r) x [.bool b] ∧ (b = true ↔ i ≠ j) := by
  constructor
  · intro op
    refine ⟨op.holds (some (compare i j)), ?_, ?_⟩
    · rw [Env.Yields, run_rel, need_got (first_got hl), need_got (first_got hr)]
      rfl
    · rcases Int.lt_trichotomy i j with h | h | h
      · rw [show compare i j = .lt from Int.compare_eq_lt.2 h]
        cases op <;> simp [Rel.holds, Rel.Says] <;> omega
      · rw [show compare i j = .eq from Int.compare_eq_eq.2 h]
        cases op <;> simp [Rel.holds, Rel.Says] <;> omega
      · rw [show compare i j = .gt from Int.compare_eq_gt.2 h]
        cases op <;> simp [Rel.holds, Rel.Says] <;> omega
  · refine ⟨!((Item.int i : Item F).pyEq E.fo E.doc (.int j)), ?_, ?_⟩
    · rw [Env.Yields, run_ne, need_got (first_got hl), need_got (first_got hr)]
      rfl
    · simp [Item.pyEq, Item.num, cmpNum]

/-- C86: where one of two numbers is a float, every comparison gives what the order of floats says of them; where that says
nothing, of a NaN, every comparison is false, and `!=` is true. -/
theorem C86_floats (E : Env F) (n : Nat) (l r : Expr F) (x y z : Item F) {a b : F ⊕ Int}
    (hl : E.First n l x y) (hr : E.First n r x z) (hy : y.num = some a) (hz : z.num = some b) (hf : a.isLeft ∨ b.isLeft) :
    (∀ op : Rel, ∃ c, E.Yields n (.rel op l r) x [.bool c] ∧ (c = true ↔ match op with
      | .lt => E.fo.cmp a b = some .lt
      | .gt => E.fo.cmp a b = some .gt
      | .le => E.fo.cmp a b = some .lt ∨ E.fo.cmp a b = some .eq
      | .ge => E.fo.cmp a b = some .gt ∨ E.fo.cmp a b = some .eq)) ∧
    ∃ c, E.Yields n (.ne l r) x [.bool c] ∧ (c = true ↔ E.fo.cmp a b ≠ some .eq) := by
  have hc : cmpNum E.fo a b = E.fo.cmp a b := by
    cases a <;> cases b <;> first | rfl | simp at hf
  constructor
  · intro op
    refine ⟨op.holds (E.fo.cmp a b), ?_, ?_⟩
    · rw [Env.Yields, run_rel, need_got (first_got hl), need_got (first_got hr)]
      simp only [Item.pyRel, hy, hz, hc]
      rfl
    · cases h : E.fo.cmp a b with
      | none => cases op <;> simp [Rel.holds]
      | some o => cases o <;> cases op <;> simp [Rel.holds]
  · refine ⟨!(y.pyEq E.fo E.doc z), ?_, ?_⟩
    · rw [Env.Yields, run_ne, need_got (first_got hl), need_got (first_got hr)]
      rfl
    · simp [Item.pyEq, hy, hz, hc]

/-- Integers and a NaN in the place of floats. -/
def nanFloats : FloatOps (Option Int) where
  parse := fun _ => none
  show_ := fun _ => []
  trunc := id
  isZero := fun f => f == some 0
  cmp := fun a b => match a.elim id some, b.elim id some with
    | some i, some j => some (compare i j)
    | _, _ => none

-- a NaN is neither less than 1 nor at least 1; 0.0 is less than 1
example : let E : Env (Option Int) := { fo := nanFloats, doc := exTree, vars := fun _ => none, parse := fun _ => .error .runtime }
    E.run 0 (.rel .lt (.lit (.float none)) (.lit (.int 1))) .root = ⟨[.bool false], .done⟩ ∧
    E.run 0 (.rel .ge (.lit (.float none)) (.lit (.int 1))) .root = ⟨[.bool false], .done⟩ ∧
    E.run 0 (.rel .lt (.lit (.float (some 0))) (.lit (.int 1))) .root = ⟨[.bool true], .done⟩ := by decide

/-- C86: of two strings or text nodes, every comparison gives its truth in the order by code points. -/
theorem C86_strings (E : Env F) (n : Nat) (l r : Expr F) (x y z : Item F) (s t : Str)
    (hl : E.First n l x y) (hr : E.First n r x z) (hy : E.IsString y s) (hz : E.IsString z t) :
    (∀ op : Rel, ∃ b, E.Yields n (.rel op l r) x [.bool b] ∧ (b = true ↔ op.Says s t)) ∧
    ∃ b, E.Yields n (.ne l r) x [.bool b] ∧ (b = true ↔ s ≠ t) := by
  obtain ⟨hy1, hy2⟩ := isString_strOf hy
  obtain ⟨hz1, hz2⟩ := isString_strOf hz
  have hk := strCmp_iff s t
  constructor
  · intro op
    refine ⟨op.holds (some (strCmp s t)), ?_, ?_⟩
    · rw [Env.Yields, run_rel, need_got (first_got hl), need_got (first_got hr)]
      simp only [Item.pyRel, hy1, hy2, hz1]
      rfl
    · cases ho : strCmp s t with
      | lt =>
        have h1 := hk.1.1 ho
        have h2 : ¬ t < s := fun h => by rw [hk.2.1.2 h] at ho; cases ho
        cases op <;> simp [Rel.holds, Rel.Says, h1, h2]
      | eq =>
        have h1 : ¬ s < t := fun h => by rw [hk.1.2 h] at ho; cases ho
        have h2 : ¬ t < s := fun h => by rw [hk.2.1.2 h] at ho; cases ho
        cases op <;> simp [Rel.holds, Rel.Says, h1, h2]
      | gt =>
        have h1 := hk.2.1.1 ho
        have h2 : ¬ s < t := fun h => by rw [hk.1.2 h] at ho; cases ho
        cases op <;> simp [Rel.holds, Rel.Says, h1, h2]
  · refine ⟨!(y.pyEq E.fo E.doc z), ?_, ?_⟩
    · rw [Env.Yields, run_ne, need_got (first_got hl), need_got (first_got hr)]
      rfl
    · simp [Item.pyEq, hy1, hy2, hz1, hz2]

/-- C86, what else can happen: an order comparison of anything but two numbers or two strings is a TypeError, and an
empty operand is a RuntimeError. -/
theorem C86_other_operands (E : Env F) (n : Nat) (op : Rel) (l r : Expr F) (x : Item F) :
    (∀ y z, E.First n l x y → E.First n r x z → ¬ (y.IsNumber ∧ z.IsNumber) →
      (¬ ∃ s t, E.IsString y s ∧ E.IsString z t) → E.run n (.rel op l r) x = ⟨[], .err .type⟩) ∧
    (E.Yields n l x [] → E.run n (.rel op l r) x = ⟨[], .err .runtime⟩ ∧ E.run n (.ne l r) x = ⟨[], .err .runtime⟩) ∧
    (∀ y, E.First n l x y → E.Yields n r x [] →
      E.run n (.rel op l r) x = ⟨[], .err .runtime⟩ ∧ E.run n (.ne l r) x = ⟨[], .err .runtime⟩) := by
  refine ⟨?_, ?_, ?_⟩
  · intro y z hl hr hn hs
    rw [run_rel, need_got (first_got hl), need_got (first_got hr)]
    have : y.pyRel E.fo E.doc op z = none := by
      unfold Item.pyRel
      split
      · rename_i a b h1 h2
        exact absurd ⟨num_isNumber.2 ⟨_, h1⟩, num_isNumber.2 ⟨_, h2⟩⟩ hn
      · split
        · rename_i s t h1 h2
          exact absurd ⟨s, t, strOf_isString h1, strOf_isString h2⟩ hs
        · rfl
    rw [this]
    rfl
  · intro h
    rw [run_rel, run_ne, h]
    exact ⟨rfl, rfl⟩
  · intro y hl hr
    rw [run_rel, run_ne, need_got (first_got hl), need_got (first_got hl), hr]
    exact ⟨rfl, rfl⟩

/-- XPath's rule that operands of `<` are turned into numbers, and tried in turn, does not hold: `c/@i < 2` with
`i="1"`, and `count(b) < '2'`, are TypeErrors. -/
theorem C86_full_statement_is_false :
    exEnv.run 0 (.rel .lt (.slash (.step .child (.name ['c'])) (.step .attribute (.name ['i']))) (.lit (.int 2))) (.node []) =
      ⟨[], .err .type⟩ ∧
    exEnv.run 0 (.rel .lt (.call "count".toList [.step .child (.name ['b'])]) (.lit (.str ['2']))) (.node []) =
      ⟨[], .err .type⟩ := by
  constructor <;> decide

example : exEnv.Yields 0 (.rel .lt (.call "count".toList [.step .child (.name ['b'])]) (.lit (.int 2))) (.node []) [.bool true] ∧
    exEnv.Yields 0 (.rel .ge (.step .child .text) (.lit (.str ['y']))) (.node []) [.bool false] ∧
    exEnv.IsString (.node [0]) ['x'] ∧ exEnv.First 0 (.step .child .text) (.node []) (.node [0]) := by
  refine ⟨?_, ?_, .inr ⟨_, rfl, rfl⟩, ?_⟩
  · unfold Env.Yields; decide
  · unfold Env.Yields; decide
  · unfold Env.First; decide

/-! ### C87: name() -/

theorem run_call (E : Env F) (n : Nat) (x : Item F) (nm : Str) (es : List (Expr F)) : ∃ dyn,
    E.run n (.call nm es) x = callFn E.fo E.doc dyn x nm es (es.map fun e => E.run n e x) := by
  obtain ⟨dyn, h⟩ := run_eval E n
  refine ⟨dyn, ?_⟩
  simp only [h]; rw [eval, evalArgs_map]

theorem run_name (E : Env F) (n : Nat) (x : Item F) (es : List (Expr F)) :
    E.run n (.call "name".toList es) x = fnName E.doc x (es.map fun e => E.run n e x) := by
  obtain ⟨dyn, h⟩ := run_call E n x "name".toList es
  rw [h, callFn, if_pos rfl]

/-- C87: the name of an element, and the empty string for an empty sequence and for strings and numbers. -/
theorem C87_name_partial (E : Env F) (n : Nat) (e : Expr F) (x : Item F) :
    (∀ p m, x = .node p → E.doc.Named m p → E.Yields n (.call "name".toList []) x [.str m]) ∧
    (∀ p m, E.First n e x (.node p) → E.doc.Named m p → E.Yields n (.call "name".toList [e]) x [.str m]) ∧
    (E.Yields n e x [] → E.Yields n (.call "name".toList [e]) x [.str []]) ∧
    (∀ y, E.First n e x y → y.isNode = false → E.Yields n (.call "name".toList [e]) x [.str []]) := by
  have hn : ∀ p m, E.doc.Named m p → (Item.node p : Item F).nameOf E.doc = m := by
    rintro p m ⟨as, cs, h⟩
    simp [Item.nameOf, h, Node.xmlName]
  refine ⟨?_, ?_, ?_, ?_⟩
  · rintro p m rfl h
    rw [Env.Yields, run_name, List.map_nil, fnName, hn p m h]
    rfl
  · intro p m hf h
    rw [Env.Yields, run_name, List.map_cons, List.map_nil, fnName, Res.orDefault, first_got hf]
    simp only [hn p m h]
    rfl
  · intro h
    rw [Env.Yields, run_name, List.map_cons, List.map_nil, fnName, h]
    rfl
  · intro y hf h
    rw [Env.Yields, run_name, List.map_cons, List.map_nil, fnName, Res.orDefault, first_got hf]
    cases y <;> first | rfl | cases h

/-- The name of an attribute is lost. -/
theorem C87_full_statement_is_false :
    exEnv.Yields 0 (.step .attribute .star) (.node [2]) [.attr [2] ['i'] ['1']] ∧
    exEnv.Yields 0 (.call "name".toList [.step .attribute .star]) (.node [2]) [.str []] := by
  unfold Env.Yields; decide

example : exEnv.First 0 (.step .child .star) (.node []) (.node [1]) ∧ exEnv.doc.Named ['b'] [1] ∧
    exEnv.Yields 0 (.call "name".toList [.step .child .star]) (.node []) [.str ['b']] := by
  refine ⟨by unfold Env.First; decide, ⟨_, _, rfl⟩, by unfold Env.Yields; decide⟩

/-! ### C88: variables -/

/-- C88: a variable yields its value, and only that; without a value it is a KeyError. -/
theorem C88_variables (E : Env F) (n : Nat) (x : Item F) (v : Str) :
    (∀ y, E.vars v = some y → E.Yields n (.var v) x [y]) ∧
    (E.vars v = none → E.run n (.var v) x = ⟨[], .err .key⟩) := by
  obtain ⟨dyn, h⟩ := run_eval E n
  constructor
  · intro y hv
    rw [Env.Yields, h, eval, hv]; rfl
  · intro hv
    rw [h, eval, hv]; rfl

section
variable (fo : FloatOps F) (doc : Node) (vars vars' : Str → Option (Item F)) (n : Nat)
  (dyn dyn' : Str → Except XErr (Item F → Res F))

theorem usesAll_mem {V : Str → Prop} {es : List (Expr F)} (h : Expr.UsesAll V es) : ∀ e ∈ es, e.Uses V := by
  induction es with
  | nil => intro e he; cases he
  | cons a es ih =>
    intro e he
    rw [Expr.UsesAll] at h
    rcases List.mem_cons.1 he with rfl | he
    · exact h.1
    · exact ih h.2 e he

theorem uses_same (V : Str → Prop) (hV : ∀ v, V v → vars v = vars' v) (e : Expr F) :
    e.Uses V → ∀ x, eval fo doc vars n dyn e x = eval fo doc vars' n dyn' e x := by
  refine Expr.induct (P := fun e => e.Uses V → ∀ x, eval fo doc vars n dyn e x = eval fo doc vars' n dyn' e x)
    ?_ ?_ ?_ ?_ ?_ ?_ ?_ ?_ ?_ ?_ ?_ ?_ ?_ ?_ ?_ ?_ ?_ ?_ ?_ ?_ ?_ ?_ e
  · intro y _ x; rw [eval, eval]
  · intro e ih h x
    rw [Expr.Uses] at h
    rw [eval, eval, ih h]
  · intro l r il ir h x
    rw [Expr.Uses] at h
    rw [eval, eval, il h.1]
    simp only [ir h.2]
  · intro l r il ir h x
    rw [Expr.Uses] at h
    have ir' : ∀ x, eval fo doc vars n dyn r.setAxis x = eval fo doc vars' n dyn' r.setAxis x := by
      intro x
      cases r <;> first
        | exact ir h.2 x
        | (rw [Expr.setAxis, eval, eval])
    rw [eval_dslash, eval_dslash, il h.1]
    simp only [ir']
  · intro l r il ir h x
    rw [Expr.Uses] at h
    rw [eval, eval, il h.1, ir h.2]
  · intro l r il ir h x
    rw [Expr.Uses] at h
    rw [eval, eval, il h.1, ir h.2]
  · intro l r il ir h x
    rw [Expr.Uses] at h
    rw [eval, eval, il h.1, ir h.2]
  · intro op l r il ir h x
    rw [Expr.Uses] at h
    rw [eval, eval, il h.1, ir h.2]
  · intro l r il ir h x
    rw [Expr.Uses] at h
    rw [eval, eval, il h.1, ir h.2]
  · intro l r il ir h x
    rw [Expr.Uses] at h
    rw [eval, eval, il h.1, ir h.2]
  · intro op l r _ _ _ x
    rw [eval, eval]
  · intro _ x; rw [eval, eval]
  · intro r ir h x
    rw [Expr.Uses] at h
    rw [eval, eval]
    simp only [ir h]
  · intro r ir h x
    rw [Expr.Uses] at h
    rw [eval, eval]
    simp only [ir h]
  · intro a t _ x; rw [eval, eval]
  · intro t _ x; rw [eval, eval]
  · intro l ps il ips h x
    rw [Expr.Uses] at h
    have hp : ∀ pos y, evalPreds fo doc vars n dyn pos ps y = evalPreds fo doc vars' n dyn' pos ps y := by
      have hu := usesAll_mem h.2
      clear h
      intro pos y
      induction ps with
      | nil => rw [evalPreds, evalPreds]
      | cons p ps ih =>
        rw [evalPreds, evalPreds, ips p (by simp) (hu p (by simp)), ih (fun q hq => ips q (by simp [hq])) (fun q hq => hu q (by simp [hq]))]
    rw [eval, eval, il h.1]
    simp only [hp]
  · intro _ x; rw [eval, eval]
  · intro _ x; rw [eval, eval]
  · intro v h x
    rw [Expr.Uses] at h
    rw [eval, eval, hV v h]
  · intro f as ias h x
    rw [Expr.Uses] at h
    have ha : evalArgs fo doc vars n dyn as x = evalArgs fo doc vars' n dyn' as x := by
      have hu := usesAll_mem h.2
      clear h
      induction as with
      | nil => rw [evalArgs, evalArgs]
      | cons a as ih =>
        rw [evalArgs, evalArgs, ias a (by simp) (hu a (by simp)), ih (fun q hq => ias q (by simp [hq])) (fun q hq => hu q (by simp [hq]))]
    rw [eval, eval, ha, callFn_dyn fo doc dyn dyn' x f as _ h.1]
  · intro es ies h x
    rw [Expr.Uses] at h
    have ha : evalSeq fo doc vars n dyn es x = evalSeq fo doc vars' n dyn' es x := by
      have hu := usesAll_mem h
      clear h
      induction es with
      | nil => rw [evalSeq, evalSeq]
      | cons a as ih =>
        rw [evalSeq, evalSeq, ies a (by simp) (hu a (by simp)), ih (fun q hq => ies q (by simp [hq])) (fun q hq => hu q (by simp [hq]))]
    rw [eval, eval, ha]

end

/-- C88: only the variables an expression mentions matter (if it does not evaluate strings). -/
theorem C88_other_variables_do_not_matter (E E' : Env F) (hf : E'.fo = E.fo) (hd : E'.doc = E.doc) (n : Nat) (V : Str → Prop)
    (e : Expr F) (h : e.Uses V) (hv : ∀ v, V v → E.vars v = E'.vars v) (x : Item F) : E.run n e x = E'.run n e x := by
  obtain ⟨dyn, h1⟩ := run_eval E n
  obtain ⟨dyn', h2⟩ := run_eval E' n
  rw [h1, h2, hf, hd]
  exact uses_same E.fo E.doc E.vars E'.vars n dyn dyn' V hv e h x

example : (Expr.pred (.step .child .star) [.rel .lt (.call "count".toList [.dot]) (.var ['v'])] : Expr NoF).Uses (· = ['v']) ∧
    ({ exEnv with vars := fun v => if v = ['v'] then some (.int 2) else none } : Env NoF).Yields 0 (.var ['v']) .root [.int 2] := by
  refine ⟨by simp [Expr.Uses, Expr.UsesAll], by unfold Env.Yields; decide⟩

/-! ### C89: for-each -/

theorem run_for_each (E : Env F) (n : Nat) (x : Item F) (l e : Expr F) {s : Str} {r : Expr F}
    (hs : E.FirstStr (n + 1) e x s) (hp : E.parse s = .ok r) :
    E.run (n + 1) (.call "for-each".toList [l, e]) x =
      (E.run (n + 1) l x).bind fun y => E.run n r (y.orElse E.fo E.doc x) := by
  show eval E.fo E.doc E.vars (n + 1) (fun s => (E.parse s).map fun e => evalN E.fo E.doc E.parse E.vars n e) _ x = _
  rw [eval, evalArgs_map, callFn_forEach]
  simp only [List.map_cons, List.map_nil, fnForEach]
  exact (firstStr_strArg hs _).trans (by simp only [hp]; rfl)

/-- C89: `for-each(l, r)` with `r` the text of an expression is `l/r`, for every `l`, if the evaluation of `r` ends (C58). -/
theorem C89_for_each_is_a_path (E : Env F) (n k : Nat) (l e r : Expr F) (s : Str) (x : Item F)
    (hs : E.FirstStr (n + 1) e x s) (hp : E.parse s = .ok r) (hr : E.Safe k r) (hk : k ≤ n) :
    E.run (n + 1) (.call "for-each".toList [l, e]) x = E.run (n + 1) (.slash l r) x := by
  rw [run_for_each E n x l e hs hp, run_slash]
  congr 1
  funext y
  rw [(C58_evaluation_ends_partial E k r hr n hk _).2, (C58_evaluation_ends_partial E k r hr (n + 1) (by omega) _).2]

/-- C89: a text that is no expression is an error even if there is nothing to apply it to. -/
theorem C89_bad_text (E : Env F) (n : Nat) (l e : Expr F) (s : Str) (er : XErr) (x : Item F)
    (hs : E.FirstStr n e x s) (hp : E.parse s = .error er) :
    E.run n (.call "for-each".toList [l, e]) x = ⟨[], .err er⟩ := by
  have key : ∀ dyn : Str → Except XErr (Item F → Res F), dyn s = .error er → (∀ e x, E.run n e x = eval E.fo E.doc E.vars n dyn e x) →
      E.run n (.call "for-each".toList [l, e]) x = ⟨[], .err er⟩ := by
    intro dyn hd he
    rw [he, eval, evalArgs_map, callFn_forEach]
    simp only [List.map_cons, List.map_nil, ← he, fnForEach]
    exact (firstStr_strArg hs _).trans (by rw [hd]; rfl)
  cases n with
  | zero => exact key _ (by rw [hp]; rfl) fun _ _ => rfl
  | succ n => exact key _ (by rw [hp]; rfl) fun _ _ => rfl

/-- `for-each(c, 'b')`. -/
example : ({ exEnv with parse := fun s => if s = ['b'] then .ok (.step .child (.name ['b'])) else .error .runtime } : Env NoF).Yields 1
    (.call "for-each".toList [.step .child (.name ['c']), .lit (.str ['b'])]) (.node []) [.node [2, 0]] := by
  unfold Env.Yields; decide

/-! ### C90: arithmetic -/

/-- C90 fails throughout: the arithmetic operators raise NotImplementedError whatever their operands, and unary minus
raises a TypeError on whatever its operand yields. -/
theorem C90_full_statement_is_false (E : Env F) (n : Nat) (op : Arith) (l r : Expr F) (x : Item F) :
    E.run n (.arith op l r) x = ⟨[], .err .notImplemented⟩ ∧
    ((E.run n l x).items ≠ [] ∨ (E.run n l x).tail = .done → E.run n (.neg l) x = ⟨[], .err .type⟩) := by
  obtain ⟨dyn, h⟩ := run_eval E n
  constructor
  · rw [h, eval]; rfl
  · intro hl
    rw [h] at hl
    rw [h, eval]
    rw [Res.first]
    cases hi : (eval E.fo E.doc E.vars n dyn l x).items with
    | cons y ys => rfl
    | nil =>
      rcases hl with hl | hl
      · exact absurd hi hl
      · rw [hl]; rfl

/-! ### C91: number() -/

theorem run_number (E : Env F) (n : Nat) (x : Item F) (es : List (Expr F)) :
    E.run n (.call "number".toList es) x = fnNumber E.fo E.doc (es.map fun e => E.run n e x) := by
  obtain ⟨dyn, h⟩ := run_call E n x "number".toList es
  rw [h, callFn]
  repeat rw [if_neg (by decide)]
  rw [if_pos rfl]

/-- C91, in part: a number is itself, a string or node is the number its string value is read as by Python's `float`.
Missing: what cannot be read is a ValueError instead of NaN, and so is an empty sequence. -/
theorem C91_number_partial (E : Env F) (n : Nat) (e : Expr F) (x y : Item F) (h : E.First n e x y) :
    (∀ i, y = .int i → E.Yields n (.call "number".toList [e]) x [.int i]) ∧
    (∀ f, y = .float f → E.Yields n (.call "number".toList [e]) x [.float f]) ∧
    (¬ y.IsNumber → ∀ f, E.fo.parse (E.strVal y) = some f → E.Yields n (.call "number".toList [e]) x [.float f]) ∧
    (¬ y.IsNumber → E.fo.parse (E.strVal y) = none → E.run n (.call "number".toList [e]) x = ⟨[], .err .value⟩) := by
  have hr : E.run n (.call "number".toList [e]) x = y.toNum E.fo E.doc := by
    rw [run_number]
    simp only [List.map_cons, List.map_nil, fnNumber, Res.orDefault, first_got h]
  have hs : ¬ y.IsNumber → y.toNum E.fo E.doc = match E.fo.parse (E.strVal y) with
      | some f => .one (.float f)
      | none => .fail .value := by
    intro hy
    rw [← toStr_strVal]
    cases y <;> first | rfl | exact absurd trivial hy
  refine ⟨?_, ?_, ?_, ?_⟩
  · rintro i rfl; exact hr
  · rintro f rfl; exact hr
  · intro hy f hf
    rw [Env.Yields, hr, hs hy, hf]; rfl
  · intro hy hf
    rw [hr, hs hy, hf]; rfl

theorem C91_full_statement_is_false :
    exEnv.run 0 (.call "number".toList [.step .child (.name ['z'])]) (.node []) = ⟨[], .err .value⟩ ∧
    exEnv.Yields 0 (.call "number".toList [.call "true".toList []]) (.node []) [.bool true] ∧
    exEnv.Yields 0 (.call "number".toList []) (.node []) [.int 0] := by
  refine ⟨by decide, ?_, ?_⟩ <;> (unfold Env.Yields; decide)

/-! ### C92: last() -/

/-- C92 is false: `last()` is always -1, so `e[last()]` never yields anything. -/
theorem C92_full_statement_is_false (E : Env F) (n : Nat) (e : Expr F) (x : Item F) (xs : List (Item F))
    (h : E.Yields n e x xs) :
    E.Yields n (.call "last".toList []) x [.int (-1)] ∧ E.Yields n (.pred e [.call "last".toList []]) x [] := by
  have hl : ∀ y, E.run n (.call "last".toList []) y = ⟨[.int (-1)], .done⟩ := by
    intro y
    obtain ⟨dyn, h⟩ := run_call E n y "last".toList []
    rw [h, callFn, if_neg (by decide), if_pos rfl]
    rfl
  refine ⟨hl x, ?_⟩
  rw [Env.Yields, run_pred, h]
  simp only [hl]
  generalize hp : (1 : Nat) = pos
  clear hp h
  induction xs generalizing pos with
  | nil => rfl
  | cons y ys ih =>
    rw [predLoop]
    have : predHolds E.fo E.doc pos (⟨[.int (-1)], .done⟩ : Res F) = .inl false := by
      simp only [predHolds, Res.first]
      congr 1
    rw [this]
    exact ih (pos + 1)

/-! ### C93: calls -/

/-- C93: a call of a function that is not built in is a RuntimeError. -/
theorem C93_unknown_function (E : Env F) (n : Nat) (nm : Str) (es : List (Expr F)) (x : Item F)
    (h : ∀ b ∈ builtins, nm ≠ b.1.toList) : E.run n (.call nm es) x = ⟨[], .err .runtime⟩ := by
  obtain ⟨dyn, hr⟩ := run_call E n x nm es
  rw [hr, callFn]
  have key : ∀ i (hi : i < builtins.length), nm ≠ (builtins[i]'hi).1.toList := fun i hi => h _ (List.getElem_mem hi)
  rw [if_neg (show nm ≠ "name".toList from key 0 (by decide)), if_neg (show nm ≠ "last".toList from key 1 (by decide)), if_neg (show nm ≠ "count".toList from key 2 (by decide))]
  rw [if_neg (show nm ≠ "string".toList from key 3 (by decide)), if_neg (show nm ≠ "concat".toList from key 4 (by decide)), if_neg (show nm ≠ "starts-with".toList from key 5 (by decide))]
  rw [if_neg (show nm ≠ "contains".toList from key 6 (by decide)), if_neg (show nm ≠ "substring-before".toList from key 7 (by decide)), if_neg (show nm ≠ "substring-after".toList from key 8 (by decide))]
  rw [if_neg (show nm ≠ "substring".toList from key 9 (by decide)), if_neg (show nm ≠ "string-length".toList from key 10 (by decide)), if_neg (show nm ≠ "boolean".toList from key 14 (by decide))]
  rw [if_neg (show nm ≠ "not".toList from key 15 (by decide)), if_neg (show nm ≠ "true".toList from key 16 (by decide)), if_neg (show nm ≠ "false".toList from key 17 (by decide))]
  rw [if_neg (show nm ≠ "number".toList from key 18 (by decide)), if_neg (show nm ≠ "for-each".toList from key 19 (by decide)), if_neg (show nm ≠ "lookup".toList from key 20 (by decide))]
  rw [if_neg (by
    rintro (h | h | h | h | h)
    · exact key 11 (by decide) h
    · exact key 21 (by decide) h
    · exact key 22 (by decide) h
    · exact key 23 (by decide) h
    · exact key 24 (by decide) h)]
  rw [if_neg (by
    rintro (h | h)
    · exact key 12 (by decide) h
    · exact key 13 (by decide) h)]
  rfl

/-- C93: a call with too few or too many arguments is a TypeError, raised before any argument is evaluated. -/
theorem C93_wrong_number_of_arguments (E : Env F) (n : Nat) (nm : String) (lo : Nat) (hi : Option Nat) (es : List (Expr F))
    (x : Item F) (h : (nm, lo, hi) ∈ builtins) (hl : es.length < lo ∨ ∃ k, hi = some k ∧ k < es.length) :
    E.run n (.call nm.toList es) x = ⟨[], .err .type⟩ := by
  obtain ⟨dyn, hr⟩ := run_call E n x nm.toList es
  rw [hr]
  simp only [builtins, List.mem_cons, List.not_mem_nil, or_false, Prod.mk.injEq] at h
  rcases h with h | h | h | h | h | h | h | h | h | h | h | h | h | h | h | h | h | h | h | h | h | h | h | h | h <;>
    obtain ⟨rfl, rfl, rfl⟩ := h <;> rw [callFn] <;> (repeat rw [if_neg (by decide)]) <;> rw [if_pos (by decide)] <;>
    rcases es with _ | ⟨a, _ | ⟨b, _ | ⟨c, _ | ⟨d, es⟩⟩⟩⟩ <;>
    first
      | rfl
      | (exfalso; simp at hl; done)
      | simp [fnTodo, Res.fail]

end Amara
