import Verif.Spec.XGrammar
/-
Facts about the tables of the parser, checked by evaluation in the kernel.  They are finite statements about the
tables themselves, not about inputs.
-/
namespace Amara.X

/-- What can follow an expression. -/
def follow : List Term := [.logical, .equal, .rel, .plus, .minus, .mult, .divmod, .union, .pathSep, .abbrevSep, .lbrack,
  .rbrack, .rparen, .comma, .eof]

/-- The strength of the operator that a kind of token stands for after an expression; 0 if it ends the expression. -/
def Term.level : Term → Nat
  | .logical => 2
  | .equal => 3
  | .rel => 4
  | .plus | .minus => 5
  | .mult | .divmod => 6
  | .union => 8
  | .pathSep | .abbrevSep | .lbrack => 1
  | _ => 0

/-- The strength of the operator to the left of a state where an expression begins. -/
def lvl (s : Nat) : Nat :=
  if s = 2 then 7 else if s = 28 then 6 else if s = 29 then 3 else if s = 30 then 8 else if s = 32 then 4
  else if s = 33 then 6 else if s = 34 then 2 else if s = 37 then 5 else if s = 38 then 5 else 0

/-- The state a kind of token leads to. -/
def sh (s : Nat) (a : Term) : Nat :=
  match action s a with
  | .shift t => t
  | _ => 0

abbrev states : List Nat := List.range 84

theorem goto_lt {s : Nat} {A : NonTerm} (h : goto s A ≠ 0) : s ∈ states := by
  rw [List.mem_range]
  apply Decidable.byContradiction
  intro hs
  apply h
  have : gotoTable.length = 84 := by decide +kernel
  rw [goto, show gotoTable.getD s [] = [] by rw [List.getD_eq_getElem?_getD, List.getElem?_eq_none (by omega)]; rfl]
  rfl

theorem action_lt {s : Nat} {a : Term} (h : action s a ≠ .error) : s ∈ states := by
  rw [List.mem_range]
  apply Decidable.byContradiction
  intro hs
  apply h
  have : actTable.length = 84 := by decide +kernel
  rw [action, show actTable.getD s [] = [] by rw [List.getD_eq_getElem?_getD, List.getElem?_eq_none (by omega)]; rfl]
  rfl

/-- Names: `NAME`, `LOGICAL_OP`, `DIVMOD_OP`. -/
def names : List Term := [.name, .logical, .divmod]

def nameProd : Term → Nat
  | .name => 39
  | .logical => 40
  | _ => 41

def callProd : Term → Nat
  | .name => 51
  | .logical => 52
  | _ => 53

def varProd : Term → Nat
  | .name => 46
  | .logical => 47
  | _ => 48

/-- What a node test begins with. -/
def testFirst : List Term := [.star, .name, .logical, .divmod]

theorem tab_relStart : ∀ s ∈ states, goto s .relPath ≠ 0 →
    goto s .step ≠ 0 ∧
    (∀ a ∈ follow, action (goto s .step) a = .reduce 27) ∧
    (∀ c ∈ [Term.pathSep, .abbrevSep], action (goto s .relPath) c = .shift (sh (goto s .relPath) c) ∧
      goto (sh (goto s .relPath) c) .step ≠ 0 ∧ goto (sh (goto s .relPath) c) .expr = 0 ∧
      ∀ a ∈ follow, action (goto (sh (goto s .relPath) c) .step) a = .reduce (if c = .pathSep then 28 else 29)) := by
  decide +kernel

theorem tab_stepStart : ∀ s ∈ states, goto s .step ≠ 0 →
    goto s .nodeTest ≠ 0 ∧
    (∀ a ∈ follow, action (goto s .nodeTest) a = .reduce 31) ∧
    action s .dot = .shift (sh s .dot) ∧ (∀ a ∈ follow, action (sh s .dot) a = .reduce 32) ∧
    action s .dotdot = .shift (sh s .dotdot) ∧ (∀ a ∈ follow, action (sh s .dotdot) a = .reduce 33) ∧
    action s .at = .shift (sh s .at) ∧ (∀ c ∈ testFirst, action (sh s .at) c = .reduce 35) ∧
    action s .name = .shift (sh s .name) ∧
    action (sh s .name) .axisSep = .shift (sh (sh s .name) .axisSep) ∧
    (∀ c ∈ testFirst, action (sh (sh s .name) .axisSep) c = .reduce 34) ∧
    goto (goto s .axisSpec) .nodeTest ≠ 0 ∧ goto (goto s .axisSpec) .expr = 0 ∧
    (∀ a ∈ follow, action (goto (goto s .axisSpec) .nodeTest) a = .reduce 30) := by
  decide +kernel

theorem tab_testStart : ∀ s ∈ states, goto s .nodeTest ≠ 0 →
    action s .star = .shift (sh s .star) ∧ (∀ a ∈ follow, action (sh s .star) a = .reduce 38) ∧
    (∀ a ∈ follow, action (goto s .nameTest) a = .reduce 36) ∧
    (∀ c ∈ names, action s c = .shift (sh s c) ∧ (∀ a ∈ follow, action (sh s c) a = .reduce (nameProd c)) ∧
      goto (sh s c) .formalArgs ≠ 0 ∧
      (∀ a ∈ follow, action (goto (sh s c) .formalArgs) a = .reduce (callProd c)) ∧
      (goto s .expr = 0 → ∀ a ∈ follow, action (goto s .funCall) a = .reduce 37)) := by
  decide +kernel

theorem tab_args : ∀ s ∈ states, goto s .formalArgs ≠ 0 →
    action s .lparen = .shift (sh s .lparen) ∧
    action (sh s .lparen) .rparen = .shift (sh (sh s .lparen) .rparen) ∧
    (∀ a ∈ follow, action (sh (sh s .lparen) .rparen) a = .reduce 54) ∧
    goto (sh s .lparen) .argList ≠ 0 ∧
    action (goto (sh s .lparen) .argList) .rparen = .shift (sh (goto (sh s .lparen) .argList) .rparen) ∧
    (∀ a ∈ follow, action (sh (goto (sh s .lparen) .argList) .rparen) a = .reduce 55) := by
  decide +kernel

theorem tab_list : ∀ A ∈ [NonTerm.exprList, .argList], ∀ s ∈ states, goto s A ≠ 0 →
    goto s .expr ≠ 0 ∧ lvl s = 0 ∧
    (∀ a ∈ [Term.comma, .rparen], action (goto s .expr) a = .reduce (if A = .exprList then 11 else 56)) ∧
    action (goto s A) .comma = .shift (sh (goto s A) .comma) ∧
    goto (sh (goto s A) .comma) .expr ≠ 0 ∧ lvl (sh (goto s A) .comma) = 0 ∧
    (∀ a ∈ [Term.comma, .rparen], action (goto (sh (goto s A) .comma) .expr) a =
      .reduce (if A = .exprList then 12 else 57)) := by
  decide +kernel

theorem tab_preds : ∀ s ∈ states, goto s .predList ≠ 0 → action s .lbrack = .shift (sh s .lbrack) →
    goto (sh s .lbrack) .expr ≠ 0 ∧ lvl (sh s .lbrack) = 0 ∧
    action (goto (sh s .lbrack) .expr) .rbrack = .shift (sh (goto (sh s .lbrack) .expr) .rbrack) ∧
    (∀ a ∈ follow, action (sh (goto (sh s .lbrack) .expr) .rbrack) a = .reduce 45) ∧
    (∀ a ∈ follow, action (goto s .pred) a = .reduce 43) ∧
    action (goto s .predList) .lbrack = .shift (sh s .lbrack) ∧
    (∀ a ∈ follow, action (goto (goto s .predList) .pred) a = .reduce 44) := by
  decide +kernel

theorem tab_prim : ∀ s ∈ states, goto s .expr ≠ 0 →
    goto s .relPath ≠ 0 ∧
    (∀ a ∈ follow, a ≠ .pathSep ∧ a ≠ .abbrevSep → action (goto s .relPath) a = .reduce 16) ∧
    action s .literal = .shift (sh s .literal) ∧ (∀ a ∈ follow, action (sh s .literal) a = .reduce 22) ∧
    action s .float = .shift (sh s .float) ∧ (∀ a ∈ follow, action (sh s .float) a = .reduce 49) ∧
    action s .integer = .shift (sh s .integer) ∧ (∀ a ∈ follow, action (sh s .integer) a = .reduce 50) ∧
    (∀ a ∈ follow, action (goto s .number) a = .reduce 23) := by
  decide +kernel

theorem tab_var : ∀ s ∈ states, goto s .expr ≠ 0 →
    action s .dollar = .shift (sh s .dollar) ∧
    (∀ c ∈ names, action (sh s .dollar) c = .shift (sh (sh s .dollar) c) ∧
      ∀ a ∈ follow, action (sh (sh s .dollar) c) a = .reduce (varProd c)) ∧
    (∀ a ∈ follow, action (goto s .varRef) a = .reduce 21) ∧
    (∀ a ∈ follow, action (goto s .funCall) a = .reduce 20) ∧
    goto s .nodeTest ≠ 0 := by
  decide +kernel

theorem tab_seq : ∀ s ∈ states, goto s .expr ≠ 0 →
    action s .lparen = .shift (sh s .lparen) ∧
    action (sh s .lparen) .rparen = .shift (sh (sh s .lparen) .rparen) ∧
    (∀ a ∈ follow, action (sh (sh s .lparen) .rparen) a = .reduce 9) ∧
    goto (sh s .lparen) .exprList ≠ 0 ∧
    action (goto (sh s .lparen) .exprList) .rparen = .shift (sh (goto (sh s .lparen) .exprList) .rparen) ∧
    (∀ a ∈ follow, action (sh (goto (sh s .lparen) .exprList) .rparen) a = .reduce 10) := by
  decide +kernel

theorem tab_abs : ∀ s ∈ states, goto s .expr ≠ 0 →
    action s .pathSep = .shift (sh s .pathSep) ∧
    (∀ a ∈ follow, a ≠ .logical ∧ a ≠ .divmod → action (sh s .pathSep) a = .reduce 24) ∧
    goto (sh s .pathSep) .relPath ≠ 0 ∧ goto (sh s .pathSep) .expr = 0 ∧
    (∀ a ∈ follow, a ≠ .pathSep ∧ a ≠ .abbrevSep → action (goto (sh s .pathSep) .relPath) a = .reduce 25) ∧
    (∀ a ∈ follow, action (goto s .absPath) a = .reduce 17) ∧
    action s .abbrevSep = .shift (sh s .abbrevSep) ∧
    goto (sh s .abbrevSep) .relPath ≠ 0 ∧ goto (sh s .abbrevSep) .expr = 0 ∧
    (∀ a ∈ follow, a ≠ .pathSep ∧ a ≠ .abbrevSep → action (goto (sh s .abbrevSep) .relPath) a = .reduce 26) ∧
    (∀ a ∈ follow, action (goto s .abbrevAbsPath) a = .reduce 18) := by
  decide +kernel

/-- The production for a binary operator. -/
def binProd : Term → Nat
  | .logical => 1
  | .equal => 2
  | .rel => 3
  | .plus => 4
  | .minus => 5
  | .mult => 6
  | .divmod => 7
  | _ => 13

def binOps : List Term := [.logical, .equal, .rel, .plus, .minus, .mult, .divmod, .union]

theorem tab_binary : ∀ s ∈ states, goto s .expr ≠ 0 → ∀ c ∈ binOps, lvl s < c.level →
    action (goto s .expr) c = .shift (sh (goto s .expr) c) ∧
    goto (sh (goto s .expr) c) .expr ≠ 0 ∧ lvl (sh (goto s .expr) c) = c.level ∧
    (∀ a ∈ follow, a.level ≤ c.level → action (goto (sh (goto s .expr) c) .expr) a = .reduce (binProd c)) := by
  decide +kernel

theorem tab_neg : ∀ s ∈ states, goto s .expr ≠ 0 →
    action s .minus = .shift (sh s .minus) ∧ goto (sh s .minus) .expr ≠ 0 ∧ lvl (sh s .minus) = 7 ∧
    (∀ a ∈ follow, a.level ≤ 7 → action (goto (sh s .minus) .expr) a = .reduce 8) := by
  decide +kernel

theorem tab_suffix : ∀ s ∈ states, goto s .expr ≠ 0 → lvl s = 0 →
    (∀ c ∈ [Term.pathSep, .abbrevSep], action (goto s .expr) c = .shift (sh (goto s .expr) c) ∧
      goto (sh (goto s .expr) c) .relPath ≠ 0 ∧ goto (sh (goto s .expr) c) .expr = 0 ∧
      ∀ a ∈ follow, a ≠ .pathSep ∧ a ≠ .abbrevSep →
        action (goto (sh (goto s .expr) c) .relPath) a = .reduce (if c = .pathSep then 14 else 15)) ∧
    action (goto s .expr) .lbrack = .shift (sh (goto s .expr) .lbrack) ∧
    goto (goto s .expr) .predList ≠ 0 ∧
    (∀ a ∈ follow, a ≠ .lbrack → action (goto (goto s .expr) .predList) a = .reduce 42) ∧
    (∀ a ∈ follow, action (goto s .predicated) a = .reduce 19) := by
  decide +kernel

theorem tab_accept : goto 0 .expr ≠ 0 ∧ lvl 0 = 0 ∧ action (goto 0 .expr) .eof = .accept := by decide +kernel

end Amara.X
