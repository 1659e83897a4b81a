import Verif.Lemmas.XComplete
import Verif.Lemmas.XPaths
/-
Soundness of the parser: what is on the stack of the driver is derived by the grammar from what has been read.
-/
namespace Amara.X

variable {F : Type}

def symOf (s : Nat) : Sym := symTable.getD s (.t .eof)
def prevOf (s : Nat) : List Nat := prevTable.getD s []

/-- The state a symbol leads to; 0 is none. -/
def next (s : Nat) : Sym → Nat
  | .t a => sh s a
  | .n A => goto s A

abbrev terms : List Term := [.logical, .equal, .rel, .plus, .minus, .mult, .divmod, .union, .pathSep, .abbrevSep, .lbrack,
  .rbrack, .rparen, .comma, .eof, .lparen, .literal, .float, .integer, .star, .name, .dollar, .at, .axisSep, .dot, .dotdot]

theorem mem_terms (a : Term) : a ∈ terms := by cases a <;> decide

abbrev nonTerms : List NonTerm := [.expr, .exprList, .relPath, .absPath, .abbrevAbsPath, .step, .axisSpec, .nodeTest,
  .nameTest, .predicated, .predList, .pred, .varRef, .number, .funCall, .formalArgs, .argList]

theorem mem_nonTerms (a : NonTerm) : a ∈ nonTerms := by cases a <;> decide

theorem sym_t' : ∀ s ∈ states, ∀ a ∈ terms, sh s a ≠ 0 →
    symOf (sh s a) = .t a ∧ s ∈ prevOf (sh s a) ∧ sh s a ∈ states ∧ action s a = .shift (sh s a) := by
  decide +kernel

theorem sym_n' : ∀ s ∈ states, ∀ a ∈ nonTerms, goto s a ≠ 0 →
    symOf (goto s a) = .n a ∧ s ∈ prevOf (goto s a) ∧ goto s a ∈ states := by
  decide +kernel

theorem next_lt {s : Nat} {X : Sym} (h : next s X ≠ 0) : s ∈ states := by
  cases X with
  | t a =>
    refine action_lt (a := a) fun h' => h ?_
    simp only [next, sh, h']
  | n A => exact goto_lt h

theorem next_sym {s : Nat} {X : Sym} (h : next s X ≠ 0) :
    symOf (next s X) = X ∧ s ∈ prevOf (next s X) ∧ next s X ∈ states := by
  cases X with
  | t a => exact ⟨(sym_t' s (next_lt h) a (mem_terms a) h).1, (sym_t' s (next_lt h) a (mem_terms a) h).2.1,
      (sym_t' s (next_lt h) a (mem_terms a) h).2.2.1⟩
  | n A => exact sym_n' s (next_lt h) A (mem_nonTerms A) h

/-- On every path to the state the last symbols are those of the right side, and the left side leads on from where they
begin. -/
def redOK (t : Nat) (p : Nat) : Bool :=
  match prods[p]? with
  | some (A, [X]) => symOf t == X && (prevOf t).all fun s => goto s A != 0
  | some (A, [X, Y]) => symOf t == Y && (prevOf t).all fun s => symOf s == X && (prevOf s).all fun s => goto s A != 0
  | some (A, [X, Y, Z]) => symOf t == Z && (prevOf t).all fun s => symOf s == Y && (prevOf s).all fun s => symOf s == X &&
      (prevOf s).all fun s => goto s A != 0
  | _ => false

def actOK (t : Nat) (a : Term) : Bool :=
  match action t a with
  | .reduce p => p != 0 && redOK t p
  | .shift s => s != 0 && a != .eof
  | .accept => t == 1 && a == .eof
  | .error => true

theorem actOK' : ∀ t ∈ states, ∀ a ∈ terms, actOK t a = true := by decide +kernel

theorem state1 : symOf 1 = .n .expr ∧ prevOf 1 = [0] ∧ goto 0 .expr = 1 ∧ symOf 0 = .t .eof := by decide +kernel

theorem action_ok {t : Nat} {a : Term} : actOK t a = true := by
  by_cases h : action t a = .error
  · rw [actOK, h]
  · exact actOK' t (action_lt h) a (mem_terms a)

theorem red_ok {t p : Nat} {a : Term} (h : action t a = .reduce p) : p ≠ 0 ∧ redOK t p = true := by
  have := action_ok (t := t) (a := a)
  rw [actOK, h] at this
  simpa using this

/-- What may follow, as one argument. -/
abbrev FolG (g : Nat × Last) (a : Term) : Prop := Fol g.1 g.2 a

/-- What may follow a symbol that puts no conditions. -/
abbrev free : Nat × Last := (9, .closed)

theorem level_le (a : Term) : a.level ≤ 8 := by cases a <;> decide

theorem fol_free (a : Term) : FolG free a := ⟨Nat.le_succ_of_le (level_le a), by simp, by simp, by simp⟩

/-- The symbol may come after what ends in this way. -/
def Follows (g : Nat × Last) : Sym → Prop
  | .t a => FolG g a
  | .n .pred | .n .predList => FolG g .lbrack
  | _ => True

/-- What the value of a symbol stands for, on top of state `s`. -/
def Good (s : Nat) : Sym → Val F → List (Tok F) → Nat × Last → Prop
  | .t a, v, u, g => ∃ t, v = .tok t ∧ u = [t] ∧ t.kind = a ∧ g = free
  | .n .expr, v, u, g => ∃ e l, v = .expr e ∧ GExpr l g.1 g.2 u e ∧ lvl s < l
  | .n .exprList, v, u, g => ∃ es, v = .exprs es ∧ GList u es ∧ g = free
  | .n .relPath, v, u, g => ∃ e, v = .expr e ∧ GRel (decide (goto s .expr = 0)) u e ∧ g = free
  | .n .absPath, v, u, g => ∃ e, v = .expr e ∧ GPrim g.2 u e ∧ g.1 = 9
  | .n .abbrevAbsPath, v, u, g => ∃ e, v = .expr e ∧ GPrim g.2 u e ∧ g.1 = 9
  | .n .step, v, u, g => ∃ e, v = .expr e ∧ GStep (decide (goto s .expr = 0)) u e ∧ g = free
  | .n .axisSpec, v, u, g => ∃ a, v = .axis a ∧ (∀ b w t, GTest true w t → GStep b (u ++ w) (.step a t)) ∧ g = free
  | .n .nodeTest, v, u, g => ∃ t, v = .test t ∧ GTest (decide (goto s .expr = 0)) u t ∧ g = free
  | .n .nameTest, v, u, g => ∃ t, v = .test t ∧ (∀ b, GTest b u t) ∧ g = free
  | .n .predicated, v, u, g => ∃ e, v = .expr e ∧ GExpr 1 g.1 g.2 u e ∧ lvl s = 0
  | .n .predList, v, u, g => ∃ es, v = .exprs es ∧ GPreds u es ∧ sh s .lbrack ≠ 0 ∧ g = free
  | .n .pred, v, u, g => ∃ e l r k w, v = .expr e ∧ u = .lbrack :: (w ++ [.rbrack]) ∧ GExpr l r k w e ∧
      sh s .lbrack ≠ 0 ∧ g = free
  | .n .varRef, v, u, g => ∃ e, v = .expr e ∧ GPrim .closed u e ∧ g = free
  | .n .number, v, u, g => ∃ e, v = .expr e ∧ GPrim .closed u e ∧ g = free
  | .n .funCall, v, u, g => ∃ n w as, v = .expr (called n.word as) ∧ u = n :: w ∧ n.isName ∧ GArgs w as ∧ g = free
  | .n .formalArgs, v, u, g => ∃ es, v = .exprs es ∧ GArgs u es ∧ g = free
  | .n .argList, v, u, g => ∃ es, v = .exprs es ∧ GList u es ∧ g = free

/-- The stack stands for what has been read. -/
inductive Inv : List (Nat × Val F) → List (Tok F) → Nat × Last → Prop where
  | nil : Inv [] [] free
  | cons {st w g₀ X v u g} : Inv st w g₀ → next (topState st) X ≠ 0 → Follows g₀ X → Good (topState st) X v u g →
      Inv ((next (topState st) X, v) :: st) (w ++ u) g

/-- What a production with one symbol on the right must satisfy. -/
def Local1 (F : Type) (p : Nat) (A : NonTerm) (X : Sym) : Prop :=
  ∀ (s : Nat) (v : Val F) (u g g₀ a), goto s A ≠ 0 → next s X ≠ 0 → action (next s X) a = .reduce p → FolG g a →
    Good s X v u g → Follows g₀ X →
    act p [v] = .error .runtime ∨
    ∃ v' g', act p [v] = .ok v' ∧ Good s (.n A) v' u g' ∧ FolG g' a ∧ Follows g₀ (.n A)

def Local2 (F : Type) (p : Nat) (A : NonTerm) (X Y : Sym) : Prop :=
  ∀ (s : Nat) (v w : Val F) (u u' g g₁ g₀ a), goto s A ≠ 0 → next s X ≠ 0 → next (next s X) Y ≠ 0 →
    action (next (next s X) Y) a = .reduce p → FolG g a →
    Good s X v u g₁ → Good (next s X) Y w u' g → Follows g₀ X → Follows g₁ Y →
    act p [v, w] = .error .runtime ∨
    ∃ v' g', act p [v, w] = .ok v' ∧ Good s (.n A) v' (u ++ u') g' ∧ FolG g' a ∧ Follows g₀ (.n A)

def Local3 (F : Type) (p : Nat) (A : NonTerm) (X Y Z : Sym) : Prop :=
  ∀ (s : Nat) (v w x : Val F) (u u' u'' g g₂ g₁ g₀ a), goto s A ≠ 0 → next s X ≠ 0 → next (next s X) Y ≠ 0 →
    next (next (next s X) Y) Z ≠ 0 → action (next (next (next s X) Y) Z) a = .reduce p → FolG g a →
    Good s X v u g₁ → Good (next s X) Y w u' g₂ → Good (next (next s X) Y) Z x u'' g → Follows g₀ X → Follows g₁ Y →
    Follows g₂ Z →
    act p [v, w, x] = .error .runtime ∨
    ∃ v' g', act p [v, w, x] = .ok v' ∧ Good s (.n A) v' (u ++ u' ++ u'') g' ∧ FolG g' a ∧ Follows g₀ (.n A)

/-! ### Facts about reductions -/

theorem lvl_lt (s : Nat) : lvl s < 9 := by
  unfold lvl
  repeat' split
  all_goals omega

theorem reduce_facts : ∀ t ∈ states, ∀ a ∈ terms,
    (∀ c ∈ binOps, action t a = .reduce (binProd c) → a.level ≤ c.level) ∧
    (action t a = .reduce 8 → a.level ≤ 7) ∧
    (∀ p ∈ [14, 15, 16, 25, 26], action t a = .reduce p → a ≠ .pathSep ∧ a ≠ .abbrevSep) ∧
    (action t a = .reduce 24 → a ≠ .logical ∧ a ≠ .divmod) ∧
    (action t a = .reduce 42 → a ≠ .lbrack) := by
  decide +kernel

theorem reduce_fact {t p : Nat} {a : Term} (h : action t a = .reduce p) :
    (∀ c ∈ binOps, action t a = .reduce (binProd c) → a.level ≤ c.level) ∧
    (action t a = .reduce 8 → a.level ≤ 7) ∧
    (∀ p ∈ [14, 15, 16, 25, 26], action t a = .reduce p → a ≠ .pathSep ∧ a ≠ .abbrevSep) ∧
    (action t a = .reduce 24 → a ≠ .logical ∧ a ≠ .divmod) ∧
    (action t a = .reduce 42 → a ≠ .lbrack) :=
  reduce_facts t (action_lt (a := a) (by rw [h]; simp)) a (mem_terms a)

theorem state_facts : ∀ s ∈ states,
    (∀ c ∈ binOps, sh (goto s .expr) c ≠ 0 → goto s .expr ≠ 0 → lvl s < c.level ∧ lvl (sh (goto s .expr) c) = c.level) ∧
    (∀ c ∈ [Term.pathSep, .abbrevSep], sh (goto s .expr) c ≠ 0 → goto s .expr ≠ 0 → lvl s = 0) ∧
    (goto s .expr ≠ 0 → sh (goto s .expr) .lbrack ≠ 0 → lvl s = 0) ∧
    (goto s .expr ≠ 0 → sh s .minus ≠ 0 → lvl (sh s .minus) = 7) ∧
    (∀ c ∈ [Term.pathSep, .abbrevSep], sh s c ≠ 0 → goto (sh s c) .expr = 0) ∧
    (goto s .axisSpec ≠ 0 → goto (goto s .axisSpec) .expr = 0) ∧
    (∀ a ∈ terms, action (goto s .funCall) a = .reduce 37 → goto s .expr = 0) := by
  decide +kernel

end Amara.X
