import Verif.Lemmas.XDrive
import Verif.Lemmas.XLex
import Verif.Spec.MicroXml
import Verif.Props.XPath
/-
Properties of the parser of MicroXPath expressions: C77 to C82.
-/
namespace Amara

variable {F : Type}

open X (xparse xlex Written Denotes SpellsTok XBlank GPrim GPreds GExpr GRel GStep Last meaning pdrive rounds)

/-! ### C77 -/

/-- The parser accepts a string as an expression exactly when the string is a way to write tokens that the grammar
derives the expression from. -/
theorem C77_parser_follows_the_grammar (fo : FloatOps F) (s : Str) (e : Expr F) :
    xparse fo s = some (.ok e) ↔ ∃ ts, Written fo ts s ∧ Denotes ts e := by
  constructor
  · intro h
    rcases X.drive_start (xlex fo s).2 (xlex fo s).1 with ⟨e', h1, hb, hd⟩ | ⟨h1, -⟩ | h1
    · rw [xparse, h1] at h
      cases h
      exact ⟨_, (X.xlex_iff fo s _).mp (by rw [← hb]), hd⟩
    · rw [xparse, h1] at h
      cases h
    · rw [xparse, h1] at h
      cases h
  · rintro ⟨ts, hw, hd⟩
    rw [xparse, (X.xlex_iff fo s ts).mpr hw]
    exact X.drive_complete hd

/-- Every string is written in one way and stands for one expression only. -/
theorem C77_one_meaning (fo : FloatOps F) (s : Str) (ts ts' : List (X.Tok F)) (e e' : Expr F) (h : Written fo ts s)
    (h' : Written fo ts' s) (hd : Denotes ts e) (hd' : Denotes ts' e') : ts = ts' ∧ e = e' := by
  have h1 := (X.xlex_iff fo s ts).mpr h
  rw [(X.xlex_iff fo s ts').mpr h'] at h1
  cases h1
  have h2 := X.drive_complete hd
  rw [X.drive_complete hd'] at h2
  cases h2
  exact ⟨rfl, rfl⟩

/-- The grammar itself is not ambiguous. -/
theorem C77_grammar_is_unambiguous (ts : List (X.Tok F)) (e e' : Expr F) (hd : Denotes ts e) (hd' : Denotes ts e') :
    e = e' := by
  have h2 := X.drive_complete hd
  rw [X.drive_complete hd'] at h2
  cases h2
  rfl

example : xparse noFloats " //a [@i = 'x']/ b".toList =
    some (.ok (.slash (.pred (.absAll (.step .child (.name ['a']))) [.eq (.step .attribute (.name ['i'])) (.lit (.str ['x']))])
      (.step .child (.name ['b'])))) := by
  with_unfolding_all rfl

/-! ### C78 -/

/-- Parsing ends for every string, with an expression, with TypeError or with RuntimeError.  TypeError means that the
string cannot be divided into tokens. -/
theorem C78_parsing_ends (fo : FloatOps F) (s : Str) :
    (∃ e, xparse fo s = some (.ok e)) ∨ xparse fo s = some (.error .runtime) ∨
    (xparse fo s = some (.error .type) ∧ ¬ ∃ ts, Written fo ts s) := by
  rcases X.drive_start (xlex fo s).2 (xlex fo s).1 with ⟨e', h1, -⟩ | ⟨h1, hb⟩ | h1
  · exact .inl ⟨_, h1⟩
  · refine .inr (.inr ⟨h1, ?_⟩)
    rintro ⟨ts, hw⟩
    rw [(X.xlex_iff fo s ts).mpr hw] at hb
    cases hb
  · exact .inr (.inl h1)

/-- A string of tokens that the grammar does not derive is a RuntimeError. -/
theorem C78_syntax_error (fo : FloatOps F) (s : Str) (ts : List (X.Tok F)) (h : Written fo ts s) (hd : ¬ ∃ e, Denotes ts e) :
    xparse fo s = some (.error .runtime) := by
  rcases C78_parsing_ends fo s with ⟨e, h1⟩ | h1 | ⟨-, h1⟩
  · obtain ⟨ts', hw', hd'⟩ := (C77_parser_follows_the_grammar fo s e).mp h1
    have h1 := (X.xlex_iff fo s ts).mpr h
    rw [(X.xlex_iff fo s ts').mpr hw'] at h1
    cases h1
    exact absurd ⟨e, hd'⟩ hd
  · exact h1
  · exact absurd ⟨ts, h⟩ h1

theorem lexN_length (fo : FloatOps F) : ∀ (n : Nat) (s : Str), (X.lexN fo n s).1.length ≤ n
  | 0, _ => Nat.le_refl _
  | n + 1, s => by
    rw [X.lexN]
    cases X.lexOne fo (s.dropWhile X.isIgnored) with
    | tok t r => exact Nat.succ_le_succ (lexN_length fo n r)
    | eof => exact Nat.zero_le _
    | bad => exact Nat.zero_le _

/-- The number of rounds the driver takes is at most proportional to the number of tokens, and so to the length of the
string. -/
theorem C78_rounds (fo : FloatOps F) (s : Str) :
    (∃ r, pdrive (xlex fo s).2 (40 * (xlex fo s).1.length + 40) [] (xlex fo s).1 = some r) ∧
    ∃ r, pdrive (xlex fo s).2 (40 * s.length + 80) [] (xlex fo s).1 = some r := by
  have h : ∃ r, pdrive (xlex fo s).2 (40 * (xlex fo s).1.length + 40) [] (xlex fo s).1 = some r := by
    rcases X.drive_start (xlex fo s).2 (xlex fo s).1 with ⟨e', h1, -⟩ | ⟨h1, -⟩ | h1 <;> exact ⟨_, h1⟩
  refine ⟨h, ?_⟩
  obtain ⟨r, hr⟩ := h
  have hl : (xlex fo s).1.length ≤ s.length + 1 := lexN_length fo (s.length + 1) s
  rw [show 40 * s.length + 80 = (40 * (xlex fo s).1.length + 40) + (40 * s.length + 40 - 40 * (xlex fo s).1.length) by omega]
  exact ⟨r, X.pdrive_mono _ _ _ _ hr⟩

example : xparse noFloats "a ; b".toList = some (.error .runtime) ∨ xparse noFloats "a ; b".toList = some (.error .type) :=
  .inr (by with_unfolding_all rfl)
example : xparse noFloats "a/foo()".toList = some (.error .runtime) := by with_unfolding_all rfl
example : xparse noFloats "2 * 3".toList = some (.error .runtime) := by with_unfolding_all rfl

/-! ### C79 -/

theorem strength_lt {o : X.Tok F} {s : Nat} (h : o.strength = some s) : s < X.topStrength ∧ 0 < s := by
  cases o <;> simp [X.Tok.strength] at h <;> subst h <;> simp [X.topStrength]

theorem chain_denotes {s : Nat} {ws : List (X.Tok F)} {r : List (X.Tok F × Expr F)} {k : Last} (hc : X.OpChain s k ws r) :
    ∀ {w : List (X.Tok F)} {e : Expr F} {l m : Nat}, GExpr l m k w e → s ≤ m → ∀ {y}, X.applyAll e r = some y →
      Denotes (w ++ ws) y := by
  induction hc with
  | nil =>
    intro w e l m h _ y hy
    cases hy
    rw [List.append_nil]
    exact ⟨_, _, _, h⟩
  | @cons k k' o w' x ws r ho hn hp _ ih =>
    intro w e l m h hm y hy
    rw [X.applyAll] at hy
    split at hy
    · rename_i e' he
      have := ih (.binary h ho (.prim hp) hm (strength_lt ho).1 hn he) (by have := (strength_lt ho).1; omega) hy
      rwa [List.append_assoc, List.cons_append] at this
    · cases hy

/-- Operators of the same strength group from left to right, however many there are. -/
theorem C79_left_to_right (fo : FloatOps F) {s : Nat} {k : Last} {w ws : List (X.Tok F)} {e y : Expr F}
    {r : List (X.Tok F × Expr F)} (hp : GPrim k w e) (hc : X.OpChain s k ws r) (hs : s < 9) (hy : X.applyAll e r = some y) (t : Str)
    (ht : Written fo (w ++ ws) t) : xparse fo t = some (.ok y) :=
  (C77_parser_follows_the_grammar fo t y).mpr ⟨_, ht, chain_denotes hc (.prim hp) (Nat.le_of_lt hs) hy⟩

/-- Of two operators the stronger one takes the operand between them. Missing: `and` is as strong as `or` here, and
not stronger as in XPath, see `C79_full_statement_is_false`. -/
theorem C79_precedence_partial (fo : FloatOps F) {k₁ k₂ k₃ : Last} {a b c : List (X.Tok F)} {x y z : Expr F} {o₁ o₂ : X.Tok F}
    {s₁ s₂ : Nat} (ha : GPrim k₁ a x) (hb : GPrim k₂ b y) (hc : GPrim k₃ c z) (h₁ : o₁.strength = some s₁)
    (h₂ : o₂.strength = some s₂) (n₁ : o₁.isName → k₁ ≠ .root) (n₂ : o₂.isName → k₂ ≠ .root) (t : Str)
    (ht : Written fo (a ++ o₁ :: (b ++ o₂ :: c)) t) :
    (s₁ < s₂ → ∀ u v, meaning y o₂ z = some u → meaning x o₁ u = some v → xparse fo t = some (.ok v)) ∧
    (s₂ ≤ s₁ → ∀ u v, meaning x o₁ y = some u → meaning u o₂ z = some v → xparse fo t = some (.ok v)) := by
  have l₁ := (strength_lt h₁).1
  have l₂ := (strength_lt h₂).1
  constructor
  · intro h u v hu hv
    refine (C77_parser_follows_the_grammar fo t v).mpr ⟨_, ht, _, _, _,
      .binary (.prim ha) h₁ (.binary (.prim hb) h₂ (.prim hc) (Nat.le_of_lt l₂) l₂ n₂ hu) (Nat.le_of_lt l₁) ?_ n₁ hv⟩
    omega
  · intro h u v hu hv
    have := GExpr.binary (.binary (.prim ha) h₁ (.prim hb) (Nat.le_of_lt l₁) l₁ n₁ hu) h₂ (.prim hc) (by omega) l₂ n₂ hv
    rw [List.append_assoc, List.cons_append] at this
    exact (C77_parser_follows_the_grammar fo t v).mpr ⟨_, ht, _, _, _, this⟩

/-- Unary minus is weaker than `|` and stronger than the others. -/
theorem C79_unary_minus (fo : FloatOps F) {k₁ k₂ : Last} {a b : List (X.Tok F)} {x y : Expr F} {o : X.Tok F} {s : Nat}
    (ha : GPrim k₁ a x) (hb : GPrim k₂ b y) (h : o.strength = some s) (n : o.isName → k₁ ≠ .root) (t : Str)
    (ht : Written fo (.minus :: (a ++ o :: b)) t) :
    (o = .union → xparse fo t = some (.ok (.neg (.union x y)))) ∧
    (o ≠ .union → ∀ v, meaning (.neg x) o y = some v → xparse fo t = some (.ok v)) := by
  have l := (strength_lt h).1
  constructor
  · rintro rfl
    cases h
    exact (C77_parser_follows_the_grammar fo t _).mpr ⟨_, ht, _, _, _,
      .neg (.binary (.prim ha) rfl (.prim hb) (by decide) (by decide) n rfl) (by decide)⟩
  · intro ho v hv
    have hs : s ≤ X.minusStrength := by
      cases o <;> simp [X.Tok.strength] at h <;> subst h <;> first | exact absurd rfl ho | simp [X.minusStrength]
    have := GExpr.binary (.neg (.prim ha) (by decide)) h (.prim hb)
      (by have : X.minusStrength = 7 := rfl; omega) l n hv
    exact (C77_parser_follows_the_grammar fo t _).mpr ⟨_, ht, _, _, _, this⟩

example : xparse noFloats "1 - 2 - 3 < a or -b | c".toList = some (.ok (.or
    (.rel .lt (.arith .sub (.arith .sub (.lit (.int 1)) (.lit (.int 2))) (.lit (.int 3))) (.step .child (.name ['a'])))
    (.neg (.union (.step .child (.name ['b'])) (.step .child (.name ['c'])))))) := by
  with_unfolding_all rfl

/-- The hypotheses of `C79_left_to_right` hold of `1-2-3`. -/
example : xparse noFloats "1-2-3".toList =
    some (.ok (.arith .sub (.arith .sub (.lit (.int 1)) (.lit (.int 2))) (.lit (.int 3)))) :=
  C79_left_to_right noFloats (s := 5) (w := [.integer 1]) (ws := [.minus, .integer 2, .minus, .integer 3])
    (r := [(.minus, .lit (.int 2)), (.minus, .lit (.int 3))]) .integer
    (.cons (w := [.integer 2]) rfl (by simp [X.Tok.isName]) .integer
      (.cons (w := [.integer 3]) (ws := []) rfl (by simp [X.Tok.isName]) .integer .nil))
    (by decide) rfl _ ((X.xlex_iff _ _ _).mp (by with_unfolding_all rfl))

/-- The hypotheses of `C79_precedence_partial` hold of `1 + 2 div 3`. -/
example : xparse noFloats "1+2 div 3".toList =
    some (.ok (.arith .add (.lit (.int 1)) (.arith .div (.lit (.int 2)) (.lit (.int 3))))) :=
  (C79_precedence_partial noFloats (a := [.integer 1]) (b := [.integer 2]) (c := [.integer 3]) (o₁ := .plus) (o₂ := .divmod false)
    .integer .integer .integer rfl rfl (by simp [X.Tok.isName]) (by simp) _
    ((X.xlex_iff _ _ _).mp (by with_unfolding_all rfl))).1 (by decide) _ _ rfl rfl

/-- `a or b and c` is `(a or b) and c` and not `a or (b and c)`, as in XPath: with `true() or true() and false()` the one
yields false, the other true. -/
theorem C79_full_statement_is_false :
    xparse noFloats "a or b and c".toList =
      some (.ok (.and (.or (.step .child (.name ['a'])) (.step .child (.name ['b']))) (.step .child (.name ['c'])))) ∧
    ∃ u v : Expr NoF, xparse noFloats "true() or true() and false()".toList = some (.ok u) ∧
      xparse noFloats "true() or (true() and false())".toList = some (.ok v) ∧
      exEnv.Yields 0 u (.node []) [.bool false] ∧ exEnv.Yields 0 v (.node []) [.bool true] :=
  ⟨by with_unfolding_all rfl,
    .and (.or (.call "true".toList []) (.call "true".toList [])) (.call "false".toList []),
    .or (.call "true".toList []) (.seq [.and (.call "true".toList []) (.call "false".toList [])]),
    by with_unfolding_all rfl, by with_unfolding_all rfl, by with_unfolding_all rfl, by with_unfolding_all rfl⟩

/-! ### C80 -/

/-- What a predicate filters: all of the expression before it, back to the opening bracket or comma. -/
theorem C80_everything_before (fo : FloatOps F) {l r : Nat} {k : Last} {w w' : List (X.Tok F)} {e : Expr F}
    {ps : List (Expr F)} (he : GExpr l r k w e) (hk : k ≠ .preds) (hp : GPreds w' ps) (t : Str) (ht : Written fo (w ++ w') t) :
    xparse fo t = some (.ok (.pred e ps)) :=
  (C77_parser_follows_the_grammar fo t _).mpr ⟨_, ht, _, _, _, .pred he hk hp⟩

/-- In particular it filters what a single step, a call, a variable, a literal or an expression in parentheses yields.
Missing: a step after a slash or an operand after an operator, see below. -/
theorem C80_operand_partial (fo : FloatOps F) {k : Last} {w w' : List (X.Tok F)} {e : Expr F}
    {ps : List (Expr F)} (he : GPrim k w e) (hk : k ≠ .preds) (hp : GPreds w' ps) (t : Str) (ht : Written fo (w ++ w') t) :
    xparse fo t = some (.ok (.pred e ps)) := C80_everything_before fo (.prim he) hk hp t ht

/-- Two `a`, the first with two `b`, the second with one. -/
def twoLists : Node :=
  .elem ['r'] [] [.elem ['a'] [] [.elem ['b'] [] [], .elem ['b'] [] []], .elem ['a'] [] [.elem ['b'] [] []]]

/-- `a/b[1]` is not the first `b` of each `a` but the first of all of them. -/
theorem C80_full_statement_is_false :
    ∃ (E : Env NoF) (e : Expr NoF), xparse E.fo "a/b[1]".toList = some (.ok e) ∧
      E.Yields 1 e (.node []) [.node [0, 0]] ∧
      E.Yields 1 (.slash (.step .child (.name ['a'])) (.pred (.step .child (.name ['b'])) [.lit (.int 1)])) (.node [])
        [.node [0, 0], .node [1, 0]] :=
  ⟨{ exEnv with doc := twoLists },
   .pred (.slash (.step .child (.name ['a'])) (.step .child (.name ['b']))) [.lit (.int 1)], by with_unfolding_all rfl,
   by with_unfolding_all rfl, by with_unfolding_all rfl⟩

/-- `a = b[1]` is `(a = b)[1]`, and `-a[1]` is `(-a)[1]`. -/
theorem C80_operators_are_inside_too :
    xparse noFloats "a = b[1]".toList =
      some (.ok (.pred (.eq (.step .child (.name ['a'])) (.step .child (.name ['b']))) [.lit (.int 1)])) ∧
    xparse noFloats "-a[1]".toList = some (.ok (.pred (.neg (.step .child (.name ['a']))) [.lit (.int 1)])) :=
  ⟨by with_unfolding_all rfl, by with_unfolding_all rfl⟩

/-! ### C81 -/

theorem blank_not_name : ∀ c ∈ [' ', '\t', '\r', '\n'], ¬ X.XNameChar c := by
  intro c hc
  rw [← X.nameChar_iff]
  revert c
  decide +kernel

theorem ends_blank (t : X.Tok F) {b : Str} (hb : XBlank b) (hn : b ≠ []) (r : Str) : X.Ends t (b ++ r) := by
  match b, hn with
  | c :: b, _ =>
    have hc := hb c (by simp)
    have h1 := blank_not_name c hc
    have h2 : ¬ X.Begins X.XNameChar (c :: b ++ r) := by
      rintro ⟨d, s, h, hd⟩
      cases h
      exact h1 hd
    have h3 : ¬ X.slip <+: (c :: b ++ r) := by
      rintro ⟨s, h⟩
      rw [X.slip_cons] at h
      injection h with h _
      subst h
      exact absurd hc (by decide +kernel)
    have h4 : ¬ X.Digits [c] := by
      intro h
      exact h1 (.inr (by
        obtain ⟨x, hx, h⟩ := h c (by simp)
        simp at hx
        subst hx
        exact ⟨(0x30, 0x39), by simp [X.nameExtraRanges], h⟩))
    simp only [List.mem_cons, List.not_mem_nil, or_false] at hc
    have h5 : c ≠ '.' ∧ c ≠ '/' ∧ c ≠ '=' := by rcases hc with rfl | rfl | rfl | rfl <;> decide
    unfold X.Ends
    split <;> first
      | exact ⟨h2, h3⟩
      | trivial
      | (rintro ⟨d, s, h, hd⟩
         cases h
         rcases hd with hd | hd
         · exact h4 hd
         · exact h5.1 hd)
      | (rintro ⟨d, s, h, hd⟩
         cases h
         exact h4 hd)
      | (rintro ⟨d, s, h, hd⟩
         cases h
         exact h5.2.1 hd)
      | (rintro ⟨d, s, h, hd⟩
         cases h
         exact h5.2.2 hd)

/-- Tokens can be written with any blanks between them, before and after. -/
theorem C81_blanks_anywhere (fo : FloatOps F) (ts : List (X.Tok F × Str × Str))
    (h : ∀ x ∈ ts, SpellsTok fo x.1 x.2.1 ∧ XBlank x.2.2 ∧ x.2.2 ≠ []) (b : Str) (hb : XBlank b) :
    Written fo (ts.map (·.1)) (b ++ ts.flatMap (fun x => x.2.1 ++ x.2.2)) := by
  induction ts generalizing b with
  | nil =>
    rw [List.flatMap_nil, List.append_nil]
    exact .nil hb
  | cons x ts ih =>
    obtain ⟨h1, h2, h3⟩ := h x (by simp)
    have := ih (fun y hy => h y (by simp [hy])) x.2.2 h2
    rw [List.map_cons, List.flatMap_cons, List.append_assoc]
    exact .cons hb h1 (ends_blank x.1 h2 h3 _) this

/-- Only the tokens matter: strings of the same tokens are parsed alike, so blanks between tokens change nothing. -/
theorem C81_only_the_tokens_matter (fo : FloatOps F) (ts : List (X.Tok F)) (s s' : Str) (h : Written fo ts s)
    (h' : Written fo ts s') : xparse fo s = xparse fo s' := by
  rw [xparse, xparse, (X.xlex_iff fo s ts).mpr h, (X.xlex_iff fo s' ts).mpr h']

/-- Blanks before an expression change nothing, whatever it is. -/
theorem C81_leading_blanks (fo : FloatOps F) (b s : Str) (hb : XBlank b) : xparse fo (b ++ s) = xparse fo s := by
  have h : ∀ n, X.lexN fo (n + 1) (b ++ s) = X.lexN fo (n + 1) s := by
    intro n
    rw [X.lexN, X.lexN, X.dropWhile_blank hb]
  have : xlex fo (b ++ s) = xlex fo s := by
    show X.lexN fo ((b ++ s).length + 1) (b ++ s) = _
    rw [h, X.lexN_enough fo s (b ++ s).length (by simp)]
  rw [xparse, xparse, this]

example : xparse noFloats "a\n [ 1\t]/ b ".toList = xparse noFloats "a[1]/b".toList := by
  refine C81_only_the_tokens_matter noFloats [.name ['a'], .lbrack, .integer 1, .rbrack, .pathSep, .name ['b']] _ _ ?_ ?_ <;>
    exact (X.xlex_iff _ _ _).mp (by with_unfolding_all rfl)

/-! ### C82 -/

/-- MicroXML names. -/
def IsMicroName (n : Str) : Prop := ∃ c r, n = c :: r ∧ NameStartCode c.toNat ∧ ∀ d ∈ r, MicroNameCode d.toNat

theorem inRanges_start {c : Char} (h : NameStartCode c.toNat) (h' : ¬ (0xC0 ≤ c.toNat ∧ c.toNat ≤ 0xD6)) :
    X.InRanges X.nameStartRanges c := by
  simp only [X.InRanges, X.nameStartRanges, List.mem_cons, List.not_mem_nil, or_false, exists_eq_or_imp, exists_eq_left]
  unfold NameStartCode at h
  omega

theorem xnameChar_of {c : Char} (h : MicroNameCode c.toNat) (h' : ¬ (0xC0 ≤ c.toNat ∧ c.toNat ≤ 0xD6)) : X.XNameChar c := by
  rcases h with h | h
  · exact .inl (inRanges_start h h')
  · right
    simp only [X.InRanges, X.nameExtraRanges, List.mem_cons, List.not_mem_nil, or_false, exists_eq_or_imp, exists_eq_left]
    omega

theorem xnameTail_of {r : Str} (h : ∀ c ∈ r, X.XNameChar c) : X.XNameTail r := by
  induction r with
  | nil => exact .nil
  | cons c r ih => exact .char (h c (by simp)) (ih (fun d hd => h d (by simp [hd])))

/-- Every MicroXML name without a letter from `À` to `Ö` can be used as a name test, the names of the operators included.
Missing: the names with one of those letters, see below. -/
theorem C82_names_as_tests_partial (fo : FloatOps F) (n : Str) (h : IsMicroName n)
    (h' : ∀ c ∈ n, ¬ (0xC0 ≤ c.toNat ∧ c.toNat ≤ 0xD6)) :
    xparse fo n = some (.ok (.step .child (.name n))) := by
  obtain ⟨c, r, rfl, hc, hr⟩ := h
  have hx : X.XName (c :: r) := .char (inRanges_start hc (h' c (by simp)))
    (xnameTail_of fun d hd => xnameChar_of (hr d hd) (h' d (by simp [hd])))
  have hs := X.nameTok_spells fo (r := []) hx (X.not_begins_nil _) (by rintro ⟨t, h⟩; cases h)
  have hw : Written fo [X.nameTok (c :: r)] (c :: r) := by
    have := Written.cons (b := []) (fun c hc => by cases hc) hs.1 hs.2 (Written.nil (b := []) (fun c hc => by cases hc))
    rwa [List.append_nil, List.nil_append] at this
  have hn : (X.nameTok (F := F) (c :: r)).isName ∧ (X.nameTok (F := F) (c :: r)).word = c :: r := by
    unfold X.nameTok
    repeat' split
    · rename_i h; exact ⟨trivial, h.symm⟩
    · rename_i h; exact ⟨trivial, h.symm⟩
    · rename_i h; exact ⟨trivial, h.symm⟩
    · rename_i h; exact ⟨trivial, h.symm⟩
    · exact ⟨trivial, rfl⟩
  have hg : GStep (F := F) false [X.nameTok (c :: r)] (.step .child (.name (c :: r))) := by
    have := X.GTest.name (b := false) hn.1
    rw [hn.2] at this
    exact .child this
  exact (C77_parser_follows_the_grammar fo _ _).mpr ⟨_, hw, _, _, _, .prim (.rel (.step hg))⟩

example : IsMicroName "div".toList ∧ IsMicroName "h1.x-2".toList :=
  ⟨⟨'d', ['i', 'v'], rfl, by decide, by unfold MicroNameCode; decide⟩,
   ⟨'h', "1.x-2".toList, rfl, by decide, by unfold MicroNameCode; decide⟩⟩

/-- The name `É` is a MicroXML name, but the lexer does not know it: TypeError. -/
theorem C82_full_statement_is_false :
    ∃ n, IsMicroName n ∧ xparse noFloats n = some (.error .type) ∧ IsName n :=
  ⟨[Char.ofNat 0xC9], ⟨_, _, rfl, by decide, by simp⟩, by with_unfolding_all rfl, by decide⟩

end Amara
