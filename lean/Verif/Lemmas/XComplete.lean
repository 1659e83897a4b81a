import Verif.Model.XParse
import Verif.Lemmas.XTables
/-
Completeness of the parser: whatever the grammar derives, the driver builds.
-/
namespace Amara.X

variable {F : Type}

/-- After some rounds the driver is at another stack and input. -/
def ReachX (bad : Bool) (st : List (Nat × Val F)) (inp : List (Tok F)) (st' : List (Nat × Val F)) (inp' : List (Tok F)) :
    Prop := ∃ n, ∀ m, pdrive bad (n + m) st inp = pdrive bad m st' inp'

namespace ReachX
variable {bad : Bool} {st st' st'' : List (Nat × Val F)} {inp inp' inp'' : List (Tok F)}

theorem refl : ReachX bad st inp st inp := ⟨0, fun m => by rw [Nat.zero_add]⟩

theorem trans (h : ReachX bad st inp st' inp') (h' : ReachX bad st' inp' st'' inp'') : ReachX bad st inp st'' inp'' := by
  obtain ⟨n, h⟩ := h
  obtain ⟨n', h'⟩ := h'
  exact ⟨n + n', fun m => by rw [Nat.add_assoc, h, h']⟩

theorem step (h : pstep bad st inp = .next st' inp') : ReachX bad st inp st' inp' :=
  ⟨1, fun m => by rw [Nat.add_comm, pdrive, h]⟩

theorem shift {t : Tok F} {s : Nat} (h : action (topState st) t.kind = .shift s) :
    ReachX bad st (t :: inp) ((s, .tok t) :: st) inp := by
  refine step ?_
  show (match action (topState st) t.kind with
    | .shift s => _
    | .reduce p => _
    | .accept => _
    | .error => _) = _
  rw [h]

theorem red {p : Nat} {a : Term} (hl : lookahead bad inp = some a) (ha : action (topState st) a = .reduce p)
    (h : reduceBy p st inp = .next st' inp') : ReachX bad st inp st' inp' := by
  refine step ?_
  unfold pstep
  rw [hl]
  show (match action (topState st) a with
    | .shift s => _
    | .reduce p => _
    | .accept => _
    | .error => _) = _
  rw [ha]
  exact h

theorem shiftAt {q : Nat} {v : Val F} {t : Tok F} {s : Nat} (h : action q t.kind = .shift s) :
    ReachX bad ((q, v) :: st) (t :: inp) ((s, .tok t) :: (q, v) :: st) inp := shift h

theorem red1 {q p : Nat} {a : Term} {v v' : Val F} {A : NonTerm} {X : Sym} (hl : lookahead bad inp = some a)
    (ha : action q a = .reduce p) (hp : prods[p]? = some (A, [X])) (hv : act p [v] = .ok v') :
    ReachX bad ((q, v) :: st) inp ((goto (topState st) A, v') :: st) inp := by
  refine red hl ha ?_
  rw [reduceBy, hp]
  simp [hv]

theorem red2 {q q' p : Nat} {a : Term} {v w v' : Val F} {A : NonTerm} {X Y : Sym} (hl : lookahead bad inp = some a)
    (ha : action q' a = .reduce p) (hp : prods[p]? = some (A, [X, Y])) (hv : act p [v, w] = .ok v') :
    ReachX bad ((q', w) :: (q, v) :: st) inp ((goto (topState st) A, v') :: st) inp := by
  refine red hl ha ?_
  rw [reduceBy, hp]
  simp [hv]

theorem red3 {q q' q'' p : Nat} {a : Term} {v w x v' : Val F} {A : NonTerm} {X Y Z : Sym}
    (hl : lookahead bad inp = some a)
    (ha : action q'' a = .reduce p) (hp : prods[p]? = some (A, [X, Y, Z])) (hv : act p [v, w, x] = .ok v') :
    ReachX bad ((q'', x) :: (q', w) :: (q, v) :: st) inp ((goto (topState st) A, v') :: st) inp := by
  refine red hl ha ?_
  rw [reduceBy, hp]
  simp [hv]

end ReachX

/-- What may follow an expression that ends in this way. -/
def Fol (r : Nat) (k : Last) (a : Term) : Prop :=
  a.level ≤ r ∧ (k = .path → a ≠ .pathSep ∧ a ≠ .abbrevSep) ∧ (k = .root → a ≠ .logical ∧ a ≠ .divmod) ∧
  (k = .preds → a ≠ .lbrack)

theorem axisOf_table : ∀ x ∈ axisTable, axisOf x.1 = some x.2 := by decide

theorem axisOf_of {n : Str} {a : Axis} (h : (n, a) ∈ axisTable) : axisOf n = some a := axisOf_table _ h

theorem of_axisOf {n : Str} {a : Axis} (h : axisOf n = some a) : (n, a) ∈ axisTable := by
  have key : ∀ (m : Str) (b : Axis) (x : Option Axis), (if n = m then some b else x) = some a →
      (n, a) = (m, b) ∨ x = some a := by
    intro m b x h
    split at h
    · rename_i hn
      exact .inl (by rw [hn, Option.some.inj h])
    · exact .inr h
  unfold axisOf at h
  simp only [axisTable, List.mem_cons, List.not_mem_nil, or_false]
  rcases key _ _ _ h with e | h
  · exact .inl e
  rcases key _ _ _ h with e | h
  · exact .inr (.inr (.inr (.inl e)))
  rcases key _ _ _ h with e | h
  · exact .inr (.inr (.inr (.inr (.inl e))))
  rcases key _ _ _ h with e | h
  · exact .inr (.inr (.inr (.inr (.inr (.inl e)))))
  rcases key _ _ _ h with e | h
  · exact .inr (.inl e)
  rcases key _ _ _ h with e | h
  · exact .inr (.inr (.inr (.inr (.inr (.inr (.inl e))))))
  rcases key _ _ _ h with e | h
  · exact .inr (.inr (.inr (.inr (.inr (.inr (.inr (.inl e)))))))
  rcases key _ _ _ h with e | h
  · exact .inr (.inr (.inr (.inr (.inr (.inr (.inr (.inr (.inl e))))))))
  rcases key _ _ _ h with e | h
  · exact .inr (.inr (.inr (.inr (.inr (.inr (.inr (.inr (.inr (.inl e)))))))))
  rcases key _ _ _ h with e | h
  · exact .inr (.inr (.inl e))
  rcases key _ _ _ h with e | h
  · exact .inr (.inr (.inr (.inr (.inr (.inr (.inr (.inr (.inr (.inr (.inl e))))))))))
  rcases key _ _ _ h with e | h
  · exact .inr (.inr (.inr (.inr (.inr (.inr (.inr (.inr (.inr (.inr (.inr e))))))))))
  · cases h

theorem text_word : ∀ n : Tok F, n.text = n.word
  | .logical true | .logical false | .divmod true | .divmod false | .name _ | .equal _ | .rel _ | .plus | .minus | .star | .union
  | .pathSep | .abbrevSep | .lbrack | .rbrack | .lparen | .rparen | .comma | .dollar | .at | .axisSep | .dot | .dotdot | .literal _
  | .float _ | .integer _ => rfl

theorem funCall_called (n : Str) (as : List (Expr F)) : funCall n as = called n as := by
  unfold funCall called
  split
  · rename_i h
    subst h
    rfl
  · rfl

theorem binary_meaning {o : Tok F} {l r e : Expr F} (h : meaning l o r = some e) : binary l o r = some e := by
  unfold meaning at h
  split at h <;> first | exact h | (rename_i b; cases b <;> exact h) | cases h

theorem isName_kind {n : Tok F} (h : n.isName) : n.kind ∈ names := by
  cases n <;> simp [Tok.isName] at h <;> simp [Tok.kind, names]

theorem act_name {n : Tok F} (h : n.isName) : (∃ X, prods[nameProd n.kind]? = some (.nameTest, [X])) ∧
    act (nameProd n.kind) [.tok n] = .ok (.test (.name n.word)) := by
  rw [← text_word]
  cases n <;> simp [Tok.isName] at h <;> exact ⟨⟨_, rfl⟩, rfl⟩

theorem act_call {n : Tok F} (h : n.isName) (as : List (Expr F)) :
    (∃ X Y, prods[callProd n.kind]? = some (.funCall, [X, Y])) ∧
    act (callProd n.kind) [.tok n, .exprs as] = .ok (.expr (called n.word as)) := by
  rw [← text_word, ← funCall_called]
  cases n <;> simp [Tok.isName] at h <;> exact ⟨⟨_, _, rfl⟩, rfl⟩

theorem act_var {n t : Tok F} (h : n.isName) :
    (∃ X Y, prods[varProd n.kind]? = some (.varRef, [X, Y])) ∧
    act (varProd n.kind) [.tok t, .tok n] = .ok (.expr (.var n.word)) := by
  rw [← text_word]
  cases n <;> simp [Tok.isName] at h <;> exact ⟨⟨_, _, rfl⟩, rfl⟩

theorem binaryAct_ok {o : Tok F} {l r e : Expr F} (hb : meaning l o r = some e) : binaryAct l o r = .ok (.expr e) := by
  have hb := binary_meaning hb
  rw [binaryAct, hb]

theorem act_binary {o : Tok F} {s : Nat} (ho : o.strength = some s) {l r e : Expr F} (hb : meaning l o r = some e) :
    (∃ X Y Z, prods[binProd o.kind]? = some (.expr, [X, Y, Z])) ∧
    act (binProd o.kind) [.expr l, .tok o, .expr r] = .ok (.expr e) := by
  rw [← binaryAct_ok hb]
  cases o <;> simp [Tok.strength] at ho <;> exact ⟨⟨_, _, _, rfl⟩, rfl⟩

theorem act_axis {n : Str} {a : Axis} (h : (n, a) ∈ axisTable) (t : Tok F) :
    act 34 [.tok (.name n), .tok t] = .ok (.axis a) := by
  have : axisAct (F := F) (.name n) = .ok (.axis a) := by simp only [axisAct, Tok.text, axisOf_of h]
  exact this

theorem names_testFirst {c : Term} (h : c ∈ names) : c ∈ testFirst := by
  revert c; decide

theorem gtest_first {b : Bool} {w : List (Tok F)} {t : Test} (h : GTest b w t) (bad : Bool) (rest : List (Tok F)) :
    ∃ c ∈ testFirst, lookahead bad (w ++ rest) = some c := by
  cases h with
  | star => exact ⟨.star, by simp [testFirst], rfl⟩
  | name hn => exact ⟨_, names_testFirst (isName_kind hn), rfl⟩
  | type hn _ _ => exact ⟨_, names_testFirst (isName_kind hn), rfl⟩

theorem gexpr_pos : ∀ {l r : Nat} {k : Last} {w : List (Tok F)} {e : Expr F}, GExpr l r k w e → 0 < l ∧ 0 < r
  | _, _, _, _, _, .prim _ => by decide
  | _, _, _, _, _, .neg he _ => by
    have := gexpr_pos he
    simp only [topStrength, minusStrength]
    omega
  | _, _, _, _, _, .binary (o := o) h1 ho h2 _ _ _ _ => by
    have := gexpr_pos h1
    have := gexpr_pos h2
    cases o <;> simp [Tok.strength] at ho <;> subst ho <;> omega
  | _, _, _, _, _, .slash _ _ _ => by decide
  | _, _, _, _, _, .dslash _ _ _ => by decide
  | _, _, _, _, _, .pred _ _ _ => by decide

theorem gpreds_first : ∀ {w : List (Tok F)} {ps : List (Expr F)}, GPreds w ps → ∀ (bad : Bool) (rest : List (Tok F)),
    lookahead bad (w ++ rest) = some .lbrack
  | _, _, .one _, _, _ => rfl
  | _, _, .more h _, bad, rest => by rw [List.append_assoc]; exact gpreds_first h bad _

set_option maxHeartbeats 1000000 in
mutual
  theorem compl_test {b : Bool} {w : List (Tok F)} {t : Test} (h : GTest b w t) (bad : Bool) (st : List (Nat × Val F))
      (rest : List (Tok F)) {a : Term} (hs : goto (topState st) .nodeTest ≠ 0) (hb : b = true → goto (topState st) .expr = 0)
      (hl : lookahead bad rest = some a) (ha : a ∈ follow) :
      ReachX bad st (w ++ rest) ((goto (topState st) .nodeTest, .test t) :: st) rest := by
    obtain ⟨h1, h2, h3, h4⟩ := tab_testStart _ (goto_lt hs) hs
    match h with
    | .star =>
      have r1 : ReachX bad st (.star :: rest) _ rest := ReachX.shift h1
      have r2 := r1.trans (ReachX.red1 hl (h2 a ha) rfl rfl)
      exact r2.trans (ReachX.red1 hl (h3 a ha) rfl rfl)
    | .name (n := n) hn =>
      obtain ⟨g1, g2, -⟩ := h4 _ (isName_kind hn)
      obtain ⟨⟨X, k1⟩, k2⟩ := act_name hn
      have r1 : ReachX bad st (n :: rest) _ rest := ReachX.shift g1
      have r2 := r1.trans (ReachX.red1 hl (g2 a ha) k1 k2)
      exact r2.trans (ReachX.red1 hl (h3 a ha) rfl rfl)
    | .type (n := n) (w := w) (as := as) hn hargs hf =>
      obtain ⟨g1, g2, g3, g4, g5⟩ := h4 _ (isName_kind hn)
      obtain ⟨⟨X, Y, k1⟩, k2⟩ := act_call hn as
      have r1 : ReachX bad st (n :: (w ++ rest)) _ _ := ReachX.shift g1
      have r2 := r1.trans (compl_args hargs bad ((sh (topState st) n.kind, .tok n) :: st) rest g3 hl ha)
      have r3 := r2.trans (ReachX.red2 hl (g4 a ha) k1 k2)
      refine r3.trans (ReachX.red1 hl (g5 (hb rfl) a ha) rfl ?_)
      rw [hf]; rfl

  theorem compl_step {b : Bool} {w : List (Tok F)} {e : Expr F} (h : GStep b w e) (bad : Bool) (st : List (Nat × Val F))
      (rest : List (Tok F)) {a : Term} (hs : goto (topState st) .step ≠ 0) (hb : b = true → goto (topState st) .expr = 0)
      (hl : lookahead bad rest = some a) (ha : a ∈ follow) :
      ReachX bad st (w ++ rest) ((goto (topState st) .step, .expr e) :: st) rest := by
    obtain ⟨h1, h2, h3, h4, h5, h6, h7, h8, h9, h10, h11, h12, h13, h14⟩ := tab_stepStart _ (goto_lt hs) hs
    match h with
    | .dot =>
      have r1 : ReachX bad st (.dot :: rest) _ rest := ReachX.shift h3
      exact r1.trans (ReachX.red1 hl (h4 a ha) rfl rfl)
    | .dotdot =>
      have r1 : ReachX bad st (.dotdot :: rest) _ rest := ReachX.shift h5
      exact r1.trans (ReachX.red1 hl (h6 a ha) rfl rfl)
    | .child ht =>
      have r1 := compl_test ht bad st rest h1 hb hl ha
      exact r1.trans (ReachX.red1 hl (h2 a ha) rfl rfl)
    | .attr (w := w) ht =>
      obtain ⟨c, hc, hc'⟩ := gtest_first ht bad rest
      have r1 : ReachX bad st (.at :: (w ++ rest)) _ _ := ReachX.shift h7
      have r2 := r1.trans (ReachX.red1 hc' (h8 c hc) rfl rfl)
      have r3 := r2.trans (compl_test ht bad ((goto (topState st) .axisSpec, .axis .attribute) :: st) rest h12
        (fun _ => h13) hl ha)
      exact r3.trans (ReachX.red2 hl (h14 a ha) rfl rfl)
    | .axis (n := n) (a := ax) (w := w) hn ht =>
      obtain ⟨c, hc, hc'⟩ := gtest_first ht bad rest
      have r1 : ReachX bad st (.name n :: .axisSep :: (w ++ rest)) _ _ := ReachX.shift h9
      have r2 := r1.trans (ReachX.shiftAt (t := .axisSep) h10)
      have r3 := r2.trans (ReachX.red2 hc' (h11 c hc) rfl (act_axis hn _))
      have r4 := r3.trans (compl_test ht bad ((goto (topState st) .axisSpec, .axis ax) :: st) rest h12
        (fun _ => h13) hl ha)
      exact r4.trans (ReachX.red2 hl (h14 a ha) rfl rfl)

  theorem compl_rel {b : Bool} {w : List (Tok F)} {e : Expr F} (h : GRel b w e) (bad : Bool) (st : List (Nat × Val F))
      (rest : List (Tok F)) {a : Term} (hs : goto (topState st) .relPath ≠ 0)
      (hb : b = true → goto (topState st) .expr = 0)
      (hl : lookahead bad rest = some a) (ha : a ∈ follow) :
      ReachX bad st (w ++ rest) ((goto (topState st) .relPath, .expr e) :: st) rest := by
    obtain ⟨h1, h2, h3⟩ := tab_relStart _ (goto_lt hs) hs
    match h with
    | .step hh =>
      have r1 := compl_step hh bad st rest h1 hb hl ha
      exact r1.trans (ReachX.red1 hl (h2 a ha) rfl rfl)
    | .slash (w₁ := w₁) (l := l) (w₂ := w₂) hr hh =>
      obtain ⟨g1, g2, g3, g4⟩ := h3 .pathSep (by simp)
      rw [List.append_assoc]
      have r1 := compl_rel hr bad st (.pathSep :: w₂ ++ rest) (a := .pathSep) hs hb rfl (by simp [follow])
      have r2 := r1.trans (ReachX.shiftAt (t := .pathSep) g1)
      have r3 := r2.trans (compl_step hh bad ((_, .tok .pathSep) :: (_, .expr l) :: st) rest g2 (fun _ => g3) hl ha)
      exact r3.trans (ReachX.red3 hl (g4 a ha) rfl rfl)
    | .dslash (w₁ := w₁) (l := l) (w₂ := w₂) hr hh =>
      obtain ⟨g1, g2, g3, g4⟩ := h3 .abbrevSep (by simp)
      rw [List.append_assoc]
      have r1 := compl_rel hr bad st (.abbrevSep :: w₂ ++ rest) (a := .abbrevSep) hs hb rfl (by simp [follow])
      have r2 := r1.trans (ReachX.shiftAt (t := .abbrevSep) g1)
      have r3 := r2.trans (compl_step hh bad ((_, .tok .abbrevSep) :: (_, .expr l) :: st) rest g2 (fun _ => g3) hl ha)
      exact r3.trans (ReachX.red3 hl (g4 a ha) rfl rfl)

  theorem compl_args {w : List (Tok F)} {es : List (Expr F)} (h : GArgs w es) (bad : Bool) (st : List (Nat × Val F))
      (rest : List (Tok F)) {a : Term} (hs : goto (topState st) .formalArgs ≠ 0)
      (hl : lookahead bad rest = some a) (ha : a ∈ follow) :
      ReachX bad st (w ++ rest) ((goto (topState st) .formalArgs, .exprs es) :: st) rest := by
    obtain ⟨h1, h2, h3, h4, h5, h6⟩ := tab_args _ (goto_lt hs) hs
    match h with
    | .none =>
      have r1 : ReachX bad st (.lparen :: .rparen :: rest) _ _ := ReachX.shift h1
      have r2 := r1.trans (ReachX.shiftAt (t := .rparen) h2)
      exact r2.trans (ReachX.red2 hl (h3 a ha) rfl rfl)
    | .some (w := w) hh =>
      rw [List.cons_append, List.append_assoc]
      have r1 : ReachX bad st (.lparen :: (w ++ ([.rparen] ++ rest))) _ _ := ReachX.shift h1
      have r2 := r1.trans (compl_list hh bad ((sh (topState st) .lparen, .tok .lparen) :: st)
        ([.rparen] ++ rest) (.inr rfl) (a := .rparen) h4 rfl
        (by simp))
      have r3 := r2.trans (ReachX.shiftAt (t := .rparen) h5)
      exact r3.trans (ReachX.red3 hl (h6 a ha) rfl rfl)

  theorem compl_list {w : List (Tok F)} {es : List (Expr F)} (h : GList w es) (bad : Bool) (st : List (Nat × Val F))
      (rest : List (Tok F)) {a : Term} {A : NonTerm} (hA : A = .exprList ∨ A = .argList) (hs : goto (topState st) A ≠ 0)
      (hl : lookahead bad rest = some a) (ha : a ∈ [Term.comma, .rparen]) :
      ReachX bad st (w ++ rest) ((goto (topState st) A, .exprs es) :: st) rest := by
    obtain ⟨h1, h2, h3, h4, h5, h6, h7⟩ := tab_list A (by rcases hA with rfl | rfl <;> simp) _ (goto_lt hs) hs
    have haf : ∀ a ∈ [Term.comma, .rparen], a ∈ follow ∧ a.level = 0 ∧ a ≠ .pathSep ∧ a ≠ .abbrevSep ∧ a ≠ .logical ∧
        a ≠ .divmod ∧ a ≠ .lbrack := by decide
    have hfol : ∀ r k, Fol r k a := fun r k => by
      obtain ⟨-, g1, g2, g3, g4, g5, g6⟩ := haf a ha
      exact ⟨by omega, fun _ => ⟨g2, g3⟩, fun _ => ⟨g4, g5⟩, fun _ => g6⟩
    have haf' : a ∈ follow := (haf a ha).1
    match h with
    | .one he =>
      have r1 := compl_expr he bad st rest h1 (by have := gexpr_pos he; omega) hl haf' (hfol _ _)
      rcases hA with rfl | rfl
      · exact r1.trans (ReachX.red1 hl (h3 a ha) rfl rfl)
      · exact r1.trans (ReachX.red1 hl (h3 a ha) rfl rfl)
    | .more (w₁ := w₁) (es := es) (w₂ := w₂) hh he =>
      rw [List.append_assoc]
      have r1 := compl_list hh bad st (.comma :: w₂ ++ rest) hA (a := .comma) hs rfl (by simp)
      have r2 := r1.trans (ReachX.shiftAt (t := .comma) h4)
      have r3 := r2.trans (compl_expr he bad ((sh (goto (topState st) A) .comma, .tok .comma) :: (_, .exprs es) :: st) rest h5
        (by have := gexpr_pos he; show lvl (sh (goto (topState st) A) .comma) < _; omega) hl haf' (hfol _ _))
      rcases hA with rfl | rfl
      · exact r3.trans (ReachX.red3 hl (h7 a ha) rfl rfl)
      · exact r3.trans (ReachX.red3 hl (h7 a ha) rfl rfl)

  theorem compl_preds {w : List (Tok F)} {ps : List (Expr F)} (h : GPreds w ps) (bad : Bool) (st : List (Nat × Val F))
      (rest : List (Tok F)) {a : Term} (hs : goto (topState st) .predList ≠ 0)
      (hb : action (topState st) .lbrack = .shift (sh (topState st) .lbrack))
      (hl : lookahead bad rest = some a) (ha : a ∈ follow) :
      ReachX bad st (w ++ rest) ((goto (topState st) .predList, .exprs ps) :: st) rest := by
    obtain ⟨h1, h2, h3, h4, h5, h6, h7⟩ := tab_preds _ (goto_lt hs) hs hb
    have hfol : ∀ r k, Fol r k .rbrack := fun r k => ⟨Nat.zero_le _, by simp⟩
    match h with
    | .one (w := w) he =>
      rw [List.cons_append, List.append_assoc]
      have r1 : ReachX bad st (.lbrack :: (w ++ ([.rbrack] ++ rest))) _ _ := ReachX.shift hb
      have r2 := r1.trans (compl_expr he bad ((sh (topState st) .lbrack, .tok .lbrack) :: st) ([.rbrack] ++ rest) h1
        (by have := gexpr_pos he; show lvl (sh (topState st) .lbrack) < _; omega) (a := .rbrack) rfl (by simp [follow]) (hfol _ _))
      have r3 := r2.trans (ReachX.shiftAt (t := .rbrack) h3)
      have r4 := r3.trans (ReachX.red3 hl (h4 a ha) rfl rfl)
      exact r4.trans (ReachX.red1 hl (h5 a ha) rfl rfl)
    | .more (w₁ := w₁) (es := es) (w₂ := w₂) hh he =>
      rw [List.append_assoc, List.cons_append, List.append_assoc]
      have r1 := compl_preds hh bad st (.lbrack :: (w₂ ++ ([.rbrack] ++ rest))) (a := .lbrack) hs hb rfl (by simp [follow])
      have r2 := r1.trans (ReachX.shiftAt (t := .lbrack) h6)
      have r3 := r2.trans (compl_expr he bad ((sh (topState st) .lbrack, .tok .lbrack) :: (_, .exprs es) :: st)
        ([.rbrack] ++ rest) h1 (by have := gexpr_pos he; show lvl (sh (topState st) .lbrack) < _; omega) (a := .rbrack) rfl (by simp [follow])
        (hfol _ _))
      have r4 := r3.trans (ReachX.shiftAt (t := .rbrack) h3)
      have r5 := r4.trans (ReachX.red3 hl (h4 a ha) rfl rfl)
      exact r5.trans (ReachX.red2 hl (h7 a ha) rfl rfl)

  theorem compl_prim {k : Last} {w : List (Tok F)} {e : Expr F} (h : GPrim k w e) (bad : Bool) (st : List (Nat × Val F))
      (rest : List (Tok F)) {a : Term} (hs : goto (topState st) .expr ≠ 0)
      (hl : lookahead bad rest = some a) (ha : a ∈ follow) (hf : Fol topStrength k a) :
      ReachX bad st (w ++ rest) ((goto (topState st) .expr, .expr e) :: st) rest := by
    obtain ⟨h1, h2, h3, h4, h5, h6, h7, h8, h9⟩ := tab_prim _ (goto_lt hs) hs
    obtain ⟨-, hf2, hf3, hf4⟩ := hf
    match h with
    | .literal (s := s) =>
      have r1 : ReachX bad st (.literal s :: rest) _ _ := ReachX.shift h3
      exact r1.trans (ReachX.red1 hl (h4 a ha) rfl rfl)
    | .float (f := f) =>
      have r1 : ReachX bad st (.float f :: rest) _ _ := ReachX.shift h5
      have r2 := r1.trans (ReachX.red1 hl (h6 a ha) rfl rfl)
      exact r2.trans (ReachX.red1 hl (h9 a ha) rfl rfl)
    | .integer (n := n) =>
      have r1 : ReachX bad st (.integer n :: rest) _ _ := ReachX.shift h7
      have r2 := r1.trans (ReachX.red1 hl (h8 a ha) rfl rfl)
      exact r2.trans (ReachX.red1 hl (h9 a ha) rfl rfl)
    | .var (n := n) hn =>
      obtain ⟨g1, g2, g3, -⟩ := tab_var _ (goto_lt hs) hs
      obtain ⟨g4, g5⟩ := g2 _ (isName_kind hn)
      obtain ⟨⟨X, Y, k1⟩, k2⟩ := act_var (t := .dollar) hn
      have r1 : ReachX bad st (.dollar :: n :: rest) _ _ := ReachX.shift g1
      have r2 := r1.trans (ReachX.shiftAt (t := n) g4)
      have r3 := r2.trans (ReachX.red2 hl (g5 a ha) k1 k2)
      exact r3.trans (ReachX.red1 hl (g3 a ha) rfl rfl)
    | .call (n := n) (w := w) (as := as) hn hargs =>
      obtain ⟨g1, g2, g3, g4, g5⟩ := tab_var _ (goto_lt hs) hs
      obtain ⟨-, -, -, k4⟩ := tab_testStart _ (goto_lt hs) g5
      obtain ⟨k1, k2, k3, k5, -⟩ := k4 _ (isName_kind hn)
      obtain ⟨⟨X, Y, m1⟩, m2⟩ := act_call hn as
      have r1 : ReachX bad st (n :: (w ++ rest)) _ _ := ReachX.shift k1
      have r2 := r1.trans (compl_args hargs bad ((sh (topState st) n.kind, .tok n) :: st) rest k3 hl ha)
      have r3 := r2.trans (ReachX.red2 hl (k5 a ha) m1 m2)
      exact r3.trans (ReachX.red1 hl (g4 a ha) rfl rfl)
    | .nil =>
      obtain ⟨g1, g2, g3, -⟩ := tab_seq _ (goto_lt hs) hs
      have r1 : ReachX bad st (.lparen :: .rparen :: rest) _ _ := ReachX.shift g1
      have r2 := r1.trans (ReachX.shiftAt (t := .rparen) g2)
      exact r2.trans (ReachX.red2 hl (g3 a ha) rfl rfl)
    | .seq (w := w) hh =>
      obtain ⟨g1, -, -, g4, g5, g6⟩ := tab_seq _ (goto_lt hs) hs
      rw [List.cons_append, List.append_assoc]
      have r1 : ReachX bad st (.lparen :: (w ++ ([.rparen] ++ rest))) _ _ := ReachX.shift g1
      have r2 := r1.trans (compl_list hh bad ((sh (topState st) .lparen, .tok .lparen) :: st)
        ([.rparen] ++ rest) (.inl rfl) (a := .rparen) g4 rfl
        (by simp))
      have r3 := r2.trans (ReachX.shiftAt (t := .rparen) g5)
      exact r3.trans (ReachX.red3 hl (g6 a ha) rfl rfl)
    | .root =>
      obtain ⟨g1, g2, -, -, -, g6, -⟩ := tab_abs _ (goto_lt hs) hs
      have r1 : ReachX bad st (.pathSep :: rest) _ _ := ReachX.shift g1
      have r2 := r1.trans (ReachX.red1 hl (g2 a ha (hf3 rfl)) rfl rfl)
      exact r2.trans (ReachX.red1 hl (g6 a ha) rfl rfl)
    | .abs (w := w) hr =>
      obtain ⟨g1, -, g3, g4, g5, g6, -⟩ := tab_abs _ (goto_lt hs) hs
      have r1 : ReachX bad st (.pathSep :: (w ++ rest)) _ _ := ReachX.shift g1
      have r2 := r1.trans (compl_rel hr bad ((sh (topState st) .pathSep, .tok .pathSep) :: st) rest g3 (fun _ => g4) hl ha)
      have r3 := r2.trans (ReachX.red2 hl (g5 a ha (hf2 rfl)) rfl rfl)
      exact r3.trans (ReachX.red1 hl (g6 a ha) rfl rfl)
    | .absAll (w := w) hr =>
      obtain ⟨-, -, -, -, -, -, g1, g3, g4, g5, g6⟩ := tab_abs _ (goto_lt hs) hs
      have r1 : ReachX bad st (.abbrevSep :: (w ++ rest)) _ _ := ReachX.shift g1
      have r2 := r1.trans (compl_rel hr bad ((sh (topState st) .abbrevSep, .tok .abbrevSep) :: st) rest g3 (fun _ => g4) hl ha)
      have r3 := r2.trans (ReachX.red2 hl (g5 a ha (hf2 rfl)) rfl rfl)
      exact r3.trans (ReachX.red1 hl (g6 a ha) rfl rfl)
    | .rel hr =>
      have r1 := compl_rel hr bad st rest h1 (fun h => by cases h) hl ha
      exact r1.trans (ReachX.red1 hl (h2 a ha (hf2 rfl)) rfl rfl)

  theorem compl_expr {l r : Nat} {k : Last} {w : List (Tok F)} {e : Expr F} (h : GExpr l r k w e) (bad : Bool)
      (st : List (Nat × Val F)) (rest : List (Tok F)) {a : Term} (hs : goto (topState st) .expr ≠ 0)
      (hlv : lvl (topState st) < l)
      (hl : lookahead bad rest = some a) (ha : a ∈ follow) (hf : Fol r k a) :
      ReachX bad st (w ++ rest) ((goto (topState st) .expr, .expr e) :: st) rest := by
    match h with
    | .prim hp => exact compl_prim hp bad st rest hs hl ha hf
    | .neg (w := w) he h7 =>
      obtain ⟨g1, g2, g3, g4⟩ := tab_neg _ (goto_lt hs) hs
      obtain ⟨f1, f2⟩ := hf
      have r1 : ReachX bad st (.minus :: (w ++ rest)) _ _ := ReachX.shift g1
      have r2 := r1.trans (compl_expr he bad ((sh (topState st) .minus, .tok .minus) :: st) rest g2
        (by rw [topState, g3]; exact h7) hl ha ⟨Nat.le_trans f1 (Nat.min_le_right _ _), f2⟩)
      exact r2.trans (ReachX.red2 hl (g4 a ha (Nat.le_trans f1 (Nat.min_le_left _ _))) rfl rfl)
    | .binary (r₁ := r₁) (k₁ := k₁) (w₁ := w₁) (e₁ := e₁) (o := o) (s := s) (w₂ := w₂) h1 ho h2 hr1 hl2 hk hb =>
      obtain ⟨f1, f2⟩ := hf
      have hof : o.kind ∈ binOps ∧ o.kind.level = s ∧ o.kind ∈ follow ∧ Fol r₁ k₁ o.kind := by
        have : o.kind ∈ binOps ∧ o.kind.level = s ∧ o.kind ∈ follow ∧ o.kind ≠ .pathSep ∧ o.kind ≠ .abbrevSep ∧
            o.kind ≠ .lbrack ∧ (¬ o.isName → o.kind ≠ .logical ∧ o.kind ≠ .divmod) := by
          cases o <;> simp [Tok.strength] at ho <;> subst ho <;>
            simp [Tok.kind, binOps, follow, Term.level, Tok.isName]
        obtain ⟨i1, i2, i3, i4, i5, i6, i7⟩ := this
        refine ⟨i1, i2, i3, by omega, fun _ => ⟨i4, i5⟩, fun hroot => ?_, fun _ => i6⟩
        exact i7 (fun hn => hk hn hroot)
      obtain ⟨o1, o2, o3, o4⟩ := hof
      obtain ⟨g1, g2, g3, g4⟩ := tab_binary _ (goto_lt hs) hs _ o1 (by omega)
      obtain ⟨⟨X, Y, Z, k1⟩, k2⟩ := act_binary ho hb
      rw [List.append_assoc]
      have r1 := compl_expr h1 bad st (o :: w₂ ++ rest) (a := o.kind) hs (by omega) rfl o3 o4
      have r2 := r1.trans (ReachX.shiftAt (t := o) g1)
      have r3 := r2.trans (compl_expr h2 bad ((sh (goto (topState st) .expr) o.kind, .tok o) :: (_, .expr e₁) :: st) rest g2
        (by rw [topState, g3, o2]; exact hl2) hl ha ⟨Nat.le_trans f1 (Nat.min_le_right _ _), f2⟩)
      exact r3.trans (ReachX.red3 hl (g4 a ha (by rw [o2]; exact Nat.le_trans f1 (Nat.min_le_left _ _))) k1 k2)
    | .slash (w₁ := w₁) (e₁ := e₁) (w₂ := w₂) h1 hk hr =>
      have hlv' : lvl (topState st) = 0 := by simp [suffixStrength] at hlv; exact hlv
      obtain ⟨g, -⟩ := tab_suffix _ (goto_lt hs) hs hlv'
      obtain ⟨g1, g2, g3, g4⟩ := g .pathSep (by simp)
      rw [List.append_assoc]
      have r1 := compl_expr h1 bad st (.pathSep :: w₂ ++ rest) (a := .pathSep) hs (by have := gexpr_pos h1; omega) rfl
        (by simp [follow])
        ⟨by have := gexpr_pos h1; simp only [Term.level]; omega, fun h => absurd h hk, by simp, by simp⟩
      have r2 := r1.trans (ReachX.shiftAt (t := .pathSep) g1)
      have r3 := r2.trans (compl_rel hr bad ((_, .tok .pathSep) :: (_, .expr e₁) :: st) rest g2 (fun _ => g3) hl ha)
      exact r3.trans (ReachX.red3 hl (g4 a ha (hf.2.1 rfl)) rfl rfl)
    | .dslash (w₁ := w₁) (e₁ := e₁) (w₂ := w₂) h1 hk hr =>
      have hlv' : lvl (topState st) = 0 := by simp [suffixStrength] at hlv; exact hlv
      obtain ⟨g, -⟩ := tab_suffix _ (goto_lt hs) hs hlv'
      obtain ⟨g1, g2, g3, g4⟩ := g .abbrevSep (by simp)
      rw [List.append_assoc]
      have r1 := compl_expr h1 bad st (.abbrevSep :: w₂ ++ rest) (a := .abbrevSep) hs (by have := gexpr_pos h1; omega) rfl
        (by simp [follow])
        ⟨by have := gexpr_pos h1; simp only [Term.level]; omega, fun h => absurd h hk, by simp, by simp⟩
      have r2 := r1.trans (ReachX.shiftAt (t := .abbrevSep) g1)
      have r3 := r2.trans (compl_rel hr bad ((_, .tok .abbrevSep) :: (_, .expr e₁) :: st) rest g2 (fun _ => g3) hl ha)
      exact r3.trans (ReachX.red3 hl (g4 a ha (hf.2.1 rfl)) rfl rfl)
    | .pred (w₁ := w₁) (e := e) (w₂ := w₂) h1 hk hp =>
      have hlv' : lvl (topState st) = 0 := by simp [suffixStrength] at hlv; exact hlv
      obtain ⟨-, g1, g2, g3, g4⟩ := tab_suffix _ (goto_lt hs) hs hlv'
      rw [List.append_assoc]
      have r1 := compl_expr h1 bad st (w₂ ++ rest) (a := .lbrack) hs (by have := gexpr_pos h1; omega)
        (gpreds_first hp bad rest) (by simp [follow])
        ⟨by have := gexpr_pos h1; simp only [Term.level]; omega, by simp, by simp, fun h => absurd h hk⟩
      have r2 := r1.trans (compl_preds hp bad ((_, .expr e) :: st) rest g2 g1 hl ha)
      have r3 := r2.trans (ReachX.red2 hl (g3 a ha (hf.2.2.2 rfl)) rfl rfl)
      exact r3.trans (ReachX.red1 hl (g4 a ha) rfl rfl)
end

end Amara.X
