import Verif.Lemmas.XDrive
import Verif.Lemmas.XLex
import Verif.Spec.XSerial
import Verif.Model.Serialize
/-
Serialised expressions: the tokens they consist of, and that these denote the expression.
-/
namespace Amara.X

variable {F : Type}

/-! ### Tokens of an expression -/

def testToks : Test → List (Tok F)
  | .name n => [nameTok n]
  | .star => [.star]
  | .node => [.name "node".toList, .lparen, .rparen]
  | .text => [.name "text".toList, .lparen, .rparen]

def arithTok : Arith → Tok F
  | .add => .plus
  | .sub => .minus
  | .mul => .star
  | .div => .divmod false
  | .mod => .divmod true

mutual
  def toks : Expr F → List (Tok F)
    | .lit (.str s) => [.literal s]
    | .lit (.int i) => [.integer i.toNat]
    | .lit (.float f) => [.float f]
    | .lit _ => []
    | .neg e => .minus :: toks e
    | .slash l r => toks l ++ .pathSep :: toks r
    | .dslash l r => toks l ++ .abbrevSep :: toks r
    | .union l r => toks l ++ .union :: toks r
    | .eq l r => toks l ++ .equal false :: toks r
    | .ne l r => toks l ++ .equal true :: toks r
    | .rel o l r => toks l ++ .rel o :: toks r
    | .or l r => toks l ++ .logical false :: toks r
    | .and l r => toks l ++ .logical true :: toks r
    | .arith o l r => toks l ++ arithTok o :: toks r
    | .abs none => [.pathSep]
    | .abs (some r) => .pathSep :: toks r
    | .absAll r => .abbrevSep :: toks r
    | .step .attribute t => .at :: testToks t
    | .step a t => .name a.name :: .axisSep :: testToks t
    | .test t => testToks t
    | .pred l ps => toks l ++ predToks ps
    | .dot => [.dot]
    | .dotdot => [.dotdot]
    | .var v => [.dollar, nameTok v]
    | .call f as => nameTok f :: .lparen :: (listToks as ++ [.rparen])
    | .seq es => .lparen :: (listToks es ++ [.rparen])
  def predToks : List (Expr F) → List (Tok F)
    | [] => []
    | p :: r => .lbrack :: (toks p ++ .rbrack :: predToks r)
  def listToks : List (Expr F) → List (Tok F)
    | [] => []
    | e :: r => toks e ++ tailToks r
  def tailToks : List (Expr F) → List (Tok F)
    | [] => []
    | e :: r => .comma :: (toks e ++ tailToks r)
end

theorem tailToks_snoc (es : List (Expr F)) (e : Expr F) : tailToks (es ++ [e]) = tailToks es ++ .comma :: toks e := by
  induction es with
  | nil => simp [tailToks]
  | cons x es ih => simp [tailToks, ih]

theorem listToks_snoc {es : List (Expr F)} (h : es ≠ []) (e : Expr F) :
    listToks (es ++ [e]) = listToks es ++ .comma :: toks e := by
  match es, h with
  | x :: es, _ => simp [listToks, tailToks_snoc]

theorem predToks_snoc (es : List (Expr F)) (e : Expr F) :
    predToks (es ++ [e]) = predToks es ++ .lbrack :: (toks e ++ [.rbrack]) := by
  induction es with
  | nil => simp [predToks]
  | cons x es ih => simp [predToks, ih]

theorem serializeTail_snoc (fo : FloatOps F) (es : List (Expr F)) (e : Expr F) :
    Expr.serializeTail fo (es ++ [e]) = Expr.serializeTail fo es ++ ',' :: e.serialize fo := by
  induction es with
  | nil => simp [Expr.serializeTail]
  | cons x es ih => simp [Expr.serializeTail, ih]

theorem serializeList_snoc (fo : FloatOps F) {es : List (Expr F)} (h : es ≠ []) (e : Expr F) :
    Expr.serializeList fo (es ++ [e]) = Expr.serializeList fo es ++ ',' :: e.serialize fo := by
  match es, h with
  | x :: es, _ => simp [Expr.serializeList, serializeTail_snoc]

theorem serializePreds_snoc (fo : FloatOps F) (es : List (Expr F)) (e : Expr F) :
    Expr.serializePreds fo (es ++ [e]) = Expr.serializePreds fo es ++ '[' :: (e.serialize fo ++ [']']) := by
  induction es with
  | nil => simp [Expr.serializePreds]
  | cons x es ih => simp [Expr.serializePreds, ih]

theorem cleanAll_snoc {fo : FloatOps F} {es : List (Expr F)} {e : Expr F} (h : CleanAll fo (es ++ [e])) :
    CleanAll fo es ∧ Clean fo e := by
  induction es with
  | nil => exact ⟨trivial, h.1⟩
  | cons x es ih =>
    obtain ⟨h1, h2⟩ := h
    exact ⟨⟨h1, (ih h2).1⟩, (ih h2).2⟩

/-! ### They denote the expression -/

theorem nameTok_name (n : Str) : (nameTok (F := F) n).isName ∧ (nameTok (F := F) n).word = n := by
  unfold nameTok
  repeat' split
  · rename_i h; exact ⟨trivial, h.symm⟩
  · rename_i h; exact ⟨trivial, h.symm⟩
  · rename_i h; exact ⟨trivial, h.symm⟩
  · rename_i h; exact ⟨trivial, h.symm⟩
  · exact ⟨trivial, rfl⟩

theorem toks_meaning {l r e : Expr F} {o : Tok F} (h : meaning l o r = some e) : toks e = toks l ++ o :: toks r := by
  unfold meaning at h
  split at h <;> first | (cases h; rfl) | (rename_i b; cases b <;> cases h <;> rfl) | cases h

theorem canon_test : ∀ (t : Test), GTest (F := F) true (testToks t) t
  | .name n => by
    have := GTest.name (b := true) (nameTok_name (F := F) n).1
    rwa [(nameTok_name (F := F) n).2] at this
  | .star => .star
  | .node => GTest.type (n := .name "node".toList) (w := [.lparen, .rparen]) (as := []) trivial .none (by rfl)
  | .text => GTest.type (n := .name "text".toList) (w := [.lparen, .rparen]) (as := []) trivial .none rfl

theorem axis_name (a : Axis) : (a.name, a) ∈ axisTable := by cases a <;> decide

theorem canon_axis (b : Bool) (a : Axis) (t : Test) : GStep (F := F) b (toks (.step a t)) (.step a t) := by
  by_cases h : a = .attribute
  · subst h
    exact .attr (canon_test t)
  · have : toks (F := F) (.step a t) = .name a.name :: .axisSep :: testToks t := by
      cases a <;> first | rfl | exact absurd rfl h
    rw [this]
    exact .axis (axis_name a) (canon_test t)

theorem canon_step {b : Bool} {w : List (Tok F)} {e : Expr F} (h : GStep b w e) (b' : Bool) : GStep b' (toks e) e := by
  cases h with
  | dot => exact .dot
  | dotdot => exact .dotdot
  | child => exact canon_axis b' _ _
  | attr => exact canon_axis b' _ _
  | axis => exact canon_axis b' _ _

theorem canon_rel : ∀ {b : Bool} {w : List (Tok F)} {e : Expr F}, GRel b w e → ∀ b', GRel b' (toks e) e
  | _, _, _, .step h, b' => .step (canon_step h b')
  | _, _, _, .slash h h', b' => .slash (canon_rel h b') (canon_step h' true)
  | _, _, _, .dslash h h', b' => .dslash (canon_rel h b') (canon_step h' true)

theorem canon_call {n : Str} {as : List (Expr F)} (h : GArgs (.lparen :: (listToks as ++ [.rparen])) as) :
    GPrim .closed (toks (called n as)) (called n as) := by
  unfold called
  split
  · exact .call (n := .name "text".toList) (w := [.lparen, .rparen]) (as := []) trivial .none
  split
  · exact .call (n := .name "node".toList) (w := [.lparen, .rparen]) (as := []) trivial .none
  · rename_i h1 h2
    have := GPrim.call (nameTok_name (F := F) n).1 h
    rw [(nameTok_name n).2, called, if_neg h1, if_neg h2] at this
    exact this

mutual
  theorem canon_args : ∀ {w : List (Tok F)} {as : List (Expr F)}, GArgs w as →
      GArgs (.lparen :: (listToks as ++ [.rparen])) as
    | _, _, .none => .none
    | _, _, .some h => .some (canon_list h).1
  theorem canon_list : ∀ {w : List (Tok F)} {es : List (Expr F)}, GList w es → GList (listToks es) es ∧ es ≠ []
    | _, _, .one (e := e) h => by
      have : listToks [e] = toks e := by simp [listToks, tailToks]
      rw [this]
      exact ⟨.one (canon_expr h), by simp⟩
    | _, _, .more h h' => by
      obtain ⟨h1, h2⟩ := canon_list h
      rw [listToks_snoc h2]
      exact ⟨.more h1 (canon_expr h'), by simp⟩
  theorem canon_preds : ∀ {w : List (Tok F)} {es : List (Expr F)}, GPreds w es → GPreds (predToks es) es
    | _, _, .one h => .one (canon_expr h)
    | _, _, .more h h' => by
      rw [predToks_snoc]
      exact .more (canon_preds h) (canon_expr h')
  theorem canon_prim : ∀ {k : Last} {w : List (Tok F)} {e : Expr F}, GPrim k w e → GPrim k (toks e) e
    | _, _, _, .literal => .literal
    | _, _, _, .float => .float
    | _, _, _, .integer => .integer
    | _, _, _, .var (n := n) _ => by
      have := GPrim.var (nameTok_name (F := F) n.word).1
      rwa [(nameTok_name n.word).2] at this
    | _, _, _, .call _ h => canon_call (canon_args h)
    | _, _, _, .nil => .nil
    | _, _, _, .seq h => .seq (canon_list h).1
    | _, _, _, .root => .root
    | _, _, _, .abs h => .abs (canon_rel h true)
    | _, _, _, .absAll h => .absAll (canon_rel h true)
    | _, _, _, .rel h => .rel (canon_rel h false)
  theorem canon_expr : ∀ {l r : Nat} {k : Last} {w : List (Tok F)} {e : Expr F}, GExpr l r k w e → GExpr l r k (toks e) e
    | _, _, _, _, _, .prim h => .prim (canon_prim h)
    | _, _, _, _, _, .neg h h' => .neg (canon_expr h) h'
    | _, _, _, _, _, .binary h1 ho h2 hr hl hn hm => by
      rw [toks_meaning hm]
      exact .binary (canon_expr h1) ho (canon_expr h2) hr hl hn hm
    | _, _, _, _, _, .slash h hk h' => .slash (canon_expr h) hk (canon_rel h' true)
    | _, _, _, _, _, .dslash h hk h' => .dslash (canon_expr h) hk (canon_rel h' true)
    | _, _, _, _, _, .pred h hk h' => .pred (canon_expr h) hk (canon_preds h')
end

/-- The tokens of an expression denote it. -/
theorem toks_denote {w : List (Tok F)} {e : Expr F} (h : Denotes w e) : Denotes (toks e) e := by
  obtain ⟨l, r, k, h⟩ := h
  exact ⟨l, r, k, canon_expr h⟩

/-! ### The text is a way to write them -/

/-- The text `s` writes the tokens, whatever comes after that does not make the last one longer. -/
def Writes (fo : FloatOps F) (ts : List (Tok F)) (s : Str) : Prop :=
  ∀ i t, ts = i ++ [t] → ∀ ts' r, Written fo ts' r → Ends t r → Written fo (ts ++ ts') (s ++ r)

theorem written_blank {fo : FloatOps F} {ts : List (Tok F)} {s b : Str} (hb : XBlank b) (h : Written fo ts s) :
    Written fo ts (b ++ s) := by
  have happ : ∀ b' : Str, XBlank b' → XBlank (b ++ b') := fun b' h' c hc =>
    (List.mem_append.mp hc).elim (hb c) (h' c)
  cases h with
  | nil h => exact .nil (happ _ h)
  | cons h h1 h2 h3 =>
    rw [← List.append_assoc]
    exact .cons (happ _ h) h1 h2 h3

theorem writes_one {fo : FloatOps F} {t : Tok F} {u : Str} (h : SpellsTok fo t u) : Writes fo [t] u := by
  intro i t' hi ts' r hw he
  have : t' = t := by
    cases i with
    | nil => cases hi; rfl
    | cons x i =>
      injection hi with _ hi
      simp at hi
  subst this
  exact .cons (b := []) (fun c hc => by cases hc) h he hw

theorem snoc_append {a b i : List (Tok F)} {t : Tok F} (hb : b ≠ []) (h : a ++ b = i ++ [t]) : ∃ j, b = j ++ [t] := by
  have h1 := congrArg List.getLast? h
  rw [List.getLast?_append, List.getLast?_append] at h1
  match hl : b.getLast? with
  | none => exact absurd (List.getLast?_eq_none_iff.mp hl) hb
  | some x =>
    rw [hl] at h1
    simp at h1
    subst h1
    exact List.getLast?_eq_some_iff.mp hl

theorem writes_append {fo : FloatOps F} {a b i : List (Tok F)} {t : Tok F} {s s' : Str} (ha : Writes fo a s)
    (hb : Writes fo b s') (hi : a = i ++ [t]) (he : ∀ r, Ends t (s' ++ r)) (hn : b ≠ []) : Writes fo (a ++ b) (s ++ s') := by
  intro j t' hj ts' r hw hr
  obtain ⟨j', hj'⟩ := snoc_append hn hj
  rw [List.append_assoc, List.append_assoc]
  exact ha i t hi _ _ (hb j' t' hj' ts' r hw hr) (he r)

theorem writes_cons {fo : FloatOps F} {t : Tok F} {u : Str} {b : List (Tok F)} {s' : Str} (ht : SpellsTok fo t u)
    (hb : Writes fo b s') (he : ∀ r, Ends t (s' ++ r)) (hn : b ≠ []) : Writes fo (t :: b) (u ++ s') :=
  writes_append (a := [t]) (i := []) (writes_one ht) hb rfl he hn

/-- What comes after an expression. -/
def stops : Str := [' ', '/', '|', '=', '!', '<', '>', '+', '-', '[', ']', ')', ',', '(', ':']

/-- What an expression does not end with. -/
def Closing (t : Tok F) : Prop := ∀ o, t ≠ .rel o

theorem stops_facts : ∀ c ∈ stops, isDigit c = false ∧ c ≠ '.' ∧ c ≠ Char.ofNat 0xc0 ∧ (c = '-' ∨ lexNameChar c = false) := by
  decide +kernel

theorem ends_stop {t : Tok F} {c : Char} (hc : c ∈ stops) (ht : Closing t) (h1 : t.isName → c ≠ '-')
    (h2 : t = .pathSep → c ≠ '/') (r : Str) : Ends t (c :: r) := by
  obtain ⟨g1, g2, g3, g4⟩ := stops_facts c hc
  have g1 : ¬ Digits [c] := fun h => by rw [(isDigit_iff c).mpr h] at g1; cases g1
  have n1 : t.isName → ¬ Begins XNameChar (c :: r) ∧ ¬ slip <+: (c :: r) := by
    intro hn
    constructor
    · rintro ⟨d, s, h, hd⟩
      cases h
      rw [← nameChar_iff] at hd
      rcases g4 with g4 | g4
      · exact h1 hn g4
      · rw [g4] at hd
        cases hd
    · rintro ⟨s, h⟩
      rw [slip_cons] at h
      injection h with h _
      exact g3 h.symm
  have n2 : ¬ Begins (fun c => Digits [c]) (c :: r) := by
    rintro ⟨d, s, h, hd⟩
    cases h
    exact g1 hd
  have n3 : ¬ Begins (fun c => Digits [c] ∨ c = '.') (c :: r) := by
    rintro ⟨d, s, h, hd⟩
    cases h
    exact hd.elim g1 g2
  cases t with
  | name | logical | divmod => exact n1 trivial
  | integer | dot => exact n3
  | float => exact n2
  | pathSep =>
    rintro ⟨d, s, h, hd⟩
    cases h
    exact h2 rfl hd
  | rel o => exact absurd rfl (ht o)
  | _ => trivial

/-- A text of tokens: how it begins and how it ends. -/
structure Fine (fo : FloatOps F) (ts : List (Tok F)) (s : Str) (nm rt : Bool) : Prop where
  writes : Writes fo ts s
  first : Begins (· ≠ '=') s
  last : ∃ i t, ts = i ++ [t] ∧ Closing t ∧ (t.isName → nm = true) ∧ (t = .pathSep → rt = true)

theorem Fine.weaken {fo : FloatOps F} {ts : List (Tok F)} {s : Str} {nm rt : Bool} (h : Fine fo ts s nm rt) :
    Fine fo ts s true true :=
  ⟨h.writes, h.first, by
    obtain ⟨i, t, h1, h2, -, -⟩ := h.last
    exact ⟨i, t, h1, h2, fun _ => rfl, fun _ => rfl⟩⟩

theorem Fine.ne {fo : FloatOps F} {ts : List (Tok F)} {s : Str} {nm rt : Bool} (h : Fine fo ts s nm rt) : ts ≠ [] := by
  obtain ⟨i, t, h1, -⟩ := h.last
  simp [h1]

theorem begins_append {P : Char → Prop} {s : Str} (h : Begins P s) (r : Str) : Begins P (s ++ r) := by
  obtain ⟨c, s', rfl, h⟩ := h
  exact ⟨c, s' ++ r, rfl, h⟩

/-- One token alone. -/
theorem Fine.one {fo : FloatOps F} {t : Tok F} {u : Str} (h : SpellsTok fo t u) (hb : Begins (· ≠ '=') u) (hc : Closing t)
    {nm rt : Bool} (h1 : t.isName → nm = true) (h2 : t = .pathSep → rt = true) : Fine fo [t] u nm rt :=
  ⟨writes_one h, hb, [], t, rfl, hc, h1, h2⟩

/-- A text after another one, which stops it. -/
theorem Fine.append {fo : FloatOps F} {a b : List (Tok F)} {s s' : Str} {nm rt nm' rt' : Bool} (ha : Fine fo a s nm rt)
    (hb : Fine fo b s' nm' rt') {c : Char} {r : Str} (hs : s' = c :: r) (hc : c ∈ stops) (h1 : nm = true → c ≠ '-')
    (h2 : rt = true → c ≠ '/') : Fine fo (a ++ b) (s ++ s') nm' rt' := by
  obtain ⟨i, t, hi, hcl, g1, g2⟩ := ha.last
  obtain ⟨j, t', hj, hcl', g1', g2'⟩ := hb.last
  refine ⟨writes_append ha.writes hb.writes hi ?_ hb.ne, begins_append ha.first s', i ++ (t :: j), t', ?_, hcl', g1', g2'⟩
  · intro x
    rw [hs]
    exact ends_stop hc hcl (fun h => h1 (g1 h)) (fun h => h2 (g2 h)) _
  · rw [hi, hj]
    simp

/-- A token in front of a text. -/
theorem Fine.cons {fo : FloatOps F} {t : Tok F} {u : Str} {b : List (Tok F)} {s : Str} {nm rt : Bool} (ht : SpellsTok fo t u)
    (hu : Begins (· ≠ '=') u) (hb : Fine fo b s nm rt) (he : ∀ r, Ends t (s ++ r)) : Fine fo (t :: b) (u ++ s) nm rt := by
  obtain ⟨j, t', hj, hcl', g1', g2'⟩ := hb.last
  exact ⟨writes_cons ht hb.writes he hb.ne, begins_append hu s, t :: j, t', by rw [hj]; rfl, hcl', g1', g2'⟩

/-- A text, an operator and another text. -/
theorem Fine.infix {fo : FloatOps F} {a b : List (Tok F)} {s s' u : Str} {o : Tok F} {nm rt nm' rt' : Bool}
    (ha : Fine fo a s nm rt) (hb : Fine fo b s' nm' rt') (ho : SpellsTok fo o u) {c : Char} {r : Str} (hu : u = c :: r)
    (hc : c ∈ stops) (h1 : nm = true → c ≠ '-') (h2 : rt = true → c ≠ '/') (he : ∀ x, Ends o (s' ++ x)) :
    Fine fo (a ++ o :: b) (s ++ (u ++ s')) nm' rt' := by
  obtain ⟨i, t, hi, hcl, g1, g2⟩ := ha.last
  obtain ⟨j, t', hj, hcl', g1', g2'⟩ := hb.last
  refine ⟨writes_append ha.writes (writes_cons ho hb.writes he hb.ne) hi ?_ (by simp), begins_append ha.first _,
    i ++ (t :: o :: j), t', ?_, hcl', g1', g2'⟩
  · intro x
    rw [hu]
    exact ends_stop hc hcl (fun h => h1 (g1 h)) (fun h => h2 (g2 h)) _
  · rw [hi, hj]
    simp

/-- The same with blanks around the operator. -/
theorem Fine.infixWord {fo : FloatOps F} {a b : List (Tok F)} {s s' u : Str} {o : Tok F} {nm rt nm' rt' : Bool}
    (ha : Fine fo a s nm rt) (hb : Fine fo b s' nm' rt') (ho : SpellsTok fo o u) (he : ∀ x, Ends o (' ' :: x)) :
    Fine fo (a ++ o :: b) (s ++ (' ' :: (u ++ ' ' :: s'))) nm' rt' := by
  obtain ⟨i, t, hi, hcl, g1, g2⟩ := ha.last
  obtain ⟨j, t', hj, hcl', g1', g2'⟩ := hb.last
  have hw : Writes fo (o :: b) (' ' :: (u ++ ' ' :: s')) := by
    intro i t hi ts' r hw hr
    obtain ⟨j, hj⟩ := snoc_append (a := [o]) hb.ne hi
    have h1 := written_blank (b := [' ']) (by simp [XBlank]) (hb.writes j t hj ts' r hw hr)
    have h2 := Written.cons (b := [' ']) (by simp [XBlank]) ho (he (s' ++ r)) h1
    simpa using h2
  refine ⟨writes_append ha.writes hw hi ?_ (by simp), begins_append ha.first _, i ++ (t :: o :: j), t', ?_, hcl', g1', g2'⟩
  · intro x
    exact ends_stop (by decide) hcl (fun h => by decide) (fun h => by decide) _
  · rw [hi, hj]
    simp

/-! ### Names and numbers -/

theorem xname_ascii {c : Char} {r : Str} (hc : lexNameStart c = true) (hr : ∀ d ∈ r, lexNameChar d = true) : XName (c :: r) := by
  refine .char ((nameStart_iff c).mp hc) ?_
  clear hc
  induction r with
  | nil => exact .nil
  | cons d r ih => exact .char ((nameChar_iff d).mp (hr d (by simp))) (ih fun x hx => hr x (by simp [hx]))

theorem spells_nameTok (fo : FloatOps F) {n : Str} (h : XName n) : SpellsTok fo (nameTok n) n :=
  (nameTok_spells fo (r := []) h (not_begins_nil _) (by rintro ⟨t, h⟩; cases h)).1

theorem closing_nameTok (n : Str) : Closing (nameTok (F := F) n) := by
  intro o h
  have := (nameTok_name (F := F) n).1
  rw [h] at this
  exact this

theorem begins_name {n : Str} (h : XName n) : Begins (fun c => c ≠ '=' ∧ c ≠ '/') n := by
  have : lexNameStart '=' = false ∧ lexNameStart '/' = false := by decide +kernel
  cases h with
  | @char c r hc _ =>
    refine ⟨c, r, rfl, ?_, ?_⟩ <;> rintro rfl
    · rw [(nameStart_iff _).mpr hc] at this
      cases this.1
    · rw [(nameStart_iff _).mpr hc] at this
      cases this.2
  | @slip r _ => exact ⟨Char.ofNat 0xc0, '-' :: Char.ofNat 0xd6 :: ']' :: r, rfl, by decide, by decide⟩

theorem Begins.mono {P Q : Char → Prop} {s : Str} (h : Begins P s) (hPQ : ∀ c, P c → Q c) : Begins Q s := by
  obtain ⟨c, r, rfl, h⟩ := h
  exact ⟨c, r, rfl, hPQ c h⟩

/-- The tokens can be written. -/
def Spellable (fo : FloatOps F) (w : List (Tok F)) : Prop := ∀ t ∈ w, ∃ u, SpellsTok fo t u

theorem xname_of {fo : FloatOps F} {n : Tok F} (h : n.isName) {w : List (Tok F)} (hs : Spellable fo w) (hn : n ∈ w) :
    XName n.word := by
  obtain ⟨u, hu⟩ := hs n hn
  cases hu with
  | name h' => exact h'
  | or => exact word_name (by simp [opWords, Tok.word])
  | and => exact word_name (by simp [opWords, Tok.word])
  | div => exact word_name (by simp [opWords, Tok.word])
  | mod => exact word_name (by simp [opWords, Tok.word])
  | _ => exact absurd h (by simp [Tok.isName])

theorem spells_int (fo : FloatOps F) (n : Nat) :
    SpellsTok fo (.integer n) ((toString (n : Int)).toList) ∧ Begins (· ≠ '=') ((toString (n : Int)).toList) := by
  have h1 : (toString (n : Int)).toList = Nat.toDigits 10 n := Nat.toList_repr
  have hd : ∀ c ∈ Nat.toDigits 10 n, 0x30 ≤ c.toNat ∧ c.toNat ≤ 0x39 := fun c hc =>
    Char.isDigit_iff_toNat.mp (Nat.isDigit_of_mem_toDigits (by decide) (by decide) hc)
  have h2 : Digits (Nat.toDigits 10 n) := fun c hc => ⟨(0x30, 0x39), by simp, hd c hc⟩
  have h3 : decimal (Nat.toDigits 10 n) 0 = n := by
    have : ∀ (l : Str) (m : Nat), decimal l m = Nat.ofDigitChars 10 l m := by
      intro l
      induction l with
      | nil => intro m; simp [decimal]
      | cons c l ih => intro m; rw [decimal, ih, Nat.ofDigitChars_cons]; rfl
    rw [this]
    exact Nat.ofDigitChars_ten_toDigits
  have h4 : Nat.toDigits 10 n ≠ [] := Nat.toDigits_ne_nil
  rw [h1]
  refine ⟨?_, ?_⟩
  · have := SpellsTok.integer (fo := fo) h2 h4
    rwa [h3] at this
  · match hx : Nat.toDigits 10 n, h4 with
    | c :: r, _ =>
      refine ⟨c, r, rfl, ?_⟩
      rintro rfl
      have := hd '=' (by rw [hx]; simp)
      exact absurd this (by decide)

theorem begins_float {fo : FloatOps F} {f : F} {u : Str} (h : SpellsTok fo (.float f) u) : Begins (· ≠ '=') u := by
  cases h with
  | @float a b _ ha hb _ _ =>
    cases a with
    | nil => exact ⟨'.', b, rfl, by decide⟩
    | cons c a =>
      refine ⟨c, a ++ '.' :: b, rfl, ?_⟩
      rintro rfl
      obtain ⟨x, hx, h⟩ := ha '=' (by simp)
      simp at hx
      subst hx
      exact absurd h (by decide)

/-! ### Steps and paths -/

def isNm : Test → Bool
  | .name _ => true
  | _ => false

theorem closing_rparen : Closing (Tok.rparen : Tok F) := fun _ h => by cases h

theorem ends_open {n : Str} (r : Str) : Ends (F := F) (nameTok n) ('(' :: r) :=
  ends_stop (by decide) (closing_nameTok n) (fun _ => by decide) (fun _ => by decide) r

theorem fine_nodeType (fo : FloatOps F) {n : Str} (h : XName n) (nm : Bool) :
    Fine fo [nameTok n, .lparen, .rparen] (n ++ ['(', ')']) nm false :=
  .cons (spells_nameTok fo h) ((begins_name h).mono fun _ h => h.1)
    (.cons (u := ['(']) .lparen ⟨_, _, rfl, by decide⟩
      (.one .rparen ⟨_, _, rfl, by decide⟩ closing_rparen (fun h => h.elim) (fun h => by cases h)) (fun _ => trivial))
    (fun r => ends_open _)

theorem fine_test (fo : FloatOps F) (t : Test) (h : ∀ n, t = .name n → XName n) :
    Fine fo (testToks t) t.serialize (isNm t) false := by
  cases t with
  | name n =>
    have hn := h n rfl
    exact .one (spells_nameTok fo hn) ((begins_name hn).mono fun _ h => h.1) (closing_nameTok n) (fun _ => rfl)
      (fun h => by have := (nameTok_name (F := F) n).1; rw [h] at this; exact this.elim)
  | star => exact .one .star ⟨_, _, rfl, by decide⟩ (fun _ h => by cases h) (fun h => h.elim) (fun h => by cases h)
  | node => exact fine_nodeType fo (n := "node".toList) (xname_ascii (c := 'n') (r := "ode".toList) (by decide +kernel) (by decide +kernel)) _
  | text => exact fine_nodeType fo (n := "text".toList) (xname_ascii (c := 't') (r := "ext".toList) (by decide +kernel) (by decide +kernel)) _

theorem xname_axis (a : Axis) : XName a.name := by
  cases a <;> exact xname_ascii (by decide +kernel) (by decide +kernel)

theorem axis_word (a : Axis) : nameTok (F := F) a.name = .name a.name := by cases a <;> rfl

theorem endsName_step (a : Axis) (t : Test) : endsName (F := F) (.step a t) = isNm t := by cases t <;> rfl

theorem begins_test {t : Test} (h : ∀ n, t = .name n → XName n) : Begins (fun c => c ≠ '=' ∧ c ≠ '/') t.serialize := by
  cases t with
  | name n => exact begins_name (h n rfl)
  | star => exact ⟨_, _, rfl, by decide, by decide⟩
  | node => exact ⟨'n', _, rfl, by decide, by decide⟩
  | text => exact ⟨'t', _, rfl, by decide, by decide⟩

theorem fine_axis (fo : FloatOps F) (a : Axis) (t : Test) (h : ∀ n, t = .name n → XName n) :
    Fine fo (toks (.step a t)) ((Expr.step a t).serialize fo) (endsName (F := F) (.step a t)) false ∧
    Begins (· ≠ '/') ((Expr.step a t).serialize fo) := by
  have ht := fine_test fo t h
  rw [endsName_step]
  by_cases ha : a = .attribute
  · subst ha
    exact ⟨.cons (u := ['@']) .at ⟨_, _, rfl, by decide⟩ ht (fun _ => trivial), ⟨_, _, rfl, by decide⟩⟩
  · have h1 : toks (F := F) (.step a t) = nameTok a.name :: .axisSep :: testToks t := by
      rw [axis_word]
      cases a <;> first | rfl | exact absurd rfl ha
    have h2 : (Expr.step a t).serialize fo = a.name ++ ([':', ':'] ++ t.serialize) := by
      cases a <;> first | (rw [← List.append_assoc]; rfl) | exact absurd rfl ha
    rw [h1, h2]
    have hx := xname_axis a
    exact ⟨.cons (spells_nameTok fo hx) ((begins_name hx).mono fun _ h => h.1)
      (.cons (u := [':', ':']) .axisSep ⟨_, _, rfl, by decide⟩ ht (fun _ => trivial))
      (fun r => ends_stop (by decide) (closing_nameTok _) (fun _ => by decide) (fun _ => by decide) _),
      begins_append ((begins_name hx).mono fun _ h => h.2) _⟩

theorem test_names {fo : FloatOps F} {b : Bool} {w : List (Tok F)} {t : Test} (h : GTest b w t) (hs : Spellable fo w) :
    ∀ n, t = .name n → XName n := by
  intro n hn
  cases h with
  | star => cases hn
  | name h => cases hn; exact xname_of h hs (by simp)
  | type _ _ h =>
    subst hn
    unfold called at h
    split at h
    · cases h
    split at h <;> cases h

theorem fine_step {fo : FloatOps F} {b : Bool} {w : List (Tok F)} {e : Expr F} (h : GStep b w e) (hs : Spellable fo w) :
    Fine fo (toks e) (e.serialize fo) (endsName e) false ∧ Begins (· ≠ '/') (e.serialize fo) := by
  cases h with
  | dot => exact ⟨.one .dot ⟨_, _, rfl, by decide⟩ (fun _ h => by cases h) (fun h => h.elim) (fun h => by cases h),
      ⟨_, _, rfl, by decide⟩⟩
  | dotdot => exact ⟨.one .dotdot ⟨_, _, rfl, by decide⟩ (fun _ h => by cases h) (fun h => h.elim) (fun h => by cases h),
      ⟨_, _, rfl, by decide⟩⟩
  | child h => exact fine_axis fo _ _ (test_names h hs)
  | attr h => exact fine_axis fo _ _ (test_names h fun t ht => hs t (by simp [ht]))
  | axis _ h => exact fine_axis fo _ _ (test_names h fun t ht => hs t (by simp [ht]))

theorem ends_slash {s : Str} (h : Begins (· ≠ '/') s) (r : Str) : Ends (F := F) .pathSep (s ++ r) := by
  obtain ⟨c, s', rfl, h⟩ := h
  rintro ⟨d, r', hr, hd⟩
  cases hr
  exact h hd

theorem Spellable.left {fo : FloatOps F} {a b : List (Tok F)} (h : Spellable fo (a ++ b)) : Spellable fo a :=
  fun t ht => h t (by simp [ht])
theorem Spellable.right {fo : FloatOps F} {a b : List (Tok F)} (h : Spellable fo (a ++ b)) : Spellable fo b :=
  fun t ht => h t (by simp [ht])
theorem Spellable.tail {fo : FloatOps F} {a : Tok F} {b : List (Tok F)} (h : Spellable fo (a :: b)) : Spellable fo b :=
  fun t ht => h t (by simp [ht])

theorem Fine.slash {fo : FloatOps F} {a b : List (Tok F)} {s s' : Str} {nm nm' rt' : Bool}
    (ha : Fine fo a s nm false) (hb : Fine fo b s' nm' rt') (h : Begins (· ≠ '/') s') :
    Fine fo (a ++ .pathSep :: b) (s ++ ['/'] ++ s') nm' rt' := by
  rw [List.append_assoc]
  exact .infix ha hb .pathSep rfl (by decide) (fun _ => by decide) (fun h => by cases h) (ends_slash h)

theorem Fine.dslash {fo : FloatOps F} {a b : List (Tok F)} {s s' : Str} {nm nm' rt' : Bool}
    (ha : Fine fo a s nm false) (hb : Fine fo b s' nm' rt') :
    Fine fo (a ++ .abbrevSep :: b) (s ++ ['/', '/'] ++ s') nm' rt' := by
  rw [List.append_assoc]
  exact .infix ha hb .abbrevSep rfl (by decide) (fun _ => by decide) (fun h => by cases h) (fun _ => trivial)

theorem fine_rel {fo : FloatOps F} : ∀ {b : Bool} {w : List (Tok F)} {e : Expr F}, GRel b w e → Spellable fo w →
    Fine fo (toks e) (e.serialize fo) (endsName e) false ∧ Begins (· ≠ '/') (e.serialize fo) ∧ endsRoot e = false
  | _, _, _, .step h, hs => by
    obtain ⟨h1, h2⟩ := fine_step h hs
    exact ⟨h1, h2, by cases h <;> rfl⟩
  | _, _, _, .slash h h', hs => by
    obtain ⟨h1, h2, -⟩ := fine_rel h hs.left
    obtain ⟨h3, h4⟩ := fine_step h' hs.right.tail
    refine ⟨.slash h1 h3 h4, ?_, by cases h' <;> rfl⟩
    rw [Expr.serialize, infix', List.append_assoc]
    exact begins_append h2 _
  | _, _, _, .dslash h h', hs => by
    obtain ⟨h1, h2, -⟩ := fine_rel h hs.left
    obtain ⟨h3, h4⟩ := fine_step h' hs.right.tail
    refine ⟨.dslash h1 h3, ?_, by cases h' <;> rfl⟩
    rw [Expr.serialize, infix', List.append_assoc]
    exact begins_append h2 _

/-! ### Expressions -/

theorem ends_word (o : Tok F) (h : o.isName) (x : Str) : Ends o (' ' :: x) :=
  ends_stop (by decide) (fun o' ho => by rw [ho] at h; exact h) (fun _ => by decide) (fun _ => by decide) x

theorem fine_meaning {fo : FloatOps F} {l r e : Expr F} {o : Tok F} (hm : meaning l o r = some e) (hc : Clean fo e)
    (hl : Clean fo l → Fine fo (toks l) (l.serialize fo) (endsName l) (endsRoot l))
    (hr : Clean fo r → Fine fo (toks r) (r.serialize fo) (endsName r) (endsRoot r)) :
    Fine fo (toks e) (e.serialize fo) (endsName e) (endsRoot e) := by
  have eq : ∀ {s : Str}, Begins (· ≠ '=') s → ∀ x, ¬ Begins (· = '=') (s ++ x) := by
    rintro s ⟨c, s', rfl, h⟩ x ⟨d, r', hr, hd⟩
    cases hr
    exact h hd
  cases o with
  | logical b =>
    cases b <;> cases hm
    · replace hc : Clean fo l ∧ Clean fo r := hc
      have := Fine.infixWord (hl hc.1) (hr hc.2) .or (ends_word _ trivial)
      simpa [toks, Expr.serialize, infix', endsName, endsRoot] using this
    · replace hc : Clean fo l ∧ Clean fo r := hc
      have := Fine.infixWord (hl hc.1) (hr hc.2) .and (ends_word _ trivial)
      simpa [toks, Expr.serialize, infix', endsName, endsRoot] using this
  | divmod b =>
    cases b <;> cases hm
    · simp only [if_false, Bool.false_eq_true, Clean] at hc
      have := Fine.infixWord (hl hc.1) (hr hc.2) .div (ends_word _ trivial)
      simpa [toks, Expr.serialize, infix', endsName, endsRoot, arithTok, Arith.name] using this
    · simp only [if_true, Clean] at hc
      have := Fine.infixWord (hl hc.1) (hr hc.2) .mod (ends_word _ trivial)
      simpa [toks, Expr.serialize, infix', endsName, endsRoot, arithTok, Arith.name] using this
  | equal b =>
    cases b <;> cases hm
    · simp only [if_false, Bool.false_eq_true, Clean] at hc
      have := Fine.infix (hl hc.1) (hr hc.2) .eq rfl (by decide) (fun _ => by decide) (fun _ => by decide) (fun _ => trivial)
      simpa [toks, Expr.serialize, infix', endsName, endsRoot] using this
    · simp only [if_true, Clean] at hc
      have := Fine.infix (hl hc.1) (hr hc.2) .ne rfl (by decide) (fun _ => by decide) (fun _ => by decide) (fun _ => trivial)
      simpa [toks, Expr.serialize, infix', endsName, endsRoot] using this
  | rel c =>
    cases hm
    simp only [Clean] at hc
    cases c with
    | lt =>
      have := Fine.infix (hl hc.1) (hr hc.2) .lt rfl (by decide) (fun _ => by decide) (fun _ => by decide) (eq (hr hc.2).first)
      simpa [toks, Expr.serialize, infix', endsName, endsRoot, Rel.name] using this
    | gt =>
      have := Fine.infix (hl hc.1) (hr hc.2) .gt rfl (by decide) (fun _ => by decide) (fun _ => by decide) (eq (hr hc.2).first)
      simpa [toks, Expr.serialize, infix', endsName, endsRoot, Rel.name] using this
    | le =>
      have := Fine.infix (hl hc.1) (hr hc.2) .le rfl (by decide) (fun _ => by decide) (fun _ => by decide) (fun _ => trivial)
      simpa [toks, Expr.serialize, infix', endsName, endsRoot, Rel.name] using this
    | ge =>
      have := Fine.infix (hl hc.1) (hr hc.2) .ge rfl (by decide) (fun _ => by decide) (fun _ => by decide) (fun _ => trivial)
      simpa [toks, Expr.serialize, infix', endsName, endsRoot, Rel.name] using this
  | plus =>
    cases hm
    simp only [Clean] at hc
    have := Fine.infix (hl hc.1) (hr hc.2) .plus rfl (by decide) (fun _ => by decide) (fun _ => by decide) (fun _ => trivial)
    simpa [toks, Expr.serialize, infix', endsName, endsRoot, arithTok, Arith.name] using this
  | minus =>
    cases hm
    simp only [Clean] at hc
    have := Fine.infix (hl hc.1) (hr hc.2.1) .minus rfl (by decide) (fun h => by rw [hc.2.2] at h; cases h) (fun _ => by decide)
      (fun _ => trivial)
    simpa [toks, Expr.serialize, infix', endsName, endsRoot, arithTok, Arith.name] using this
  | union =>
    cases hm
    simp only [Clean] at hc
    have := Fine.infix (hl hc.1) (hr hc.2) .union rfl (by decide) (fun _ => by decide) (fun _ => by decide) (fun _ => trivial)
    simpa [toks, Expr.serialize, infix', endsName, endsRoot] using this
  | _ => cases hm

/-- Parentheses around a list. -/
theorem Fine.parens {fo : FloatOps F} {ts : List (Tok F)} {s : Str} (h : Fine fo ts s true true) (nm rt : Bool) :
    Fine fo (.lparen :: (ts ++ [.rparen])) (['('] ++ s ++ [')']) nm rt := by
  rw [List.append_assoc]
  exact .cons .lparen ⟨_, _, rfl, by decide⟩
    (.append h (.one .rparen ⟨_, _, rfl, by decide⟩ closing_rparen (fun h => h.elim) (fun h => by cases h)) rfl (by decide)
      (fun _ => by decide) (fun _ => by decide)) (fun _ => trivial)

theorem Fine.noParens {fo : FloatOps F} (nm rt : Bool) : Fine fo [.lparen, .rparen] ['(', ')'] nm rt :=
  .cons (u := ['(']) .lparen ⟨_, _, rfl, by decide⟩
    (.one .rparen ⟨_, _, rfl, by decide⟩ closing_rparen (fun h => h.elim) (fun h => by cases h)) (fun _ => trivial)

/-- Brackets around an expression. -/
theorem Fine.brackets {fo : FloatOps F} {ts : List (Tok F)} {s : Str} (h : Fine fo ts s true true) (nm rt : Bool) :
    Fine fo (.lbrack :: (ts ++ [.rbrack])) ('[' :: (s ++ [']'])) nm rt :=
  .cons (u := ['[']) .lbrack ⟨_, _, rfl, by decide⟩
    (.append h (.one .rbrack ⟨_, _, rfl, by decide⟩ (fun _ h => by cases h) (fun h => h.elim) (fun h => by cases h)) rfl
      (by decide) (fun _ => by decide) (fun _ => by decide)) (fun _ => trivial)

theorem cleanAll_append {fo : FloatOps F} {es : List (Expr F)} {e : Expr F} (h : CleanAll fo (es ++ [e])) :
    CleanAll fo es ∧ Clean fo e := cleanAll_snoc h

theorem fine_call {fo : FloatOps F} {n : Tok F} (hn : XName n.word) {as : List (Expr F)} (hc : Clean fo (called n.word as))
    (ha : CleanAll fo as → Fine fo (.lparen :: (listToks as ++ [.rparen])) (['('] ++ Expr.serializeList fo as ++ [')']) false false) :
    Fine fo (toks (called n.word as)) ((called n.word as).serialize fo) (endsName (called n.word as))
      (endsRoot (called n.word as)) := by
  unfold called at hc ⊢
  split
  · exact fine_test fo .text (fun _ h => by cases h)
  split
  · exact fine_test fo .node (fun _ h => by cases h)
  · rename_i h1 h2
    rw [if_neg h1, if_neg h2] at hc
    simp only [Clean] at hc
    have := Fine.cons (spells_nameTok fo hn) ((begins_name hn).mono fun _ h => h.1) (ha hc) (fun r => ends_open _)
    simpa [toks, Expr.serialize, endsName, endsRoot] using this

mutual
  theorem fine_args {fo : FloatOps F} : ∀ {w : List (Tok F)} {as : List (Expr F)}, GArgs w as → Spellable fo w → CleanAll fo as →
      Fine fo (.lparen :: (listToks as ++ [.rparen])) (['('] ++ Expr.serializeList fo as ++ [')']) false false
    | _, _, .none, _, _ => .noParens _ _
    | _, _, .some h, hs, hc => .parens (fine_list h hs.tail.left hc) _ _
  theorem fine_list {fo : FloatOps F} : ∀ {w : List (Tok F)} {es : List (Expr F)}, GList w es → Spellable fo w → CleanAll fo es →
      Fine fo (listToks es) (Expr.serializeList fo es) true true
    | _, _, .one (e := e) h, hs, hc => by
      have h1 : listToks [e] = toks e := by simp [listToks, tailToks]
      have h2 : Expr.serializeList fo [e] = e.serialize fo := by simp [Expr.serializeList, Expr.serializeTail]
      rw [h1, h2]
      exact (fine_expr h hs hc.1).weaken
    | _, _, .more h h', hs, hc => by
      have hn := (canon_list h).2
      obtain ⟨hc1, hc2⟩ := cleanAll_snoc hc
      rw [listToks_snoc hn, serializeList_snoc fo hn]
      exact .infix (u := [',']) (fine_list h hs.left hc1) (fine_expr h' hs.right.tail hc2).weaken .comma rfl (by decide)
        (fun _ => by decide) (fun _ => by decide) (fun _ => trivial)
  theorem fine_preds {fo : FloatOps F} : ∀ {w : List (Tok F)} {es : List (Expr F)}, GPreds w es → Spellable fo w → CleanAll fo es →
      Fine fo (predToks es) (Expr.serializePreds fo es) false false ∧ ∃ r, Expr.serializePreds fo es = '[' :: r
    | _, _, .one (e := e) h, hs, hc => by
      have h1 : predToks [e] = .lbrack :: (toks e ++ [.rbrack]) := by simp [predToks]
      have h2 : Expr.serializePreds fo [e] = '[' :: (e.serialize fo ++ [']']) := by simp [Expr.serializePreds]
      rw [h1, h2]
      exact ⟨.brackets (fine_expr h hs.tail.left hc.1).weaken _ _, _, rfl⟩
    | _, _, .more h h', hs, hc => by
      obtain ⟨hc1, hc2⟩ := cleanAll_snoc hc
      obtain ⟨h1, x, h2⟩ := fine_preds h hs.left hc1
      rw [predToks_snoc, serializePreds_snoc]
      exact ⟨.append h1 (.brackets (fine_expr h' hs.right.tail.left hc2).weaken _ _) rfl (by decide) (fun _ => by decide)
        (fun _ => by decide), _, by rw [h2]; rfl⟩
  theorem fine_prim {fo : FloatOps F} : ∀ {k : Last} {w : List (Tok F)} {e : Expr F}, GPrim k w e → Spellable fo w → Clean fo e →
      Fine fo (toks e) (e.serialize fo) (endsName e) (endsRoot e)
    | _, _, _, .literal, _, hc => by simp only [Clean] at hc
    | _, _, _, .float, _, hc => by
      simp only [Clean] at hc
      exact .one hc (begins_float hc) (fun _ h => by cases h) (fun h => h.elim) (fun h => by cases h)
    | _, _, _, .integer (n := n), _, _ =>
      .one (spells_int fo n).1 (spells_int fo n).2 (fun _ h => by cases h) (fun h => h.elim) (fun h => by cases h)
    | _, _, _, .var (n := n) hn, hs, _ => by
      have hx := xname_of hn hs (by simp)
      exact .cons (u := ['$']) .dollar ⟨_, _, rfl, by decide⟩
        (.one (spells_nameTok fo hx) ((begins_name hx).mono fun _ h => h.1) (closing_nameTok _) (fun _ => rfl)
          (fun h => by have := (nameTok_name (F := F) n.word).1; rw [h] at this; exact this.elim)) (fun _ => trivial)
    | _, _, _, .call hn h, hs, hc => fine_call (xname_of hn hs (by simp)) hc (fine_args h hs.tail)
    | _, _, _, .nil, _, _ => .noParens _ _
    | _, _, _, .seq h, hs, hc => by
      simp only [Clean] at hc
      exact .parens (fine_list h hs.tail.left hc) _ _
    | _, _, _, .root, _, _ => .one .pathSep ⟨_, _, rfl, by decide⟩ (fun _ h => by cases h) (fun h => h.elim) (fun _ => rfl)
    | _, _, _, .abs h, hs, _ => by
      obtain ⟨h1, h2, -⟩ := fine_rel h hs.tail
      exact .cons (u := ['/']) .pathSep ⟨_, _, rfl, by decide⟩ h1 (ends_slash h2)
    | _, _, _, .absAll h, hs, _ => by
      obtain ⟨h1, h2, -⟩ := fine_rel h hs.tail
      exact .cons (u := ['/', '/']) .abbrevSep ⟨_, _, rfl, by decide⟩ h1 (fun _ => trivial)
    | _, _, _, .rel h, hs, _ => by
      obtain ⟨h1, -, h2⟩ := fine_rel h hs
      rw [h2]
      exact h1
  theorem fine_expr {fo : FloatOps F} : ∀ {l r : Nat} {k : Last} {w : List (Tok F)} {e : Expr F}, GExpr l r k w e → Spellable fo w →
      Clean fo e → Fine fo (toks e) (e.serialize fo) (endsName e) (endsRoot e)
    | _, _, _, _, _, .prim h, hs, hc => fine_prim h hs hc
    | _, _, _, _, _, .neg h _, hs, hc => by
      simp only [Clean] at hc
      exact .cons (u := ['-']) .minus ⟨_, _, rfl, by decide⟩ (fine_expr h hs.tail hc) (fun _ => trivial)
    | _, _, _, _, _, .binary h1 _ h2 _ _ _ hm, hs, hc =>
      fine_meaning hm hc (fine_expr h1 hs.left) (fine_expr h2 hs.right.tail)
    | _, _, _, _, _, .slash h _ h', hs, hc => by
      simp only [Clean] at hc
      obtain ⟨h1, h2, h3⟩ := fine_rel h' hs.right.tail
      have := fine_expr h hs.left hc.1
      rw [hc.2.2] at this
      simp only [endsRoot, h3]
      exact .slash this h1 h2
    | _, _, _, _, _, .dslash h _ h', hs, hc => by
      simp only [Clean] at hc
      obtain ⟨h1, h2, h3⟩ := fine_rel h' hs.right.tail
      have := fine_expr h hs.left hc.1
      rw [hc.2.2] at this
      simp only [endsRoot, h3]
      exact .dslash this h1
    | _, _, _, _, _, .pred h _ h', hs, hc => by
      simp only [Clean] at hc
      obtain ⟨h1, x, h2⟩ := fine_preds h' hs.right hc.2
      exact .append (fine_expr h hs.left hc.1) h1 h2 (by decide) (fun _ => by decide) (fun _ => by decide)
end

theorem written_spellable {fo : FloatOps F} {ts : List (Tok F)} {s : Str} (h : Written fo ts s) : Spellable fo ts := by
  induction h with
  | nil => exact fun t ht => by cases ht
  | cons _ h _ _ ih =>
    intro t ht
    cases ht with
    | head => exact ⟨_, h⟩
    | tail _ ht => exact ih t ht

/-- The text of a clean expression writes its tokens. -/
theorem serialize_written {fo : FloatOps F} {ts : List (Tok F)} {s : Str} {e : Expr F} (hw : Written fo ts s)
    (hd : Denotes ts e) (hc : Clean fo e) : Written fo (toks e) (e.serialize fo) := by
  obtain ⟨l, r, k, h⟩ := hd
  have hf := fine_expr h (written_spellable hw) hc
  obtain ⟨i, t, hi, -⟩ := hf.last
  have := hf.writes i t hi [] [] (.nil fun c hc => by cases hc) (ends_nil t)
  simpa using this

end Amara.X
