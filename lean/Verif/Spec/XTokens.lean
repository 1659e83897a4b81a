import Verif.Model.XLex
/-
Specification of how the tokens of MicroXPath are written.
-/
namespace Amara.X

variable {F : Type}

/-- The character is in one of the ranges. -/
def InRanges (rs : List (Nat × Nat)) (c : Char) : Prop := ∃ r ∈ rs, r.1 ≤ c.toNat ∧ c.toNat ≤ r.2

/-- What a name begins with: the characters of XML's `NameStartChar`, without the colon and without U+C0 to U+D6. -/
def nameStartRanges : List (Nat × Nat) :=
  [(0x41, 0x5a), (0x5f, 0x5f), (0x61, 0x7a), (0xd8, 0xf6), (0xf8, 0x2ff), (0x370, 0x37d), (0x37f, 0x1fff), (0x200c, 0x200d),
   (0x2070, 0x218f), (0x2c00, 0x2fef), (0x3001, 0xd7ff), (0xf900, 0xfdcf), (0xfdf0, 0xfffd), (0x10000, 0xeffff)]

/-- What a name goes on with, besides. -/
def nameExtraRanges : List (Nat × Nat) :=
  [(0x2d, 0x2e), (0x30, 0x39), (0xb7, 0xb7), (0x300, 0x36f), (0x203f, 0x2040)]

/-- Characters inside a name. -/
def XNameChar (c : Char) : Prop := InRanges nameStartRanges c ∨ InRanges nameExtraRanges c

/-- Because of a slip in the rules these four characters, `À-Ö]`, can stand for one character of a name. -/
def slip : Str := [Char.ofNat 0xc0, '-', Char.ofNat 0xd6, ']']

/-- What a name goes on with. -/
inductive XNameTail : Str → Prop where
  | nil : XNameTail []
  | char {c r} : XNameChar c → XNameTail r → XNameTail (c :: r)
  | slip {r} : XNameTail r → XNameTail (slip ++ r)

/-- Names. -/
inductive XName : Str → Prop where
  | char {c r} : InRanges nameStartRanges c → XNameTail r → XName (c :: r)
  | slip {r} : XNameTail r → XName (slip ++ r)

/-- Decimal digits. -/
def Digits (s : Str) : Prop := ∀ c ∈ s, InRanges [(0x30, 0x39)] c

/-- Their value. -/
def decimal : Str → Nat → Nat
  | [], n => n
  | c :: r, n => decimal r (10 * n + (c.toNat - 0x30))

/-- Blanks. -/
def XBlank (s : Str) : Prop := ∀ c ∈ s, c ∈ [' ', '\t', '\r', '\n']

/-- The words for operators. -/
def opWords : List Str := ["or".toList, "and".toList, "div".toList, "mod".toList]

/-- How a token is written. -/
inductive SpellsTok (fo : FloatOps F) : Tok F → Str → Prop where
  | or : SpellsTok fo (.logical false) "or".toList
  | and : SpellsTok fo (.logical true) "and".toList
  | div : SpellsTok fo (.divmod false) "div".toList
  | mod : SpellsTok fo (.divmod true) "mod".toList
  | eq : SpellsTok fo (.equal false) "=".toList
  | ne : SpellsTok fo (.equal true) "!=".toList
  | lt : SpellsTok fo (.rel .lt) "<".toList
  | gt : SpellsTok fo (.rel .gt) ">".toList
  | le : SpellsTok fo (.rel .le) "<=".toList
  | ge : SpellsTok fo (.rel .ge) ">=".toList
  | plus : SpellsTok fo .plus "+".toList
  | minus : SpellsTok fo .minus "-".toList
  | star : SpellsTok fo .star "*".toList
  | union : SpellsTok fo .union "|".toList
  | pathSep : SpellsTok fo .pathSep "/".toList
  | abbrevSep : SpellsTok fo .abbrevSep "//".toList
  | lbrack : SpellsTok fo .lbrack "[".toList
  | rbrack : SpellsTok fo .rbrack "]".toList
  | lparen : SpellsTok fo .lparen "(".toList
  | rparen : SpellsTok fo .rparen ")".toList
  | comma : SpellsTok fo .comma ",".toList
  | dollar : SpellsTok fo .dollar "$".toList
  | at : SpellsTok fo .at "@".toList
  | axisSep : SpellsTok fo .axisSep "::".toList
  | dot : SpellsTok fo .dot ".".toList
  | dotdot : SpellsTok fo .dotdot "..".toList
  | quoted {s} : '"' ∉ s → SpellsTok fo (.literal s) ('"' :: (s ++ ['"']))
  | single {s} : '\'' ∉ s → SpellsTok fo (.literal s) ('\'' :: (s ++ ['\'']))
  | float {a b f} : Digits a → Digits b → (a ≠ [] ∨ b ≠ []) → fo.parse (a ++ '.' :: b) = some f →
      SpellsTok fo (.float f) (a ++ '.' :: b)
  | integer {a} : Digits a → a ≠ [] → SpellsTok fo (.integer (decimal a 0)) a
  | name {n} : XName n → n ∉ opWords → SpellsTok fo (.name n) n

/-- The string begins with a character of this kind. -/
def Begins (P : Char → Prop) (s : Str) : Prop := ∃ c r, s = c :: r ∧ P c

/-- What comes right after a token does not make it longer. -/
def Ends (t : Tok F) (r : Str) : Prop :=
  match t with
  | .name _ | .logical _ | .divmod _ => ¬ Begins XNameChar r ∧ ¬ slip <+: r
  | .integer _ => ¬ Begins (fun c => Digits [c] ∨ c = '.') r
  | .float _ => ¬ Begins (fun c => Digits [c]) r
  | .dot => ¬ Begins (fun c => Digits [c] ∨ c = '.') r
  | .pathSep => ¬ Begins (· = '/') r
  | .rel .lt | .rel .gt => ¬ Begins (· = '=') r
  | _ => True

/-- How a list of tokens is written: with blanks anywhere between them, and nothing between them where none runs into
the next. -/
inductive Written (fo : FloatOps F) : List (Tok F) → Str → Prop where
  | nil {b} : XBlank b → Written fo [] b
  | cons {b t u r ts} : XBlank b → SpellsTok fo t u → Ends t r → Written fo ts r → Written fo (t :: ts) (b ++ (u ++ r))

end Amara.X
