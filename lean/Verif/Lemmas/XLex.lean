import Verif.Spec.XTokens
/-
The lexer of MicroXPath reads tokens as they are written.
-/
namespace Amara.X

variable {F : Type}

theorem char_eq_iff {c d : Char} : c = d ↔ c.toNat = d.toNat :=
  ⟨fun h => by rw [h], fun h => Char.ext (UInt32.toNat_inj.mp h)⟩

theorem nameStart_iff (c : Char) : lexNameStart c = true ↔ InRanges nameStartRanges c := by
  simp only [lexNameStart, Char.between, InRanges, nameStartRanges, Bool.or_eq_true, Bool.and_eq_true, decide_eq_true_eq,
    beq_iff_eq, List.mem_cons, List.not_mem_nil, or_false, exists_eq_or_imp, exists_eq_left, char_eq_iff (c := c),
    show ('_' : Char).toNat = 0x5f from rfl]
  omega

theorem nameExtra_iff (c : Char) : lexNameExtra c = true ↔ InRanges nameExtraRanges c := by
  simp only [lexNameExtra, Char.between, InRanges, nameExtraRanges, Bool.or_eq_true, Bool.and_eq_true, decide_eq_true_eq,
    beq_iff_eq, List.mem_cons, List.not_mem_nil, or_false, exists_eq_or_imp, exists_eq_left, char_eq_iff (c := c),
    show ('-' : Char).toNat = 0x2d from rfl, show ('.' : Char).toNat = 0x2e from rfl]
  omega

theorem nameChar_iff (c : Char) : lexNameChar c = true ↔ XNameChar c := by
  rw [lexNameChar, Bool.or_eq_true, nameStart_iff, nameExtra_iff, XNameChar]

theorem isDigit_iff (c : Char) : isDigit c = true ↔ Digits [c] := by
  simp [isDigit, Char.between, Digits, InRanges]

theorem slip_eq : oddName = slip := rfl

theorem slip_prefix (s : Str) : oddName.isPrefixOf s = true ↔ slip <+: s := by
  rw [List.isPrefixOf_iff_prefix]; rfl

theorem slip_char : lexNameChar (Char.ofNat 0xc0) = false ∧ lexNameStart (Char.ofNat 0xc0) = false := by decide +kernel

theorem slip_cons (r : Str) : slip ++ r = Char.ofNat 0xc0 :: '-' :: Char.ofNat 0xd6 :: ']' :: r := rfl

theorem prefix_drop {c : Char} {r : Str} (h : slip <+: c :: r) : c :: r = slip ++ r.drop 3 := by
  obtain ⟨t, h⟩ := h
  rw [slip_cons] at h
  injection h with h1 h2
  rw [slip_cons, ← h1, ← h2]
  rfl

theorem nameRun_spec : ∀ (n : Nat) (s : Str), s.length ≤ n → XNameTail (lexNameRun n s).1 ∧
    s = (lexNameRun n s).1 ++ (lexNameRun n s).2 ∧ ¬ Begins XNameChar (lexNameRun n s).2 ∧ ¬ slip <+: (lexNameRun n s).2
  | n, [], _ => by
    have : lexNameRun n [] = ([], []) := by cases n <;> rfl
    rw [this]
    exact ⟨.nil, rfl, by (rintro ⟨c, r, h, -⟩; cases h), by (rintro ⟨t, h⟩; cases h)⟩
  | 0, _ :: _, h => absurd h (Nat.not_succ_le_zero _)
  | n + 1, c :: r, h => by
    have hr : r.length ≤ n := Nat.le_of_succ_le_succ h
    rw [lexNameRun]
    split
    · rename_i hc
      obtain ⟨h1, h2, h3, h4⟩ := nameRun_spec n r hr
      exact ⟨.char ((nameChar_iff c).mp hc) h1, by rw [List.cons_append, ← h2], h3, h4⟩
    · rename_i hc
      split
      · rename_i ho
        rw [slip_prefix] at ho
        obtain ⟨h1, h2, h3, h4⟩ := nameRun_spec n (r.drop 3) (by rw [List.length_drop]; omega)
        exact ⟨.slip h1, by rw [List.append_assoc, ← h2]; exact prefix_drop ho, h3, h4⟩
      · rename_i ho
        rw [slip_prefix] at ho
        refine ⟨.nil, rfl, ?_, ho⟩
        rintro ⟨d, r, h, hd⟩
        cases h
        exact hc ((nameChar_iff c).mpr hd)

theorem nameRest_spec (s : Str) : XNameTail (lexNameRest s).1 ∧ s = (lexNameRest s).1 ++ (lexNameRest s).2 ∧
    ¬ Begins XNameChar (lexNameRest s).2 ∧ ¬ slip <+: (lexNameRest s).2 := nameRun_spec _ s (Nat.le_refl _)

theorem nameRun_tail {n r : Str} (hn : XNameTail n) (h1 : ¬ Begins XNameChar r) (h2 : ¬ slip <+: r) :
    ∀ k, (n ++ r).length ≤ k → lexNameRun k (n ++ r) = (n, r) := by
  induction hn with
  | nil =>
    intro k hk
    obtain ⟨g1, g2, g3, g4⟩ := nameRun_spec k r hk
    match k, r, hk with
    | 0, r, _ => rfl
    | k + 1, [], _ => rfl
    | k + 1, c :: r, _ =>
      rw [List.nil_append, lexNameRun, if_neg (fun h => h1 ⟨c, r, rfl, (nameChar_iff c).mp h⟩),
        if_neg (fun h => h2 ((slip_prefix _).mp h))]
  | @char c n hc _ ih =>
    intro k hk
    match k, hk with
    | 0, hk => simp at hk
    | k + 1, hk =>
      rw [List.cons_append, lexNameRun, if_pos ((nameChar_iff c).mpr hc), ih k (Nat.le_of_succ_le_succ hk)]
  | @slip n _ ih =>
    intro k hk
    rw [List.append_assoc] at hk ⊢
    match k, hk with
    | 0, hk => simp [X.slip] at hk
    | k + 1, hk =>
      have hp : oddName.isPrefixOf (X.slip ++ (n ++ r)) = true := (slip_prefix _).mpr ⟨_, rfl⟩
      rw [slip_cons] at hp hk ⊢
      rw [lexNameRun, if_neg (by rw [slip_char.1]; simp), if_pos hp]
      have : List.drop 3 ('-' :: Char.ofNat 0xd6 :: ']' :: (n ++ r)) = n ++ r := rfl
      rw [this, ih k (by simp only [List.length_cons] at hk; omega)]
      rfl

theorem nameRest_tail {n r : Str} (hn : XNameTail n) (h1 : ¬ Begins XNameChar r) (h2 : ¬ slip <+: r) :
    lexNameRest (n ++ r) = (n, r) := nameRun_tail hn h1 h2 _ (Nat.le_refl _)

theorem start_char {c : Char} (h : InRanges nameStartRanges c) : XNameChar c := .inl h

theorem XName.tail {n : Str} (h : XName n) : XNameTail n := by
  cases h with
  | char hc h => exact .char (.inl hc) h
  | slip h => exact .slip h

theorem XName.here {n : Str} (h : XName n) (r : Str) : lexNameHere (n ++ r) = true := by
  cases h with
  | char hc h => simp [lexNameHere, (nameStart_iff _).mpr hc]
  | @slip m h =>
    rw [List.append_assoc]
    have hp : oddName.isPrefixOf (X.slip ++ (m ++ r)) = true := (slip_prefix _).mpr ⟨_, rfl⟩
    rw [slip_cons] at hp ⊢
    rw [lexNameHere, hp, Bool.or_true]

theorem XName.ne {n : Str} (h : XName n) : n ≠ [] := by
  cases h <;> simp [X.slip]

/-- Whether a string begins with a name. -/
theorem name_here {s : Str} (h : lexNameHere s = true) : XName (lexNameRest s).1 := by
  obtain ⟨h1, h2, h3, h4⟩ := nameRest_spec s
  generalize lexNameRest s = x at h1 h2 h3 h4
  obtain ⟨n, r⟩ := x
  match s, h with
  | c :: s', h =>
    simp only [lexNameHere, Bool.or_eq_true, nameStart_iff, slip_prefix] at h
    cases h1 with
    | nil =>
      exfalso
      simp only [List.nil_append] at h2
      rcases h with h | h
      · exact h3 ⟨c, s', h2.symm, .inl h⟩
      · exact h4 (by rw [← h2]; exact h)
    | @char d n hd hn =>
      injection h2 with h5 h6
      subst h5
      rcases h with h | h
      · exact .char h hn
      · exfalso
        obtain ⟨t, h⟩ := h
        injection h with h7 _
        have := (nameChar_iff _).mpr hd
        rw [← h7] at this
        rw [slip_char.1] at this
        cases this
    | slip hn => exact .slip hn

theorem word_name {n : Str} (h : n ∈ opWords) : XName n := by
  have hr : ∀ c ∈ ['o', 'r', 'a', 'n', 'd', 'i', 'v', 'm'], InRanges nameStartRanges c := by
    intro c hc
    refine ⟨(0x61, 0x7a), by simp [nameStartRanges], ?_⟩
    revert c
    decide
  have hw : ∀ n : Str, (∀ c ∈ n, InRanges nameStartRanges c) → XNameTail n := by
    intro n
    induction n with
    | nil => exact fun _ => .nil
    | cons c n ih => exact fun h => .char (.inl (h c (by simp))) (ih fun d hd => h d (by simp [hd]))
  have hx : ∀ n : Str, n ≠ [] → (∀ c ∈ n, InRanges nameStartRanges c) → XName n := by
    intro n hn h
    match n, hn with
    | c :: n, _ => exact .char (h c (by simp)) (hw n fun d hd => h d (by simp [hd]))
  have : ∀ n ∈ opWords, n ≠ [] ∧ ∀ c ∈ n, c ∈ ['o', 'r', 'a', 'n', 'd', 'i', 'v', 'm'] := by decide
  exact hx n (this n h).1 fun c hc => hr c ((this n h).2 c hc)

theorem lexOne_name (fo : FloatOps F) {n r : Str} (h : XName n) (h1 : ¬ Begins XNameChar r) (h2 : ¬ slip <+: r) :
    lexOne fo (n ++ r) = .tok (nameTok n) r := by
  have hh := h.here r
  have hr := nameRest_tail h.tail h1 h2
  obtain ⟨c, s, hs⟩ := List.exists_cons_of_ne_nil (show n ++ r ≠ [] by simp [h.ne])
  rw [hs] at hh hr ⊢
  unfold lexOne
  simp only [hh, if_true, hr]

/-! ### Numbers -/

theorem takeWhile_all {p : Char → Bool} {a r : Str} (ha : ∀ c ∈ a, p c = true) (hr : ∀ c s, r = c :: s → p c = false) :
    (a ++ r).takeWhile p = a ∧ (a ++ r).dropWhile p = r := by
  induction a with
  | nil =>
    match r with
    | [] => exact ⟨rfl, rfl⟩
    | c :: s => simp [hr c s rfl]
  | cons c a ih =>
    have := ih fun d hd => ha d (by simp [hd])
    simp [ha c (by simp), this.1, this.2]

theorem digits_all {a : Str} (h : Digits a) : ∀ c ∈ a, isDigit c = true :=
  fun c hc => (isDigit_iff c).mpr fun d hd => by
    rw [List.mem_singleton] at hd
    exact hd ▸ h c hc

theorem all_digits {a : Str} (h : ∀ c ∈ a, isDigit c = true) : Digits a :=
  fun c hc => (isDigit_iff c).mp (h c hc) c (by simp)

theorem digitsNat_eq (a : Str) : digitsNat a = decimal a 0 := by
  have : ∀ n, a.foldl (fun n c => 10 * n + (c.toNat - 0x30)) n = decimal a n := by
    induction a with
    | nil => exact fun _ => rfl
    | cons c r ih => exact fun n => ih _
  exact this 0

theorem not_begins {P : Char → Prop} {r : Str} (h : ¬ Begins P r) : ∀ c s, r = c :: s → ¬ P c :=
  fun c s hr hp => h ⟨c, s, hr, hp⟩

theorem digit_facts {c : Char} (h : isDigit c = true) :
    lexNameStart c = false ∧ c ≠ Char.ofNat 0xc0 ∧ c ≠ '"' ∧ c ≠ '\'' := by
  have h' : 0x30 ≤ c.toNat ∧ c.toNat ≤ 0x39 := by simpa [isDigit, Char.between] using h
  refine ⟨?_, ?_, ?_, ?_⟩
  · rw [← Bool.not_eq_true, nameStart_iff]
    simp only [InRanges, nameStartRanges, List.mem_cons, List.not_mem_nil, or_false, exists_eq_or_imp, exists_eq_left]
    omega
  all_goals
    intro hc
    subst hc
    revert h
    decide

theorem lexOne_digit (fo : FloatOps F) {c : Char} {r : Str} (h : isDigit c = true) :
    lexOne fo (c :: r) = lexNumber fo (c :: r) := by
  obtain ⟨h1, h2, h3, h4⟩ := digit_facts h
  have hh : lexNameHere (c :: r) = false := by
    simp only [lexNameHere, h1, Bool.false_or]
    rw [← Bool.not_eq_true, slip_prefix]
    rintro ⟨t, ht⟩
    injection ht with ht _
    exact h2 ht.symm
  unfold lexOne
  simp only [hh, Bool.false_eq_true, if_false, h3, h4, decide_false, Bool.or_false, h, if_true]

theorem lexOne_integer (fo : FloatOps F) {a r : Str} (ha : Digits a) (hne : a ≠ [])
    (hr : ¬ Begins (fun c => Digits [c] ∨ c = '.') r) : lexOne fo (a ++ r) = .tok (.integer (decimal a 0)) r := by
  obtain ⟨h1, h2⟩ := takeWhile_all (digits_all ha) (r := r) fun c s hs => by
    rw [← Bool.not_eq_true, isDigit_iff]
    exact fun h => not_begins hr c s hs (.inl h)
  match a, hne with
  | c :: a', _ =>
    rw [List.cons_append] at h1 h2 ⊢
    rw [lexOne_digit fo (digits_all ha c (by simp))]
    unfold lexNumber
    rw [h1, h2, digitsNat_eq]
    split
    · exact absurd (.inr rfl) (not_begins hr _ _ rfl)
    · rfl

theorem lexOne_float (fo : FloatOps F) {a b r : Str} {f : F} (ha : Digits a) (hb : Digits b) (hne : a ≠ [] ∨ b ≠ [])
    (hp : fo.parse (a ++ '.' :: b) = some f) (hr : ¬ Begins (fun c => Digits [c]) r) :
    lexOne fo (a ++ '.' :: b ++ r) = .tok (.float f) r := by
  obtain ⟨g1, g2⟩ := takeWhile_all (digits_all hb) (r := r) fun c s hs => by
    rw [← Bool.not_eq_true, isDigit_iff]
    exact fun h => not_begins hr c s hs h
  match a, ha with
  | c :: a', ha =>
    obtain ⟨h1, h2⟩ := takeWhile_all (digits_all ha) (r := '.' :: b ++ r) fun c s hs => by
      cases hs
      decide
    rw [List.append_assoc]
    rw [List.cons_append, List.cons_append] at h1 h2 ⊢
    rw [lexOne_digit fo (digits_all ha c (by simp))]
    unfold lexNumber
    rw [h1, h2]
    show floatTok fo _ _ = _
    rw [g1, g2, floatTok, hp]
  | [], _ =>
    match b, hne with
    | c :: b', hne =>
      show lexDot fo (c :: b' ++ r) = _
      rw [List.cons_append] at g1 g2 ⊢
      unfold lexDot
      rw [g1, g2]
      show (if _ then _ else _) = _
      rw [if_pos (digits_all hb c (by simp)), floatTok]
      rw [List.nil_append] at hp
      rw [hp]

/-! ### What is written is read -/

theorem lexLiteral_eq (q : Char) {s r : Str} (h : q ∉ s) :
    lexLiteral (F := F) q (s ++ q :: r) = .tok (.literal s) r := by
  obtain ⟨h1, h2⟩ := takeWhile_all (p := (· != q)) (a := s) (r := q :: r)
    (fun c hc => by simp; intro h'; exact h (h' ▸ hc)) (fun c t ht => by cases ht; simp)
  unfold lexLiteral
  rw [h1, h2]

theorem ifNext_cases (d : Char) (r : Str) (yes : Str → Lexed F) (no : Lexed F) {x : Lexed F} (h : ifNext d r yes no = x) :
    (∃ r', r = d :: r' ∧ yes r' = x) ∨ (¬ Begins (· = d) r ∧ no = x) := by
  unfold ifNext at h
  split at h
  · split at h
    · rename_i hc
      exact .inl ⟨_, by rw [hc], h⟩
    · rename_i hc
      exact .inr ⟨by (rintro ⟨c, s, hs, rfl⟩; cases hs; exact hc rfl), h⟩
  · exact .inr ⟨by (rintro ⟨c, s, hs, rfl⟩; cases hs), h⟩

theorem ifNext_not {d : Char} {r : Str} (h : ¬ Begins (· = d) r) (yes : Str → Lexed F) (no : Lexed F) :
    ifNext d r yes no = no := by
  rcases ifNext_cases d r yes no rfl with ⟨r', rfl, -⟩ | ⟨-, h⟩
  · exact absurd ⟨_, _, rfl, rfl⟩ h
  · exact h.symm

theorem lexOne_spells (fo : FloatOps F) {t : Tok F} {u r : Str} (h : SpellsTok fo t u) (he : Ends t r) :
    lexOne fo (u ++ r) = .tok t r := by
  cases h with
  | or => exact lexOne_name fo (word_name (by simp [opWords])) he.1 he.2
  | and => exact lexOne_name fo (word_name (by simp [opWords])) he.1 he.2
  | div => exact lexOne_name fo (word_name (by simp [opWords])) he.1 he.2
  | mod => exact lexOne_name fo (word_name (by simp [opWords])) he.1 he.2
  | name hn hw =>
    rw [lexOne_name fo hn he.1 he.2]
    simp only [opWords, List.mem_cons, List.not_mem_nil, or_false, not_or] at hw
    simp only [nameTok, hw, if_false]
  | quoted hs =>
    show lexLiteral '"' (_ ++ ['"'] ++ r) = _
    rw [List.append_assoc]
    exact lexLiteral_eq '"' hs
  | single hs =>
    show lexLiteral '\'' (_ ++ ['\''] ++ r) = _
    rw [List.append_assoc]
    exact lexLiteral_eq '\'' hs
  | float ha hb hne hp => exact lexOne_float fo ha hb hne hp he
  | integer ha hne => exact lexOne_integer fo ha hne he
  | lt => exact ifNext_not he _ _
  | gt => exact ifNext_not he _ _
  | pathSep => exact ifNext_not he _ _
  | dot =>
    show lexDot fo r = _
    unfold lexDot
    split
    · rename_i c r'
      have := not_begins he c r' rfl
      rw [← isDigit_iff] at this
      rw [if_neg (fun h => this (.inl h)), if_neg (fun h => this (.inr h))]
    · rfl
  | _ => rfl

/-! ### What is read was written -/

theorem not_isDigit {c : Char} (h : isDigit c = false) : ¬ Digits [c] := by
  rw [← isDigit_iff, h]; simp

theorem dropWhile_not {p : Char → Bool} (s : Str) : ∀ c r, s.dropWhile p = c :: r → p c = false := by
  induction s with
  | nil => intro c r h; cases h
  | cons d s ih =>
    intro c r h
    rw [List.dropWhile_cons] at h
    split at h
    · exact ih c r h
    · cases h
      rename_i hp
      simpa using hp

theorem takeWhile_mem {p : Char → Bool} (s : Str) : ∀ c ∈ s.takeWhile p, p c = true := by
  induction s with
  | nil => intro c h; cases h
  | cons d s ih =>
    intro c h
    rw [List.takeWhile_cons] at h
    split at h
    · rcases List.mem_cons.mp h with rfl | h
      · assumption
      · exact ih c h
    · cases h

theorem floatTok_inv {fo : FloatOps F} {s rest r : Str} {t : Tok F} (h : floatTok fo s rest = .tok t r) :
    ∃ f, fo.parse s = some f ∧ t = .float f ∧ r = rest := by
  unfold floatTok at h
  split at h
  · cases h; exact ⟨_, ‹_›, rfl, rfl⟩
  · cases h

theorem ends_float {s : Str} {f : F} : Ends (.float f) (s.dropWhile isDigit) := by
  rintro ⟨c, r, h, hc⟩
  exact not_isDigit (dropWhile_not s c r h) hc

theorem lexNumber_inv {fo : FloatOps F} {c : Char} {s r : Str} {t : Tok F} (hc : isDigit c = true)
    (h : lexNumber fo (c :: s) = .tok t r) : ∃ u, c :: s = u ++ r ∧ SpellsTok fo t u ∧ Ends t r := by
  have hne : (c :: s).takeWhile isDigit ≠ [] := by simp [hc]
  have hall := all_digits (takeWhile_mem (p := isDigit) (c :: s))
  have happ : (c :: s).takeWhile isDigit ++ (c :: s).dropWhile isDigit = c :: s := List.takeWhile_append_dropWhile
  have hnd := dropWhile_not (p := isDigit) (c :: s)
  unfold lexNumber at h
  generalize (c :: s).takeWhile isDigit = a at hne hall happ h
  generalize (c :: s).dropWhile isDigit = b at happ h hnd
  split at h
  · rename_i x
    obtain ⟨f, h1, rfl, rfl⟩ := floatTok_inv h
    refine ⟨_, ?_, .float hall (all_digits (takeWhile_mem x)) (.inl hne) h1, ends_float⟩
    rw [← happ, List.append_assoc, List.cons_append, List.takeWhile_append_dropWhile]
  · rename_i hx
    cases h
    refine ⟨a, happ.symm, ?_, ?_⟩
    · rw [digitsNat_eq]
      exact .integer hall hne
    · rintro ⟨d, r', hr, hd⟩
      rcases hd with hd | rfl
      · exact not_isDigit (hnd d r' hr) hd
      · exact hx _ hr

theorem lexDot_inv {fo : FloatOps F} {s r : Str} {t : Tok F} (h : lexDot fo s = .tok t r) :
    ∃ u, '.' :: s = u ++ r ∧ SpellsTok fo t u ∧ Ends t r := by
  unfold lexDot at h
  split at h
  · rename_i c s'
    split at h
    · rename_i hc
      obtain ⟨f, h1, rfl, rfl⟩ := floatTok_inv h
      have hne : (c :: s').takeWhile isDigit ≠ [] := by simp [hc]
      refine ⟨_, ?_, SpellsTok.float (a := []) (fun c hc => by cases hc) (all_digits (takeWhile_mem (c :: s'))) (.inr hne) h1,
        ends_float⟩
      rw [List.nil_append, List.cons_append, List.takeWhile_append_dropWhile]
    · split at h
      · rename_i hd
        cases h
        subst hd
        exact ⟨_, rfl, .dotdot, trivial⟩
      · rename_i hc hd
        cases h
        refine ⟨_, rfl, .dot, ?_⟩
        rintro ⟨d, r', hr, hd'⟩
        cases hr
        rcases hd' with h | h
        · exact hc ((isDigit_iff c).mpr h)
        · exact hd h
  · cases h
    exact ⟨_, rfl, .dot, by rintro ⟨d, r', hr, _⟩; cases hr⟩

theorem lexRel_inv {c : Char} {s r : Str} {t : Tok F} (fo : FloatOps F) (hc : c = '<' ∨ c = '>') (h : lexRel c s = .tok t r) :
    ∃ u, c :: s = u ++ r ∧ SpellsTok fo t u ∧ Ends t r := by
  rcases ifNext_cases _ _ _ _ h with ⟨r', rfl, h⟩ | ⟨hb, h⟩
  · cases h
    rcases hc with rfl | rfl
    · exact ⟨_, rfl, .le, trivial⟩
    · exact ⟨_, rfl, .ge, trivial⟩
  · cases h
    rcases hc with rfl | rfl
    · exact ⟨_, rfl, .lt, hb⟩
    · exact ⟨_, rfl, .gt, hb⟩

theorem lexLiteral_inv {q : Char} {s r : Str} {t : Tok F} (h : lexLiteral q s = .tok t r) :
    ∃ u, s = u ++ q :: r ∧ q ∉ u ∧ t = .literal u := by
  have happ : s.takeWhile (· != q) ++ s.dropWhile (· != q) = s := List.takeWhile_append_dropWhile
  have hnd := dropWhile_not (p := (· != q)) s
  unfold lexLiteral at h
  split at h
  · rename_i d r' hd
    cases h
    have := hnd d _ hd
    simp at this
    subst this
    refine ⟨_, ?_, ?_, rfl⟩
    · rw [← hd, happ]
    · intro hq
      have := takeWhile_mem _ _ hq
      simp at this
  · cases h

theorem lexPunct_inv {fo : FloatOps F} {c : Char} {s r : Str} {t : Tok F} (h : lexPunct c s = .tok t r) :
    ∃ u, c :: s = u ++ r ∧ SpellsTok fo t u ∧ Ends t r := by
  by_cases hc : c ∈ ['/', ':', '@', '(', ')', '[', ']', '|', '=', '!', '<', '>', '+', '-', ',', '$', '*']
  · simp only [List.mem_cons, List.not_mem_nil, or_false] at hc
    rcases hc with rfl | rfl | rfl | rfl | rfl | rfl | rfl | rfl | rfl | rfl | rfl | rfl | rfl | rfl | rfl | rfl | rfl
    · rcases ifNext_cases '/' s (.tok .abbrevSep) (.tok .pathSep s) h with ⟨r', rfl, h⟩ | ⟨hb, h⟩
      · cases h; exact ⟨_, rfl, .abbrevSep, trivial⟩
      · cases h; exact ⟨_, rfl, .pathSep, hb⟩
    · rcases ifNext_cases ':' s (.tok .axisSep) .bad h with ⟨r', rfl, h⟩ | ⟨hb, h⟩
      · cases h; exact ⟨_, rfl, .axisSep, trivial⟩
      · cases h
    · cases h; exact ⟨_, rfl, .at, trivial⟩
    · cases h; exact ⟨_, rfl, .lparen, trivial⟩
    · cases h; exact ⟨_, rfl, .rparen, trivial⟩
    · cases h; exact ⟨_, rfl, .lbrack, trivial⟩
    · cases h; exact ⟨_, rfl, .rbrack, trivial⟩
    · cases h; exact ⟨_, rfl, .union, trivial⟩
    · cases h; exact ⟨_, rfl, .eq, trivial⟩
    · rcases ifNext_cases '=' s (.tok (.equal true)) .bad h with ⟨r', rfl, h⟩ | ⟨hb, h⟩
      · cases h; exact ⟨_, rfl, .ne, trivial⟩
      · cases h
    · exact lexRel_inv fo (.inl rfl) h
    · exact lexRel_inv fo (.inr rfl) h
    · cases h; exact ⟨_, rfl, .plus, trivial⟩
    · cases h; exact ⟨_, rfl, .minus, trivial⟩
    · cases h; exact ⟨_, rfl, .comma, trivial⟩
    · cases h; exact ⟨_, rfl, .dollar, trivial⟩
    · cases h; exact ⟨_, rfl, .star, trivial⟩
  · simp only [List.mem_cons, List.not_mem_nil, or_false, not_or] at hc
    obtain ⟨h1, h2, h3, h4, h5, h6, h7, h8, h9, h10, h11, h12, h13, h14, h15, h16, h17⟩ := hc
    rw [lexPunct, if_neg h1, if_neg h2, if_neg h3, if_neg h4, if_neg h5, if_neg h6, if_neg h7, if_neg h8, if_neg h9,
      if_neg h10, if_neg (by simp [h11, h12]), if_neg h13, if_neg h14, if_neg h15, if_neg h16, if_neg h17] at h
    cases h

theorem lexPunct_eof {c : Char} {s : Str} (h : lexPunct (F := F) c s = .eof) : False := by
  by_cases hc : c ∈ ['/', ':', '@', '(', ')', '[', ']', '|', '=', '!', '<', '>', '+', '-', ',', '$', '*']
  · simp only [List.mem_cons, List.not_mem_nil, or_false] at hc
    rcases hc with rfl | rfl | rfl | rfl | rfl | rfl | rfl | rfl | rfl | rfl | rfl | rfl | rfl | rfl | rfl | rfl | rfl <;>
      first
      | cases h; done
      | rcases ifNext_cases _ _ _ _ h with ⟨r', rfl, h⟩ | ⟨hb, h⟩ <;> cases h
  · simp only [List.mem_cons, List.not_mem_nil, or_false, not_or] at hc
    obtain ⟨h1, h2, h3, h4, h5, h6, h7, h8, h9, h10, h11, h12, h13, h14, h15, h16, h17⟩ := hc
    rw [lexPunct, if_neg h1, if_neg h2, if_neg h3, if_neg h4, if_neg h5, if_neg h6, if_neg h7, if_neg h8, if_neg h9,
      if_neg h10, if_neg (by simp [h11, h12]), if_neg h13, if_neg h14, if_neg h15, if_neg h16, if_neg h17] at h
    cases h

theorem nameTok_spells (fo : FloatOps F) {n r : Str} (h : XName n) (h1 : ¬ Begins XNameChar r) (h2 : ¬ slip <+: r) :
    SpellsTok fo (nameTok n) n ∧ Ends (F := F) (nameTok n) r := by
  unfold nameTok
  split
  · subst ‹n = _›; exact ⟨.or, h1, h2⟩
  split
  · subst ‹n = _›; exact ⟨.and, h1, h2⟩
  split
  · subst ‹n = _›; exact ⟨.div, h1, h2⟩
  split
  · subst ‹n = _›; exact ⟨.mod, h1, h2⟩
  · rename_i g1 g2 g3 g4
    exact ⟨.name h (by
      intro hm
      simp only [opWords, List.mem_cons, List.not_mem_nil, or_false] at hm
      rcases hm with hm | hm | hm | hm
      · exact g1 hm
      · exact g2 hm
      · exact g3 hm
      · exact g4 hm), h1, h2⟩

theorem lexOne_inv {fo : FloatOps F} {s r : Str} {t : Tok F} (h : lexOne fo s = .tok t r) :
    ∃ u, s = u ++ r ∧ SpellsTok fo t u ∧ Ends t r := by
  match s, h with
  | c :: s, h =>
    rw [lexOne] at h
    split at h
    · rename_i hn
      obtain ⟨h1, h2, h3, h4⟩ := nameRest_spec (c :: s)
      have h5 := name_here hn
      cases h
      obtain ⟨g1, g2⟩ := nameTok_spells fo h5 h3 h4
      exact ⟨_, h2, g1, g2⟩
    split at h
    · rename_i hq
      obtain ⟨u, rfl, hu, rfl⟩ := lexLiteral_inv h
      simp only [Bool.or_eq_true, decide_eq_true_eq] at hq
      rcases hq with rfl | rfl
      · exact ⟨'"' :: (u ++ ['"']), by simp, .quoted hu, trivial⟩
      · exact ⟨'\'' :: (u ++ ['\'']), by simp, .single hu, trivial⟩
    split at h
    · exact lexNumber_inv ‹_› h
    split at h
    · subst ‹c = _›
      exact lexDot_inv h
    · exact lexPunct_inv h

theorem spells_ne {fo : FloatOps F} {t : Tok F} {u : Str} (h : SpellsTok fo t u) : u ≠ [] := by
  cases h with
  | float => simp
  | integer _ h => exact h
  | name h => exact h.ne
  | _ => simp

/-! ### Lists of tokens -/

theorem isIgnored_iff (c : Char) : isIgnored c = true ↔ c ∈ [' ', '\t', '\r', '\n'] := by
  simp [isIgnored, or_assoc]

theorem blank_all {b : Str} (h : XBlank b) : ∀ c ∈ b, isIgnored c = true := fun c hc => (isIgnored_iff c).mpr (h c hc)

theorem not_begins_nil (P : Char → Prop) : ¬ Begins P [] := by
  rintro ⟨c, r, h, -⟩
  cases h

theorem ends_nil (t : Tok F) : Ends t [] := by
  have hs : ¬ slip <+: [] := by rintro ⟨t, h⟩; cases h
  unfold Ends
  split <;> first | exact not_begins_nil _ | trivial | exact ⟨not_begins_nil _, hs⟩

theorem ignored_start : ∀ c ∈ [' ', '\t', '\r', '\n'], lexNameStart c = false := by decide +kernel

theorem ignored_bad (fo : FloatOps F) {c : Char} (h : isIgnored c = true) (s : Str) : lexOne fo (c :: s) = .bad := by
  have hs := ignored_start c ((isIgnored_iff c).mp h)
  have hp : oddName.isPrefixOf (c :: s) = false := by
    rw [Bool.eq_false_iff]
    intro hp
    rw [slip_prefix] at hp
    have hp := prefix_drop hp
    rw [slip_cons] at hp
    injection hp with hp _
    rw [hp] at h
    exact absurd h (by decide +kernel)
  rw [lexOne, if_neg (by rw [lexNameHere, hs, hp]; simp)]
  rw [isIgnored_iff] at h
  simp only [List.mem_cons, List.not_mem_nil, or_false] at h
  rcases h with rfl | rfl | rfl | rfl <;> rfl

theorem blank_start {fo : FloatOps F} {t : Tok F} {u r : Str} (h : SpellsTok fo t u) :
    (u ++ r).dropWhile isIgnored = u ++ r := by
  have hn := spells_ne h
  have hl := lexOne_spells fo h (ends_nil t)
  match u, hn, hl with
  | c :: u, _, hl =>
    have : ¬ isIgnored c = true := by
      intro hc
      rw [List.cons_append, ignored_bad fo hc] at hl
      cases hl
    rw [List.cons_append, List.dropWhile_cons_of_neg this]

theorem dropWhile_blank {b s : Str} (h : XBlank b) : (b ++ s).dropWhile isIgnored = s.dropWhile isIgnored := by
  induction b with
  | nil => rfl
  | cons c b ih =>
    rw [List.cons_append, List.dropWhile_cons_of_pos (blank_all h c (by simp))]
    exact ih (fun c hc => h c (List.mem_cons_of_mem _ hc))

theorem lexN_written {fo : FloatOps F} {ts : List (Tok F)} {s : Str} (h : Written fo ts s) :
    ∀ n, s.length < n → lexN fo n s = (ts, false) := by
  induction h with
  | @nil b hb =>
    intro n hn
    match n, hn with
    | n + 1, _ =>
      have := dropWhile_blank (s := []) hb
      rw [List.append_nil] at this
      rw [lexN, this]
      rfl
  | @cons b t u r ts hb hs he _ ih =>
    intro n hn
    match n, hn with
    | n + 1, hn =>
      have hu : 0 < u.length := List.length_pos_iff.mpr (spells_ne hs)
      simp only [List.length_append] at hn
      rw [lexN, dropWhile_blank hb, blank_start hs, lexOne_spells fo hs he]
      simp only [ih n (by omega)]

theorem written_lexN {fo : FloatOps F} : ∀ (n : Nat) (s : Str) (ts : List (Tok F)), s.length < n →
    lexN fo n s = (ts, false) → Written fo ts s
  | n + 1, s, ts, hn, h => by
    have hb : XBlank (s.takeWhile isIgnored) := fun c hc => (isIgnored_iff c).mp (takeWhile_mem (p := isIgnored) s c hc)
    have happ : s.takeWhile isIgnored ++ s.dropWhile isIgnored = s := List.takeWhile_append_dropWhile
    rw [lexN] at h
    split at h
    · rename_i t r hl
      obtain ⟨u, h1, h2, h3⟩ := lexOne_inv hl
      have hu : 0 < u.length := List.length_pos_iff.mpr (spells_ne h2)
      have hlen : (s.takeWhile isIgnored).length + (u.length + r.length) = s.length := by
        rw [← List.length_append, ← List.length_append, ← h1, happ]
      have hw : Written fo (lexN fo n r).1 r := by
        apply written_lexN n r _ (by omega)
        simp only [Prod.mk.injEq] at h
        rw [← h.2]
      simp only [Prod.mk.injEq] at h
      rw [← happ, h1, ← h.1]
      exact .cons hb h2 h3 hw
    · rename_i hl
      cases h
      have : s.dropWhile isIgnored = [] := by
        match hd : s.dropWhile isIgnored, hl with
        | [], _ => rfl
        | c :: r, hl =>
          exfalso
          rw [lexOne] at hl
          split at hl
          · cases hl
          split at hl
          · unfold lexLiteral at hl
            split at hl <;> cases hl
          split at hl
          · unfold lexNumber floatTok at hl
            split at hl
            · split at hl <;> cases hl
            · cases hl
          split at hl
          · unfold lexDot floatTok at hl
            split at hl
            · split at hl
              · split at hl <;> cases hl
              · split at hl <;> cases hl
            · cases hl
          · exact lexPunct_eof hl
      rw [this, List.append_nil] at happ
      rw [← happ]
      exact .nil hb
    · cases h

/-- More rounds than characters change nothing. -/
theorem lexN_enough (fo : FloatOps F) (s : Str) (n : Nat) (h : s.length ≤ n) : lexN fo (n + 1) s = xlex fo s := by
  suffices ∀ (k : Nat) (s : Str), s.length ≤ k → ∀ n, s.length ≤ n → lexN fo (n + 1) s = lexN fo (s.length + 1) s from
    this _ s (Nat.le_refl _) n h
  intro k
  induction k with
  | zero =>
    intro s hs n _
    match s, hs with
    | [], _ => rfl
  | succ k ih =>
    intro s hs n hn
    rw [lexN, lexN]
    cases hl : lexOne fo (s.dropWhile isIgnored) with
    | eof => rfl
    | bad => rfl
    | tok t r =>
      obtain ⟨u, h1, h2, -⟩ := lexOne_inv hl
      have hu : 0 < u.length := List.length_pos_iff.mpr (spells_ne h2)
      have hlen : (s.takeWhile isIgnored).length + (u.length + r.length) = s.length := by
        rw [← List.length_append, ← List.length_append, ← h1, List.takeWhile_append_dropWhile]
      have e1 := ih r (by omega) (n - 1) (by omega)
      have e2 := ih r (by omega) (s.length - 1) (by omega)
      rw [show n - 1 + 1 = n by omega] at e1
      rw [show s.length - 1 + 1 = s.length by omega] at e2
      simp only [e1, e2]

/-- The lexer reads a string as a list of tokens exactly when the tokens are written so. -/
theorem xlex_iff (fo : FloatOps F) (s : Str) (ts : List (Tok F)) : xlex fo s = (ts, false) ↔ Written fo ts s :=
  ⟨written_lexN _ s ts (Nat.lt_succ_self _), fun h => lexN_written h _ (Nat.lt_succ_self _)⟩

end Amara.X
