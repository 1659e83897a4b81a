import Verif.Spec.Lex
import Verif.Lemmas.Chars
import Verif.Lemmas.XLex
/-
Helper lemmas: the rules of the MicroXML scanner match exactly the tokens, the longest one.
-/
namespace Amara.Lex

open Amara.X (takeWhile_all takeWhile_mem)

/-! ### pieces -/

theorem run_prefix {p : Char → Bool} {w t : Str} (hw : ∀ c ∈ w, p c = true) :
    (w ++ t).takeWhile p = w ++ t.takeWhile p := by
  induction w with
  | nil => rfl
  | cons c w ih => simp [hw c (by simp), ih (fun d hd => hw d (by simp [hd]))]

theorem take_takeWhile (p : Char → Bool) (s : Str) : s.take (s.takeWhile p).length = s.takeWhile p :=
  List.prefix_iff_eq_take.1 (List.takeWhile_prefix p) |>.symm

theorem takeWhile_drop (p : Char → Bool) (s : Str) : s = s.takeWhile p ++ s.drop (s.takeWhile p).length := by
  have := List.take_append_drop (s.takeWhile p).length s
  rw [take_takeWhile] at this
  exact this.symm

theorem isLexWs_iff (c : Char) : isLexWs c = true ↔ c = ' ' ∨ c = '\t' ∨ c = '\n' := by
  simp only [isLexWs, Bool.or_eq_true, beq_iff_eq]
  constructor
  · rintro ((h | h) | h) <;> simp [h]
  · rintro (h | h | h) <;> simp [h]

theorem lexSpace_all {w : Str} : LexSpace w ↔ ∀ c ∈ w, isLexWs c = true := by
  simp only [LexSpace, isLexWs_iff]

theorem lexWs_ws {c : Char} (h : isLexWs c = true) : isWs c = true := by
  rw [isLexWs_iff] at h; rw [isWs_iff]; rcases h with h | h | h <;> simp [h]

theorem lexWs_space {c : Char} (h : isLexWs c = true) : isPySpace c = true := by
  rw [isLexWs_iff] at h; rcases h with rfl | rfl | rfl <;> decide

theorem nameStart_not_lexWs {c : Char} (h : isNameStart c = true) : isLexWs c = false := by
  cases hc : isLexWs c with
  | false => rfl
  | true => have := isWs_nameStart h; rw [lexWs_ws hc] at this; cases this

theorem lexWs_not_nameChar {c : Char} (h : isLexWs c = true) : isNameChar c = false := isNameChar_ws (lexWs_ws h)

theorem matchName_sound {s n : Str} (h : matchName s = some n) : IsName n ∧ n <+: s := by
  match s with
  | [] => cases h
  | c :: r =>
    simp only [matchName] at h
    split at h
    · rename_i hc
      cases h
      refine ⟨⟨c, _, rfl, (isNameStart_iff c).1 hc, fun d hd => (isNameChar_iff d).1 (takeWhile_mem r d hd)⟩, ?_⟩
      exact (List.cons_prefix_cons).2 ⟨rfl, List.takeWhile_prefix _⟩
    · cases h

theorem matchName_of {n t : Str} (hn : IsName n) : matchName (n ++ t) = some (n ++ t.takeWhile isNameChar) := by
  obtain ⟨c, r, rfl, hc, hr⟩ := hn
  simp only [List.cons_append, matchName, (isNameStart_iff c).2 hc, if_true]
  rw [run_prefix (fun d hd => (isNameChar_iff d).2 (hr d hd))]

theorem name_head {n : Str} (hn : IsName n) : ∃ c r, n = c :: r ∧ isNameStart c = true := by
  obtain ⟨c, r, rfl, hc, _⟩ := hn
  exact ⟨c, r, rfl, (isNameStart_iff c).2 hc⟩

theorem ws_name {w1 n t : Str} (h1 : LexSpace w1) (hn : IsName n) :
    (w1 ++ (n ++ t)).takeWhile isLexWs = w1 := by
  obtain ⟨c, r, rfl, hc⟩ := name_head hn
  refine (takeWhile_all (lexSpace_all.1 h1) ?_).1
  intro d s hd
  cases hd
  exact nameStart_not_lexWs hc

theorem matchSpacedName_of {w1 n t : Str} (h1 : LexSpace w1) (hn : IsName n) :
    matchSpacedName (w1 ++ (n ++ t)) =
      some (w1 ++ (n ++ t.takeWhile isNameChar) ++ (t.drop (t.takeWhile isNameChar).length).takeWhile isLexWs) := by
  simp only [matchSpacedName, ws_name h1 hn, List.drop_left, matchName_of hn]
  congr 2
  rw [show w1.length + (n ++ t.takeWhile isNameChar).length = (w1 ++ (n ++ t.takeWhile isNameChar)).length by simp]
  have : w1 ++ (n ++ t) = (w1 ++ (n ++ t.takeWhile isNameChar)) ++ t.drop (t.takeWhile isNameChar).length := by
    conv => lhs; rw [takeWhile_drop isNameChar t]
    simp
  rw [this, List.drop_left]

theorem matchSpacedName_sound {s m : Str} (h : matchSpacedName s = some m) :
    m <+: s ∧ ∃ w1 n w2, LexSpace w1 ∧ IsName n ∧ LexSpace w2 ∧ m = w1 ++ (n ++ w2) := by
  simp only [matchSpacedName] at h
  split at h
  · rename_i n hn
    obtain ⟨h1, t, ht⟩ := matchName_sound hn
    cases h
    have hs : s = s.takeWhile isLexWs ++ (n ++ t) := by rw [ht]; exact takeWhile_drop _ _
    have hd : s.drop ((s.takeWhile isLexWs).length + n.length) = t := by
      rw [← List.drop_drop, ← ht, List.drop_left]
    rw [hd]
    refine ⟨?_, _, n, _, lexSpace_all.2 (takeWhile_mem s), h1, lexSpace_all.2 (takeWhile_mem t),
      by rw [List.append_assoc]⟩
    refine ⟨t.drop (t.takeWhile isLexWs).length, ?_⟩
    conv => rhs; rw [hs, takeWhile_drop isLexWs t]
    simp
  · cases h

/-- The longest spaced name. -/
theorem matchSpacedName_longest {w1 n w2 t : Str} (h1 : LexSpace w1) (hn : IsName n) (h2 : LexSpace w2) :
    ∃ m, matchSpacedName (w1 ++ (n ++ w2) ++ t) = some m ∧ (w1 ++ (n ++ w2)) <+: m := by
  rw [show w1 ++ (n ++ w2) ++ t = w1 ++ (n ++ (w2 ++ t)) by simp, matchSpacedName_of h1 hn]
  refine ⟨_, rfl, ?_⟩
  cases w2 with
  | nil =>
    refine ⟨(t.takeWhile isNameChar) ++ (t.drop (t.takeWhile isNameChar).length).takeWhile isLexWs, ?_⟩
    simp
  | cons c w2 =>
    have hc : isLexWs c = true := lexSpace_all.1 h2 c (by simp)
    have : (c :: w2 ++ t).takeWhile isNameChar = [] := by simp [lexWs_not_nameChar hc]
    rw [this]
    simp only [List.append_nil, List.length_nil, List.drop_zero]
    rw [run_prefix (lexSpace_all.1 h2)]
    exact ⟨t.takeWhile isLexWs, by simp⟩

/-- A spaced name that cannot be longer. -/
theorem matchSpacedName_ends {w1 n w2 t : Str} (h1 : LexSpace w1) (hn : IsName n) (h2 : LexSpace w2)
    (ht : ∀ c ∈ t.head?, (w2 = [] → isNameChar c = false) ∧ isLexWs c = false) :
    matchSpacedName (w1 ++ (n ++ w2) ++ t) = some (w1 ++ (n ++ w2)) := by
  rw [show w1 ++ (n ++ w2) ++ t = w1 ++ (n ++ (w2 ++ t)) by simp, matchSpacedName_of h1 hn]
  have ht' : t.takeWhile isLexWs = [] := by
    cases t with
    | nil => rfl
    | cons c t => simp [(ht c rfl).2]
  have h3 : (w2 ++ t).takeWhile isNameChar = [] := by
    cases w2 with
    | nil =>
      cases t with
      | nil => rfl
      | cons c t => simp [(ht c rfl).1 rfl]
    | cons c w2 => simp [lexWs_not_nameChar (lexSpace_all.1 h2 c (by simp))]
  rw [h3]
  simp only [List.append_nil, List.length_nil, List.drop_zero]
  rw [run_prefix (lexSpace_all.1 h2), ht']
  simp

theorem matchSpacedName_exact {w1 n w2 t : Str} (h1 : LexSpace w1) (hn : IsName n) (h2 : LexSpace w2)
    (ht : ∀ c ∈ t.head?, isNameChar c = false ∧ isLexWs c = false) :
    matchSpacedName (w1 ++ (n ++ w2) ++ t) = some (w1 ++ (n ++ w2)) :=
  matchSpacedName_ends h1 hn h2 fun c hc => ⟨fun _ => (ht c hc).1, (ht c hc).2⟩

/-! ### `strip` -/

theorem dropWhile_stop {p : Char → Bool} {v b : Str} (h : ∀ c ∈ v.head?, p c = false) (hv : v ≠ []) :
    (v ++ b).dropWhile p = v ++ b := by
  cases v with
  | nil => exact absurd rfl hv
  | cons c v => simp [h c rfl]

theorem dropWhile_all {p : Char → Bool} {a t : Str} (ha : ∀ c ∈ a, p c = true) :
    (a ++ t).dropWhile p = t.dropWhile p := by
  induction a with
  | nil => rfl
  | cons c a ih => simp [ha c (by simp), ih (fun d hd => ha d (by simp [hd]))]

theorem stripped_eq {s v : Str} (h : Stripped s v) : v = pyStrip s := by
  obtain ⟨a, b, rfl, ha, hb, h1, h2⟩ := h
  rw [pyStrip, dropWhile_all ha]
  by_cases hv : v = []
  · subst hv
    have : (([] : Str) ++ b).dropWhile isPySpace = [] := by
      simpa using dropWhile_all (t := []) hb
    rw [this]; rfl
  · rw [dropWhile_stop h1 hv, List.reverse_append, dropWhile_all (by simpa using hb)]
    have := dropWhile_stop (p := isPySpace) (v := v.reverse) (b := []) (by
      rw [List.head?_reverse]; exact h2) (by simpa using hv)
    rw [List.append_nil] at this
    rw [this, List.reverse_reverse]

theorem dropWhile_head {p : Char → Bool} (s : Str) : ∀ c ∈ (s.dropWhile p).head?, p c = false := by
  induction s with
  | nil => intro c hc; cases hc
  | cons d s ih =>
    intro c hc
    by_cases hd : p d = true
    · simp only [List.dropWhile_cons, hd, if_true] at hc; exact ih c hc
    · simp only [List.dropWhile_cons, hd] at hc
      cases hc
      simpa using hd

theorem pyStrip_stripped (s : Str) : Stripped s (pyStrip s) := by
  let u := s.dropWhile isPySpace
  refine ⟨s.takeWhile isPySpace, (u.reverse.takeWhile isPySpace).reverse, ?_, takeWhile_mem s, ?_, ?_, ?_⟩
  · have : u = pyStrip s ++ (u.reverse.takeWhile isPySpace).reverse := by
      have := congrArg List.reverse (List.takeWhile_append_dropWhile (p := isPySpace) (l := u.reverse))
      rw [List.reverse_append, List.reverse_reverse] at this
      exact this.symm
    rw [← this]
    exact (List.takeWhile_append_dropWhile).symm
  · intro c hc
    exact takeWhile_mem u.reverse c (by simpa using hc)
  · intro c hc
    have hu : ∀ c ∈ u.head?, isPySpace c = false := dropWhile_head s
    refine hu c ?_
    have : u = pyStrip s ++ (u.reverse.takeWhile isPySpace).reverse := by
      have := congrArg List.reverse (List.takeWhile_append_dropWhile (p := isPySpace) (l := u.reverse))
      rw [List.reverse_append, List.reverse_reverse] at this
      exact this.symm
    rw [this]
    cases hp : pyStrip s with
    | nil => rw [hp] at hc; cases hc
    | cons d r => rw [hp] at hc; exact hc
  · intro c hc
    rw [pyStrip, List.getLast?_reverse] at hc
    exact dropWhile_head _ c hc

/-! ### what the rules match is a token -/

/-- The match `m` is a token at the beginning of `s`. -/
def Good (st : LState) (s : Str) (m : Match) : Prop :=
  ∃ w r, s = w ++ r ∧ w.length = m.len ∧ Lexeme st m.kind m.value w m.next

theorem isPrefixOf_split {a s : Str} (h : a.isPrefixOf s = true) : s = a ++ s.drop a.length := by
  obtain ⟨t, rfl⟩ := List.isPrefixOf_iff_prefix.1 h
  simp

theorem ruleStart_good {s m} (h : ruleStart s = some m) : Good .data s m := by
  unfold ruleStart at h
  split at h
  · rename_i r
    rw [Option.map_eq_some_iff] at h
    obtain ⟨x, hx, rfl⟩ := h
    obtain ⟨⟨t, ht⟩, w1, n, w2, h1, hn, h2, rfl⟩ := matchSpacedName_sound hx
    exact ⟨_, t, by rw [← ht]; rfl, rfl, .start h1 hn h2 (pyStrip_stripped _)⟩
  · cases h

theorem head_split {s : Str} {c : Char} (h : s.head? = some c) : ∃ r, s = c :: r := by
  cases s with
  | nil => cases h
  | cons d s => cases h; exact ⟨s, rfl⟩

theorem ruleEnd_good {s m} (h : ruleEnd s = some m) : Good .data s m := by
  unfold ruleEnd at h
  split at h
  · rename_i r
    split at h
    · rename_i x hx
      split at h
      · rename_i hg
        cases h
        obtain ⟨⟨t, ht⟩, w1, n, w2, h1, hn, h2, rfl⟩ := matchSpacedName_sound hx
        rw [← ht, List.drop_left] at hg
        obtain ⟨t', rfl⟩ := head_split hg
        refine ⟨_, t', ?_, ?_, .stop h1 hn h2 (pyStrip_stripped _)⟩
        · rw [← ht]; simp
        · simp only [List.length_cons, List.length_append, List.length_nil]
      · cases h
    · cases h
  · cases h

theorem hexDigits_ok {ds : Str} : (∀ d ∈ ds, (hexDigit? d).isSome = true) ↔ ∀ d ∈ ds, isHexDigit d = true :=
  ⟨fun h d hd => (hexDigit_agree d).1.2 (h d hd), fun h d hd => (hexDigit_agree d).1.1 (h d hd)⟩

theorem numEnt_good {st s m} (hst : st ≠ .tag) (h : numEnt st s = some m) : Good st s m := by
  unfold numEnt at h
  split at h
  · rename_i hp
    have hs := isPrefixOf_split hp
    rw [Option.map_eq_some_iff] at h
    obtain ⟨ds, hd, rfl⟩ := h
    simp only [matchHex] at hd
    split at hd
    · rename_i hc
      cases hd
      obtain ⟨t, ht⟩ := head_split hc.2
      refine ⟨_, t, ?_, ?_, .hex hst hc.1 (hexDigits_ok.2 (takeWhile_mem _))⟩
      · conv => lhs; rw [hs]
        show _ ++ s.drop 3 = _
        conv => lhs; rw [takeWhile_drop isHexDigit (s.drop 3), ht]
        simp
      · simp
    · cases hd
  · cases h

theorem ruleComment_good {s m} (h : ruleComment s = some m) : Good .data s m := by
  unfold ruleComment at h
  split at h
  · rename_i hp
    have hs := isPrefixOf_split hp
    rw [Option.map_eq_some_iff] at h
    obtain ⟨x, hx, rfl⟩ := h
    simp only [matchComment] at hx
    split at hx
    · rename_i hc
      cases hx
      obtain ⟨t, ht⟩ := head_split hc.1
      obtain ⟨y, hy⟩ := hc.2
      have hd := takeWhile_drop isDataChar (s.drop 4)
      have hm := takeWhile_mem (p := isDataChar) (s.drop 4)
      rw [ht] at hd
      rw [← hy] at hd hm ⊢
      have htake : (y ++ ['-', '-']).take ((y ++ ['-', '-']).length - 2) = y := by simp
      rw [htake]
      refine ⟨_, t, ?_, ?_, .comment (fun c hc => (isDataChar_iff c).1 (hm c (by simp [hc])))⟩
      · conv => lhs; rw [hs]
        show _ ++ s.drop 4 = _
        rw [hd]
        simp
      · simp
    · cases hx
  · cases h

theorem ruleRun_good {p st st' s m} (h : ruleRun p st' s = some m)
    (hp : ∀ v, v ≠ [] → (∀ c ∈ v, p c = true) → Lexeme st .chardata v v st') : Good st s m := by
  unfold ruleRun at h
  rw [Option.map_eq_some_iff] at h
  obtain ⟨x, hx, rfl⟩ := h
  simp only [matchRun] at hx
  split at hx
  · rename_i hne
    cases hx
    exact ⟨_, _, takeWhile_drop p s, rfl, hp _ hne (takeWhile_mem s)⟩
  · cases hx

theorem namedEnt_good {st s m} (hst : st ≠ .tag) (h : namedEnt st s = some m) : Good st s m := by
  unfold namedEnt at h
  rw [Option.map_eq_some_iff] at h
  obtain ⟨⟨k, v⟩, hx, rfl⟩ := h
  have key : ∀ (n : String) (k : Kind), (n, k) ∈ entities → n.toList.isPrefixOf s = true →
      Good st s ⟨k, n.toList, st, n.toList.length⟩ :=
    fun n k hm hp => ⟨_, _, isPrefixOf_split hp, rfl, .named hst hm⟩
  unfold matchEnt at hx
  split at hx
  · rename_i hp; cases hx; exact key "&amp;" _ (by decide) hp
  split at hx
  · rename_i hp; cases hx; exact key "&lt;" _ (by decide) hp
  split at hx
  · rename_i hp; cases hx; exact key "&gt;" _ (by decide) hp
  split at hx
  · rename_i hp; cases hx; exact key "&quot;" _ (by decide) hp
  split at hx
  · rename_i hp; cases hx; exact key "&apos;" _ (by decide) hp
  · cases hx

theorem ruleChar_good {c k st next s m} (h : ruleChar c k next s = some m) (hl : Lexeme st k [c] [c] next) :
    Good st s m := by
  unfold ruleChar at h
  split at h
  · rename_i hs
    cases h
    obtain ⟨r, rfl⟩ := head_split hs
    exact ⟨[c], r, rfl, rfl, hl⟩
  · cases h

theorem ruleName_good {s m} (h : ruleName s = some m) : Good .tag s m := by
  unfold ruleName at h
  rw [Option.map_eq_some_iff] at h
  obtain ⟨x, hx, rfl⟩ := h
  obtain ⟨hn, t, rfl⟩ := matchName_sound hx
  exact ⟨x, t, rfl, rfl, .name hn⟩

theorem or_cases {α} {a b : Option α} {m : α} (h : a.or b = some m) : a = some m ∨ (a = none ∧ b = some m) := by
  cases a with
  | none => exact .inr ⟨rfl, h⟩
  | some x => exact .inl h

theorem sgl_pat (c : Char) : isAttrCharSgl c = true ↔ AttrLit '\'' c := attrPat_sgl c
theorem dbl_pat (c : Char) : isAttrCharDbl c = true ↔ AttrLit '"' c := attrPat_dbl c

theorem scan_good {st s m} (h : scan st s = some m) : Good st s m := by
  cases st with
  | data =>
    rcases or_cases (show (_ : Option Match).or _ = some m from h) with h | ⟨_, h⟩
    · exact ruleStart_good h
    rcases or_cases h with h | ⟨_, h⟩
    · exact ruleEnd_good h
    rcases or_cases h with h | ⟨_, h⟩
    · exact numEnt_good (by decide) h
    rcases or_cases h with h | ⟨_, h⟩
    · exact ruleComment_good h
    rcases or_cases h with h | ⟨_, h⟩
    · exact ruleRun_good h (fun v h1 h2 => .text h1 (fun c hc => (isDataChar_iff c).1 (h2 c hc)))
    rcases or_cases h with h | ⟨_, h⟩
    · exact namedEnt_good (by decide) h
    · exact ruleChar_good h .gtData
  | tag =>
    rcases or_cases (show (_ : Option Match).or _ = some m from h) with h | ⟨_, h⟩
    · exact ruleName_good h
    rcases or_cases h with h | ⟨_, h⟩
    · exact ruleChar_good h .gt
    rcases or_cases h with h | ⟨_, h⟩
    · exact ruleChar_good h .openSgl
    rcases or_cases h with h | ⟨_, h⟩
    · exact ruleChar_good h .openDbl
    · exact ruleChar_good h .eq
  | attrsgl =>
    rcases or_cases (show (_ : Option Match).or _ = some m from h) with h | ⟨_, h⟩
    · exact ruleChar_good h .closeSgl
    rcases or_cases h with h | ⟨_, h⟩
    · exact ruleRun_good h (fun v h1 h2 => .valueSgl h1 (fun c hc => (sgl_pat c).1 (h2 c hc)))
    rcases or_cases h with h | ⟨_, h⟩
    · exact numEnt_good (by decide) h
    · exact namedEnt_good (by decide) h
  | attrdbl =>
    rcases or_cases (show (_ : Option Match).or _ = some m from h) with h | ⟨_, h⟩
    · exact ruleChar_good h .closeDbl
    rcases or_cases h with h | ⟨_, h⟩
    · exact ruleRun_good h (fun v h1 h2 => .valueDbl h1 (fun c hc => (dbl_pat c).1 (h2 c hc)))
    rcases or_cases h with h | ⟨_, h⟩
    · exact numEnt_good (by decide) h
    · exact namedEnt_good (by decide) h

/-! ### every token is found -/

/-- The character can be part of a longer token of the kind. -/
def grows : Kind → LState → Char → Bool
  | .starttag, _, c => isNameChar c || isLexWs c
  | .name, _, c => isNameChar c
  | .chardata, .data, c => isDataChar c
  | .chardata, .attrsgl, c => isAttrCharSgl c
  | .chardata, .attrdbl, c => isAttrCharDbl c
  | _, _, _ => false

/-- `scan` finds a token at least as long as `w`, and if it is as long or the next character cannot be part of it,
the one given. -/
def Finds (st : LState) (k : Kind) (v w : Str) (st' : LState) (r : Str) : Prop :=
  ∃ m, scan st (w ++ r) = some m ∧ w.length ≤ m.len ∧
    (w.length = m.len ∨ (∀ c ∈ r.head?, grows k st c = false) → m = ⟨k, v, st', w.length⟩)

theorem finds_of {st k v w st' r} (h : scan st (w ++ r) = some ⟨k, v, st', w.length⟩) : Finds st k v w st' r :=
  ⟨_, h, Nat.le_refl _, fun _ => rfl⟩

theorem takeWhile_none {p : Char → Bool} {r : Str} (h : ∀ c ∈ r.head?, p c = false) : r.takeWhile p = [] := by
  cases r with
  | nil => rfl
  | cons c r => simp [h c rfl]

theorem start_none {c : Char} {r : Str} (h : c ≠ '<') : ruleStart (c :: r) = none := by
  unfold ruleStart
  split
  · rename_i heq; cases heq; exact absurd rfl h
  · rfl

theorem end_none {c : Char} {r : Str} (h : c ≠ '<') : ruleEnd (c :: r) = none := by
  unfold ruleEnd
  split
  · rename_i heq; cases heq; exact absurd rfl h
  · rfl

theorem prefix_none {a : Char} {as s : Str} {c : Char} (h : c ≠ a) : (a :: as).isPrefixOf (c :: s) = false := by
  simp [List.isPrefixOf, Ne.symm h]

theorem num_none {st} {c : Char} {r : Str} (h : c ≠ '&') : numEnt st (c :: r) = none := by
  unfold numEnt
  rw [show "&#x".toList.isPrefixOf (c :: r) = false from prefix_none h]; rfl

theorem comment_none {c : Char} {r : Str} (h : c ≠ '<') : ruleComment (c :: r) = none := by
  unfold ruleComment
  rw [show "<!--".toList.isPrefixOf (c :: r) = false from prefix_none h]; rfl

theorem named_none {st} {c : Char} {r : Str} (h : c ≠ '&') : namedEnt st (c :: r) = none := by
  unfold namedEnt matchEnt
  rw [show "&amp;".toList.isPrefixOf (c :: r) = false from prefix_none h,
    show "&lt;".toList.isPrefixOf (c :: r) = false from prefix_none h,
    show "&gt;".toList.isPrefixOf (c :: r) = false from prefix_none h,
    show "&quot;".toList.isPrefixOf (c :: r) = false from prefix_none h,
    show "&apos;".toList.isPrefixOf (c :: r) = false from prefix_none h]
  rfl

theorem run_none {p st} {c : Char} {r : Str} (h : p c = false) : ruleRun p st (c :: r) = none := by
  simp [ruleRun, matchRun, h]

theorem char_none {d k st} {c : Char} {r : Str} (h : c ≠ d) : ruleChar d k st (c :: r) = none := by
  simp [ruleChar, h]

theorem name_none {c : Char} {r : Str} (h : isNameStart c = false) : ruleName (c :: r) = none := by
  simp [ruleName, matchName, h]

theorem run_some {p st w r} (hw : w ≠ []) (hp : ∀ c ∈ w, p c = true) :
    ruleRun p st (w ++ r) = some ⟨.chardata, w ++ r.takeWhile p, st, (w ++ r.takeWhile p).length⟩ := by
  rw [ruleRun, matchRun]
  simp only [run_prefix hp]
  rw [if_pos (by simp [hw])]
  rfl

theorem hex_some {st ds r} (h0 : ds ≠ []) (hd : ∀ d ∈ ds, (hexDigit? d).isSome = true) :
    numEnt st ("&#x".toList ++ (ds ++ [';']) ++ r) = some ⟨.numEnt, ds, st, ds.length + 4⟩ := by
  unfold numEnt
  rw [if_pos (by rw [List.isPrefixOf_iff_prefix]; exact ⟨ds ++ [';'] ++ r, by simp⟩)]
  have : ("&#x".toList ++ (ds ++ [';']) ++ r).drop 3 = ds ++ ';' :: r := by simp
  rw [this]
  have htw : (ds ++ ';' :: r).takeWhile isHexDigit = ds :=
    (takeWhile_all (hexDigits_ok.1 hd) (by intro c s hs; cases hs; decide)).1
  rw [matchHex]
  simp only [htw, List.drop_left]
  rw [if_pos ⟨h0, rfl⟩]
  rfl

theorem named_some {st n k r} (h : (n, k) ∈ entities) :
    namedEnt st (n.toList ++ r) = some ⟨k, n.toList, st, n.toList.length⟩ ∧ numEnt st (n.toList ++ r) = none ∧
    ∃ r', n.toList ++ r = '&' :: r' := by
  simp only [entities, List.mem_cons, Prod.mk.injEq, List.not_mem_nil, or_false] at h
  rcases h with ⟨rfl, rfl⟩ | ⟨rfl, rfl⟩ | ⟨rfl, rfl⟩ | ⟨rfl, rfl⟩ | ⟨rfl, rfl⟩ <;>
    exact ⟨by simp [namedEnt, matchEnt, List.isPrefixOf], by simp [numEnt, List.isPrefixOf], _, rfl⟩

theorem lexeme_ne {st k v w st'} (h : Lexeme st k v w st') : w ≠ [] := by
  cases h with
  | text h => exact h
  | valueSgl h => exact h
  | valueDbl h => exact h
  | name h => obtain ⟨c, r, rfl, _⟩ := h; simp
  | named _ hm =>
    simp only [entities, List.mem_cons, Prod.mk.injEq, List.not_mem_nil, or_false] at hm
    rcases hm with ⟨rfl, rfl⟩ | ⟨rfl, rfl⟩ | ⟨rfl, rfl⟩ | ⟨rfl, rfl⟩ | ⟨rfl, rfl⟩ <;> simp
  | _ => simp

theorem finds_run {st p w r} (hs : ∀ {m}, ruleRun p st (w ++ r) = some m → scan st (w ++ r) = some m)
    (h0 : w ≠ []) (hw : ∀ c ∈ w, p c = true) (hg : grows .chardata st = p) : Finds st .chardata w w st r := by
  refine ⟨_, hs (run_some h0 hw), by simp, fun hl => ?_⟩
  have : r.takeWhile p = [] := by
    rcases hl with hl | hl
    · cases h : r.takeWhile p with
      | nil => rfl
      | cons c t => rw [h] at hl; simp at hl
    · exact takeWhile_none (hg ▸ hl)
  rw [this]; simp

theorem attr_run {st q k p} {c : Char} {r : Str} {m} (hq : c ≠ q) (h : ruleRun p st (c :: r) = some m) :
    scanAttr st q k p (c :: r) = some m := by
  rw [scanAttr, char_none hq, h]; rfl

theorem lexeme_finds {st k v w st'} (h : Lexeme st k v w st') (r : Str) : Finds st k v w st' r := by
  cases h with
  | @start w1 n w2 v h1 hn h2 hv =>
    obtain ⟨m, hm, hp⟩ := matchSpacedName_longest (t := r) h1 hn h2
    refine ⟨⟨.starttag, pyStrip m, .tag, m.length + 1⟩, ?_, ?_, ?_⟩
    · show (ruleStart ('<' :: (w1 ++ (n ++ w2) ++ r))).or _ = _
      rw [ruleStart, hm]; rfl
    · have := hp.length_le; simp only [List.length_cons] at this ⊢; omega
    · intro hl
      have : w1 ++ (n ++ w2) = m := by
        rcases hl with hl | hl
        · exact hp.eq_of_length (by simpa using hl)
        · rw [matchSpacedName_exact h1 hn h2 (fun c hc => by simpa [grows] using hl c hc)] at hm
          exact Option.some.inj hm
      rw [← this, ← stripped_eq hv]; rfl
  | @stop w1 n w2 v h1 hn h2 hv =>
    have hm := matchSpacedName_exact (t := '>' :: r) h1 hn h2 (by intro c hc; cases hc; decide)
    refine finds_of ?_
    have e : '<' :: '/' :: (w1 ++ (n ++ w2) ++ ['>']) ++ r = '<' :: '/' :: (w1 ++ (n ++ w2) ++ '>' :: r) := by simp
    rw [e]
    show (ruleStart ('<' :: '/' :: (w1 ++ (n ++ w2) ++ '>' :: r))).or
      ((ruleEnd ('<' :: '/' :: (w1 ++ (n ++ w2) ++ '>' :: r))).or _) = _
    have hs : ruleStart ('<' :: '/' :: (w1 ++ (n ++ w2) ++ '>' :: r)) = none := by
      rw [ruleStart, matchSpacedName]
      simp [isLexWs, matchName, show isNameStart '/' = false by decide]
    rw [hs, ruleEnd, hm]
    simp only [List.drop_left]
    rw [← stripped_eq hv]
    simp; omega
  | comment hm =>
    refine finds_of ?_
    have e : "<!--".toList ++ (v ++ "-->".toList) ++ r = '<' :: '!' :: '-' :: '-' :: (v ++ ['-', '-'] ++ '>' :: r) := by
      simp
    rw [e]
    have hs : ruleStart ('<' :: '!' :: '-' :: '-' :: (v ++ ['-', '-'] ++ '>' :: r)) = none := by
      rw [ruleStart, matchSpacedName]
      simp [isLexWs, matchName, show isNameStart '!' = false by decide]
    have he : ruleEnd ('<' :: '!' :: '-' :: '-' :: (v ++ ['-', '-'] ++ '>' :: r)) = none := by
      unfold ruleEnd
      split
      · rename_i heq; cases heq
      · rfl
    have htw : (v ++ ['-', '-'] ++ '>' :: r).takeWhile isDataChar = v ++ ['-', '-'] := by
      refine (takeWhile_all ?_ (by intro c s hs; cases hs; decide)).1
      intro c hc
      rcases List.mem_append.1 hc with hc | hc
      · exact (isDataChar_iff c).2 (hm c hc)
      · have : c = '-' := by simpa using hc
        subst this; decide
    have hc : ruleComment ('<' :: '!' :: '-' :: '-' :: (v ++ ['-', '-'] ++ '>' :: r)) =
        some ⟨.comment, v, .data, v.length + 7⟩ := by
      unfold ruleComment
      rw [if_pos (by simp [List.isPrefixOf])]
      simp only [List.drop_succ_cons, List.drop_zero, matchComment, htw, List.drop_left]
      rw [if_pos ⟨rfl, ⟨v, rfl⟩⟩]
      simp
    rw [scan, scanData, hs, he, num_none (by decide), hc]
    simp
  | text h0 hw =>
    refine finds_run ?_ h0 (fun c hc => (isDataChar_iff c).2 (hw c hc)) rfl
    intro m hm
    obtain ⟨c, w', rfl⟩ := List.exists_cons_of_ne_nil h0
    have hc := hw c (by simp)
    have h1 : c ≠ '<' := hc.2.2.1
    have h2 : c ≠ '&' := hc.2.1
    rw [List.cons_append] at hm ⊢
    rw [scan, scanData, start_none h1, end_none h1, num_none h2, comment_none h1, hm]
    rfl
  | gtData =>
    refine finds_of ?_
    rw [List.singleton_append, scan, scanData, start_none (by decide), end_none (by decide), num_none (by decide),
      comment_none (by decide), run_none (by decide), named_none (by decide)]
    rfl
  | name hn =>
    refine ⟨_, show (ruleName (v ++ r)).or _ = _ by rw [ruleName, matchName_of hn]; rfl, by simp, fun hl => ?_⟩
    have : r.takeWhile isNameChar = [] := by
      rcases hl with hl | hl
      · cases h : r.takeWhile isNameChar with
        | nil => rfl
        | cons c t => rw [h] at hl; simp at hl
      · exact takeWhile_none hl
    rw [this]; simp
  | gt =>
    refine finds_of ?_
    rw [List.singleton_append, scan, scanTag, name_none (by decide)]; rfl
  | eq =>
    refine finds_of ?_
    rw [List.singleton_append, scan, scanTag, name_none (by decide), char_none (by decide),
      char_none (by decide), char_none (by decide)]
    rfl
  | openSgl =>
    refine finds_of ?_
    rw [List.singleton_append, scan, scanTag, name_none (by decide), char_none (by decide)]; rfl
  | openDbl =>
    refine finds_of ?_
    rw [List.singleton_append, scan, scanTag, name_none (by decide), char_none (by decide), char_none (by decide)]; rfl
  | closeSgl => exact finds_of rfl
  | closeDbl => exact finds_of rfl
  | valueSgl h0 hw =>
    refine finds_run ?_ h0 (fun c hc => (sgl_pat c).2 (hw c hc)) rfl
    intro m hm
    obtain ⟨c, w', rfl⟩ := List.exists_cons_of_ne_nil h0
    exact attr_run (hw c (by simp)).2.2.2.2.2.2 hm
  | valueDbl h0 hw =>
    refine finds_run ?_ h0 (fun c hc => (dbl_pat c).2 (hw c hc)) rfl
    intro m hm
    obtain ⟨c, w', rfl⟩ := List.exists_cons_of_ne_nil h0
    exact attr_run (hw c (by simp)).2.2.2.2.2.2 hm
  | hex hst h0 hd =>
    refine finds_of ?_
    have hx := hex_some (st := st) (r := r) h0 hd
    have hl : ("&#x".toList ++ (v ++ [';'])).length = v.length + 4 := by simp
    rw [hl]
    have e : "&#x".toList ++ (v ++ [';']) ++ r = '&' :: '#' :: 'x' :: (v ++ ';' :: r) := by simp
    rw [e] at hx ⊢
    cases st with
    | tag => exact absurd rfl hst
    | data =>
      rw [scan, scanData, start_none (by decide), end_none (by decide), hx]; rfl
    | attrsgl =>
      rw [scan, scanAttr, char_none (by decide), run_none (by decide), hx]; rfl
    | attrdbl =>
      rw [scan, scanAttr, char_none (by decide), run_none (by decide), hx]; rfl
  | @named st n k hst hm =>
    refine finds_of ?_
    obtain ⟨h1, h2, r', h3⟩ := named_some (st := st) (r := r) hm
    rw [h3] at h1 h2 ⊢
    cases st with
    | tag => exact absurd rfl hst
    | data =>
      rw [scan, scanData, start_none (by decide), end_none (by decide), h2, comment_none (by decide),
        run_none (by decide), h1]
      rfl
    | attrsgl =>
      rw [scan, scanAttr, char_none (by decide), run_none (by decide), h2, h1]; rfl
    | attrdbl =>
      rw [scan, scanAttr, char_none (by decide), run_none (by decide), h2, h1]; rfl

/-- What follows cannot be part of the token. -/
theorem scan_exact {st k v w st' r} (h : Lexeme st k v w st') (hr : ∀ c ∈ r.head?, grows k st c = false) :
    scan st (w ++ r) = some ⟨k, v, st', w.length⟩ := by
  obtain ⟨m, hm, _, he⟩ := lexeme_finds h r
  rw [hm, he (.inr hr)]

/-! ### the whole text -/

theorem drain_skip {fuel st p c r} (h : scan st (c :: r) = none) : drain (fuel + 1) ⟨st, c :: r, p⟩ =
    (.illegal c :: (drain (fuel + 1) ⟨st, r, p + 1⟩).1, (drain (fuel + 1) ⟨st, r, p + 1⟩).2) := by
  have : (Lexer.token ⟨st, c :: r, p⟩) = (c :: (Lexer.token ⟨st, r, p + 1⟩).1, (Lexer.token ⟨st, r, p + 1⟩).2) := by
    simp only [Lexer.token]
    rw [tokenFrom, h]
  rw [drain, this, drain]
  generalize Lexer.token ⟨st, r, p + 1⟩ = x
  obtain ⟨ill, t, l⟩ := x
  cases t <;> rfl

theorem drain_tok {fuel st p s m} (h : scan st s = some m) (hs : s ≠ []) : drain (fuel + 1) ⟨st, s, p⟩ =
    (.tok ⟨m.kind, m.value, p⟩ :: (drain fuel ⟨m.next, s.drop m.len, p + m.len⟩).1,
      (drain fuel ⟨m.next, s.drop m.len, p + m.len⟩).2) := by
  obtain ⟨c, r, rfl⟩ := List.exists_cons_of_ne_nil hs
  rw [drain]
  simp only [Lexer.token]
  rw [tokenFrom, h]
  rfl

theorem scan_none {st s} (h : scan st s = none) : ∀ k v w st', Lexeme st k v w st' → ¬ w <+: s := by
  rintro k v w st' hl ⟨t, rfl⟩
  obtain ⟨m, hm, _⟩ := lexeme_finds hl t
  rw [h] at hm; cases hm

theorem accounts_drain (n : Nat) : ∀ {s st p fuel}, s.length ≤ n → s.length < fuel →
    Accounts st p s (drain fuel ⟨st, s, p⟩).1 (drain fuel ⟨st, s, p⟩).2.state := by
  induction n with
  | zero =>
    intro s st p fuel h0 hf
    obtain rfl : s = [] := List.length_eq_zero_iff.1 (by omega)
    cases fuel with
    | zero => omega
    | succ f => exact .nil
  | succ n ih =>
    intro s st p fuel h0 hf
    obtain ⟨f, rfl⟩ : ∃ f, fuel = f + 1 := ⟨fuel - 1, by omega⟩
    cases s with
    | nil => exact .nil
    | cons c r =>
      simp only [List.length_cons] at h0 hf
      cases hs : scan st (c :: r) with
      | none =>
        rw [drain_skip hs]
        exact .illegal (scan_none hs) (ih (by omega) (by omega))
      | some m =>
        rw [drain_tok hs (by simp)]
        obtain ⟨w, t, hw, hl, hx⟩ := scan_good hs
        have hne := List.length_pos_iff.2 (lexeme_ne hx)
        have hlen : w.length + t.length = r.length + 1 := by
          have := congrArg List.length hw
          simpa using this.symm
        rw [hw, ← hl, List.drop_left]
        refine .tok hx ?_ (ih (by omega) (by omega))
        rintro k' v' w' st'' hl' ⟨t', ht'⟩
        obtain ⟨m', hm', hle, _⟩ := lexeme_finds hl' t'
        rw [ht', ← hw, hs] at hm'
        cases hm'
        omega

theorem drain_accounts {st p s os st'} (h : Accounts st p s os st') :
    ∀ {fuel}, s.length < fuel → drain fuel ⟨st, s, p⟩ = (os, ⟨st', [], p + s.length⟩) := by
  induction h with
  | nil =>
    intro fuel hf
    cases fuel with
    | zero => omega
    | succ f => rfl
  | @illegal st p c r os st2 hn h ih =>
    intro fuel hf
    simp only [List.length_cons] at hf
    obtain ⟨f, rfl⟩ : ∃ f, fuel = f + 1 := ⟨fuel - 1, by omega⟩
    have hs : scan st (c :: r) = none := by
      cases hs : scan st (c :: r) with
      | none => rfl
      | some m =>
        obtain ⟨w, t, hw, _, hx⟩ := scan_good hs
        exact absurd ⟨t, hw.symm⟩ (hn _ _ _ _ hx)
    rw [drain_skip hs, ih (by omega)]
    simp only [List.length_cons]
    rw [show p + 1 + r.length = p + (r.length + 1) by omega]
  | @tok st p k v w st' r os st2 hl hmax h ih =>
    intro fuel hf
    simp only [List.length_append] at hf
    have hne := List.length_pos_iff.2 (lexeme_ne hl)
    obtain ⟨f, rfl⟩ : ∃ f, fuel = f + 1 := ⟨fuel - 1, by omega⟩
    obtain ⟨m, hm, hle, he⟩ := lexeme_finds hl r
    obtain ⟨w', t, hw, hl', hx⟩ := scan_good hm
    have := hmax _ _ _ _ hx ⟨t, hw.symm⟩
    obtain rfl := he (.inl (by omega))
    rw [drain_tok hm (by simp [lexeme_ne hl])]
    simp only [List.drop_left]
    rw [ih (by omega)]
    simp [Nat.add_assoc]

end Amara.Lex
