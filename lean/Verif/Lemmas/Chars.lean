import Verif.Spec.MicroXml
/-
The character classes of the code (ranges) against the specification's.
-/
namespace Amara

theorem Char.toNat_ne {c d : Char} : c ≠ d ↔ c.toNat ≠ d.toNat := by
  constructor
  · intro h h'; exact h (Char.toNat_inj.1 h')
  · intro h h'; exact h (by rw [h'])

theorem Char.eq_iff_toNat {c d : Char} : c = d ↔ c.toNat = d.toNat :=
  ⟨fun h => by rw [h], Char.toNat_inj.1⟩

theorem Char.valid_nat (c : Char) : c.toNat < 0xD800 ∨ (0xDFFF < c.toNat ∧ c.toNat < 0x110000) := by
  have := c.valid
  simpa [UInt32.isValidChar, Nat.isValidChar] using this

theorem isCharacterN_iff (n : Nat) : isCharacterN n = true ↔ LegalCode n := by
  simp only [isCharacterN, inRanges, highRanges, LegalCode, NonCharacter, List.any_cons, List.any_nil,
    Bool.or_eq_true, Bool.and_eq_true, decide_eq_true_eq, Bool.or_false]
  omega

theorem isCharacter_iff (c : Char) : isCharacter c = true ↔ Legal c := isCharacterN_iff _

theorem isDataChar_iff (c : Char) : isDataChar c = true ↔ TextLit c := by
  simp only [isDataChar, inRanges, highRanges, TextLit, Legal, LegalCode, NonCharacter, List.any_cons,
    List.any_nil, Bool.or_eq_true, Bool.and_eq_true, decide_eq_true_eq, Bool.or_false, Char.toNat_ne]
  simp only [Char.reduceToNat]
  omega

theorem isNameStart_iff (c : Char) : isNameStart c = true ↔ NameStartCode c.toNat := by
  simp only [isNameStart, inRanges, NameStartCode, List.any_cons,
    List.any_nil, Bool.or_eq_true, Bool.and_eq_true, decide_eq_true_eq, Bool.or_false]
  omega

theorem isNameChar_iff (c : Char) : isNameChar c = true ↔ NameCode c.toNat := by
  simp only [isNameChar, inRanges, NameCode, MicroNameCode, NameStartCode, List.any_cons,
    List.any_nil, Bool.or_eq_true, Bool.and_eq_true, decide_eq_true_eq, Bool.or_false]
  omega

theorem isName_iff {n : Str} : IsName n ↔
    ∃ c r, n = c :: r ∧ isNameStart c = true ∧ ∀ d ∈ r, isNameChar d = true := by
  simp only [IsName, isNameStart_iff, isNameChar_iff]

theorem attrPat_sgl (c : Char) : attrPat '\'' c = true ↔ AttrLit '\'' c := by
  simp only [attrPat, if_true, isAttrCharSgl, inRanges, highRanges, AttrLit, Legal, LegalCode,
    NonCharacter, List.any_cons, List.any_nil, Bool.or_eq_true, Bool.and_eq_true, decide_eq_true_eq,
    Bool.or_false, Char.toNat_ne]
  simp only [Char.reduceToNat]
  omega

theorem attrPat_dbl (c : Char) : attrPat '"' c = true ↔ AttrLit '"' c := by
  have : ('"' = '\'') = False := by decide
  simp only [attrPat, this, if_false, isAttrCharDbl, inRanges, highRanges, AttrLit, Legal, LegalCode,
    NonCharacter, List.any_cons, List.any_nil, Bool.or_eq_true, Bool.and_eq_true, decide_eq_true_eq,
    Bool.or_false, Char.toNat_ne]
  simp only [Char.reduceToNat]
  omega

theorem attrPat_iff {q : Char} (hq : q = '"' ∨ q = '\'') (c : Char) :
    attrPat q c = true ↔ AttrLit q c := by
  rcases hq with rfl | rfl
  · exact attrPat_dbl c
  · exact attrPat_sgl c

theorem isWs_iff (c : Char) : isWs c = true ↔ c = ' ' ∨ c = '\t' ∨ c = '\n' ∨ c = '\r' := by
  simp only [isWs, Bool.or_eq_true, beq_iff_eq]
  constructor
  · rintro (((h | h) | h) | h) <;> simp [h]
  · rintro (h | h | h | h) <;> simp [h]

theorem isNameChar_ws {c : Char} (h : isWs c = true) : isNameChar c = false := by
  rcases (isWs_iff c).1 h with rfl | rfl | rfl | rfl <;> decide

theorem isWs_nameStart {c : Char} (h : isNameStart c = true) : isWs c = false := by
  cases hw : isWs c with
  | false => rfl
  | true => rcases (isWs_iff c).1 hw with rfl | rfl | rfl | rfl <;> revert h <;> decide

theorem nameStart_ne {c : Char} (h : isNameStart c = true) : c ≠ '/' ∧ c ≠ '>' ∧ c ≠ '<' := by
  refine ⟨?_, ?_, ?_⟩ <;> (rintro rfl; revert h; decide)

/-! ### hexadecimal numbers -/

theorem isHexDigit_lt {c : Char} (h : isHexDigit c = true) : c.toNat < 0x67 := by
  simp only [isHexDigit, inRanges, List.any_cons, List.any_nil, Bool.or_eq_true, Bool.and_eq_true,
    decide_eq_true_eq, Bool.or_false] at h
  omega

set_option maxRecDepth 20000 in
/-- The code's and the specification's reading of a hexadecimal digit agree. -/
theorem hexDigit_agree (c : Char) :
    (isHexDigit c = true ↔ (hexDigit? c).isSome = true) ∧
    (isHexDigit c = true → hexDigit? c = some (hexVal c)) := by
  by_cases h : c.toNat < 0x80
  · have : ∀ n, n < 0x80 → (isHexDigit (Char.ofNat n) = true ↔
        (hexDigit? (Char.ofNat n)).isSome = true) ∧
        (isHexDigit (Char.ofNat n) = true → hexDigit? (Char.ofNat n) = some (hexVal (Char.ofNat n))) := by
      decide
    simpa using this c.toNat h
  · have h1 : isHexDigit c = false := by
      cases hh : isHexDigit c with
      | false => rfl
      | true => have := isHexDigit_lt hh; omega
    have h2 : hexDigit? c = none := by
      have hl : c.toLower = c := by
        simp only [Char.toLower]
        split
        · rename_i h'
          exfalso
          apply h
          have h1 : c.val.toNat ≤ 'Z'.val.toNat := by
            have := h'.2; exact this
          have : c.toNat ≤ 90 := h1
          omega
        · rfl
      have hne : ∀ d ∈ "0123456789abcdef".toList, d.toNat < 0x80 := by decide
      simp only [hexDigit?, hl]
      rw [List.idxOf?_eq_none_iff]
      intro hm
      exact h (hne _ hm)
    simp [h1, h2]

theorem hexNum_eq : ∀ (ds : Str), (∀ d ∈ ds, isHexDigit d = true) → hexNum ds = hexValue ds := by
  intro ds
  suffices H : ∀ (r : Str), (∀ d ∈ r, isHexDigit d = true) → hexNum r.reverse = hexValueRev r by
    intro h
    have := H ds.reverse (by simpa using h)
    simpa [hexValue] using this
  intro r
  induction r with
  | nil => intro; rfl
  | cons c r ih =>
    intro h
    have h1 := (hexDigit_agree c).2 (h c (by simp))
    have h2 := ih (fun d hd => h d (by simp [hd]))
    simp only [hexNum] at h2
    simp only [hexNum, List.reverse_cons, List.foldl_append, List.foldl_cons, List.foldl_nil, h2,
      hexValueRev, h1, Option.getD_some]
    omega

theorem hexRef_of {ds : Str} {c : Char} (h0 : ds ≠ []) (h1 : ∀ d ∈ ds, (hexDigit? d).isSome = true)
    (h2 : hexValue ds = c.toNat) (h3 : Legal c) : hexRef ds = .ok c := by
  have h4 : hexNum ds = c.toNat := by
    rw [hexNum_eq ds (fun d hd => (hexDigit_agree d).1.2 (h1 d hd)), h2]
  have h5 := Char.valid_nat c
  have h6 : isCharacterN c.toNat = true := (isCharacterN_iff _).2 h3
  simp only [hexRef, h0, if_false, h4, h6, if_true]
  rw [if_neg (by omega)]
  simp

/-- What a hexadecimal reference decodes to, exactly. -/
theorem hexRef_ok {ds : Str} {c : Char} (h : hexRef ds = .ok c) :
    ds ≠ [] ∧ hexNum ds = c.toNat ∧ Legal c := by
  simp only [hexRef] at h
  split at h
  · cases h
  · split at h
    · cases h
    · split at h
      · rename_i h1 h2 h3
        cases h
        have hv := (isCharacterN_iff _).1 h3
        have : (Char.ofNat (hexNum ds)).toNat = hexNum ds := by
          have hval : (hexNum ds).isValidChar := by
            simp only [Nat.isValidChar]
            simp only [LegalCode, NonCharacter] at hv
            omega
          simp only [Char.ofNat, hval, dif_pos]
          rfl
        refine ⟨h1, this.symm, ?_⟩
        simpa [Legal, this] using hv
      · cases h

end Amara
