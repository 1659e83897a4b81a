import Verif.Model.IsXmlC
import Verif.Props.IsXml
/-
C113: `isxml` stays within its buffers, ends, and loses no references.
-/
namespace Amara

theorem word_eq (a b c d : UInt8) : C.word a b c d = headWord a b c d := by
  have h1 := b.toNat_lt
  have h2 := c.toNat_lt
  have h3 := d.toNat_lt
  unfold C.word headWord
  have e1 : a.toNat <<< 24 ||| b.toNat <<< 16 = (a.toNat <<< 8 + b.toNat) <<< 16 := by
    rw [Nat.shiftLeft_add_eq_or_of_lt (i := 8) (by omega), Nat.shiftLeft_or_distrib, ← Nat.shiftLeft_add]
  have e2 : ∀ n : Nat, n <<< 16 ||| c.toNat <<< 8 = (n <<< 8 + c.toNat) <<< 8 := by
    intro n
    rw [Nat.shiftLeft_add_eq_or_of_lt (i := 8) (by omega), Nat.shiftLeft_or_distrib, ← Nat.shiftLeft_add]
  rw [e1, e2, ← Nat.shiftLeft_add_eq_or_of_lt (i := 8) (by omega)]
  simp only [Nat.shiftLeft_eq]
  omega

theorem low_byte : ∀ d < 256, d &&& 0xFFFFFF00 = 0 := by decide +kernel

theorem mask_eq {n : Nat} (h : n < 0x100000000) : n &&& 0xFFFFFF00 = n / 256 * 256 := by
  have e : n = (n / 256) <<< 8 ||| n % 256 := by
    rw [← Nat.shiftLeft_add_eq_or_of_lt (i := 8) (Nat.mod_lt _ (by decide)), Nat.shiftLeft_eq]
    omega
  conv => lhs; rw [e]
  rw [Nat.and_or_distrib_right, low_byte _ (Nat.mod_lt _ (by decide)), Nat.or_zero,
    show 0xFFFFFF00 = (2 ^ 24 - 1) <<< 8 by decide +kernel, ← Nat.shiftLeft_and_distrib, Nat.and_two_pow_sub_one_eq_mod,
    Nat.mod_eq_of_lt (by omega), Nat.shiftLeft_eq]

theorem mask_iff {n : Nat} (h : n < 0x100000000) : n &&& 0xFFFFFF00 = 0xEFBBBF00 ↔ n / 256 = 0xEFBBBF := by
  rw [mask_eq h]
  omega

theorem high_eq (n : Nat) : n >>> 16 = n / 65536 := by
  rw [Nat.shiftRight_eq_div_pow]

theorem skip_ok (cs : Str) (k r : Nat) : ∀ (cs' pre : Str), pre ++ cs' = cs → k ≠ 0 →
    ∃ p, C.skip ⟨cs, k, r⟩ (cs'.length + 1) pre.length = .ok p ∧
      (C.readChar ⟨cs, k, r⟩ p).map (· == '<'.toNat) = .ok (firstIsTag cs') := by
  intro cs'
  induction cs' with
  | nil =>
    intro pre h hk
    rw [List.append_nil] at h
    subst h
    have hr : C.readChar ⟨pre, k, r⟩ pre.length = .ok 0 := by
      simp only [C.readChar, if_neg hk, List.getElem?_eq_none (Nat.le_refl _), if_true]
    refine ⟨pre.length, ?_, ?_⟩
    · simp only [C.skip, hr]
      rfl
    · rw [hr]
      rfl
  | cons c cs' ih =>
    intro pre h hk
    subst h
    have hr : C.readChar ⟨pre ++ c :: cs', k, r⟩ pre.length = .ok c.toNat := by
      simp only [C.readChar, if_neg hk, List.getElem?_append_right (Nat.le_refl _), Nat.sub_self, List.getElem?_cons_zero]
    rw [C.skip, hr]
    simp only
    by_cases hs : C.isSpace c.toNat = true
    · obtain ⟨p, h1, h2⟩ := ih (pre ++ [c]) (by simp) hk
      rw [List.length_append] at h1
      refine ⟨p, by rw [if_pos hs]; exact h1, ?_⟩
      rw [h2, firstIsTag, if_pos (show isXmlSpace c = true from hs)]
    · refine ⟨pre.length, by rw [if_neg hs], ?_⟩
      rw [hr, firstIsTag, if_neg (show ¬ isXmlSpace c = true from hs)]
      simp only [Except.map]
      congr 1
      rw [Bool.eq_iff_iff, beq_iff_eq, beq_iff_eq]
      exact ⟨fun h => Char.ext (UInt32.toNat_inj.mp h), fun h => by rw [h]⟩

theorem isxmlC_decode {bs : Bytes} {str len : Nat} {enc : Bytes → Option Str} (hd : C.detect bs = .ok (.decode str len enc))
    (hl : str + len ≤ bs.length) (hc : isxmlChars bs = some (enc ((bs.drop str).take len))) :
    ∃ m, C.isxml bs = .ok (m, isxml bs) ∧ m.charRefs = 0 ∧ m.resultRefs = 1 := by
  unfold C.isxml isxml
  rw [hd, hc]
  simp only [bind, Except.bind, C.range, if_pos hl]
  cases he : enc ((bs.drop str).take len) with
  | none => exact ⟨⟨[], 0, 1⟩, rfl, rfl, rfl⟩
  | some cs =>
    obtain ⟨p, h1, h2⟩ := skip_ok cs 1 0 cs [] rfl (by decide)
    simp only [List.length_nil] at h1
    simp only [h1]
    cases hr : C.readChar ⟨cs, 1, 0⟩ p with
    | error f => rw [hr] at h2; cases h2
    | ok c =>
      rw [hr] at h2
      simp only [Except.map] at h2
      have h3 := Except.ok.inj h2
      refine ⟨⟨cs, 0, 1⟩, ?_, rfl, rfl⟩
      simp only [C.decref, C.incref, h3]
      rfl

theorem isxmlC_yes {bs : Bytes} (hd : C.detect bs = .ok .yes) (hc : isxmlChars bs = none) :
    ∃ m, C.isxml bs = .ok (m, isxml bs) ∧ m.charRefs = 0 ∧ m.resultRefs = 1 := by
  unfold C.isxml isxml
  rw [hd, hc]
  exact ⟨⟨[], 0, 1⟩, rfl, rfl, rfl⟩

theorem isxmlC_head (a b c d : UInt8) (rest : Bytes) : C.detect (a :: b :: c :: d :: rest) =
    .ok (C.choose (headWord a b c d) (a :: b :: c :: d :: rest).length) := by
  unfold C.detect
  rw [if_pos (by simp), ← word_eq]
  rfl

theorem isxmlC_0 : C.detect [] = .ok (.decode 0 0 decodeUtf8) := rfl
theorem isxmlC_1 (a : UInt8) : C.detect [a] = .ok (.decode 0 1 decodeUtf8) := rfl
theorem isxmlC_2 (a b : UInt8) : C.detect [a, b] = .ok (.decode 0 2 decodeUtf8) := rfl
theorem isxmlC_3 (a b c : UInt8) : C.detect [a, b, c] = .ok (.decode 0 3 decodeUtf8) := rfl

theorem choose_cases (n len : Nat) (hlt : n < 0x100000000) :
    (n ∈ signatureWords → C.choose n len = .yes) ∧ (n ∉ signatureWords →
    (n ∈ bom32Words → C.choose n len = .decode 0 len decodeUtf32) ∧ (n ∉ bom32Words →
    (n / 256 = 0xEFBBBF → C.choose n len = .decode 3 (len - 3) decodeUtf8) ∧ (n / 256 ≠ 0xEFBBBF →
    (n / 65536 = 0xFEFF ∨ n / 65536 = 0xFFFE → C.choose n len = .decode 0 len decodeUtf16) ∧
    (¬ (n / 65536 = 0xFEFF ∨ n / 65536 = 0xFFFE) → C.choose n len = .decode 0 len decodeUtf8)))) := by
  simp only [signatureWords, bom32Words, List.mem_cons, List.not_mem_nil, or_false]
  unfold C.choose
  rw [high_eq]
  refine ⟨fun h1 => by rw [if_pos h1], fun h1 => ?_⟩
  rw [if_neg h1]
  refine ⟨fun h2 => by rw [if_pos h2], fun h2 => ?_⟩
  rw [if_neg h2]
  refine ⟨fun h3 => by rw [if_pos ((mask_iff hlt).mpr h3)], fun h3 => ?_⟩
  rw [if_neg (mt (mask_iff hlt).mp h3)]
  exact ⟨fun h4 => by rw [if_pos h4], fun h4 => by rw [if_neg h4]⟩

/-- For every byte string `isxml` returns; no read is outside the bytes or the decoded characters or of a freed object;
the decoded characters are released and one reference to the result is made; and the result is that of C60. -/
theorem C113_no_fault (bs : Bytes) : ∃ m, C.isxml bs = .ok (m, isxml bs) ∧ m.charRefs = 0 ∧ m.resultRefs = 1 := by
  match bs with
  | a :: b :: c :: d :: rest =>
    have hd := isxmlC_head a b c d rest
    obtain ⟨c1, hc⟩ := choose_cases (headWord a b c d) (a :: b :: c :: d :: rest).length (headWord_lt a b c d)
    by_cases h1 : headWord a b c d ∈ signatureWords
    · rw [c1 h1] at hd
      exact isxmlC_yes hd (isxmlChars_signature rest h1)
    obtain ⟨c2, hc⟩ := hc h1
    by_cases h2 : headWord a b c d ∈ bom32Words
    · rw [c2 h2] at hd
      exact isxmlC_decode hd (by rw [Nat.zero_add]; exact Nat.le_refl _)
        (by rw [isxmlChars_bom32 rest h1 h2, List.drop_zero, List.take_length])
    obtain ⟨c3, hc⟩ := hc h2
    by_cases h3 : headWord a b c d / 256 = 0xEFBBBF
    · rw [c3 h3] at hd
      refine isxmlC_decode hd (Nat.le_of_eq (Nat.add_sub_cancel' (Nat.le_add_left 3 (rest.length + 1)))) ?_
      rw [isxmlChars_bom8 rest h1 h2 h3, show (a :: b :: c :: d :: rest).drop 3 = d :: rest from rfl,
        show (a :: b :: c :: d :: rest).length - 3 = (d :: rest).length by simp, List.take_length]
    obtain ⟨c4, c5⟩ := hc h3
    by_cases h4 : headWord a b c d / 65536 = 0xFEFF ∨ headWord a b c d / 65536 = 0xFFFE
    · rw [c4 h4] at hd
      exact isxmlC_decode hd (by rw [Nat.zero_add]; exact Nat.le_refl _)
        (by rw [isxmlChars_bom16 rest h1 h2 h3 h4, List.drop_zero, List.take_length])
    · rw [c5 h4] at hd
      exact isxmlC_decode hd (by rw [Nat.zero_add]; exact Nat.le_refl _)
        (by rw [isxmlChars_plain rest h1 h2 h3 h4, List.drop_zero, List.take_length])
  | [] => exact isxmlC_decode (isxmlC_0 ) (Nat.le_refl _) isxmlChars_0
  | [a] => exact isxmlC_decode (isxmlC_1 a) (Nat.le_refl _) (isxmlChars_1 a)
  | [a, b] => exact isxmlC_decode (isxmlC_2 a b) (Nat.le_refl _) (isxmlChars_2 a b)
  | [a, b, c] => exact isxmlC_decode (isxmlC_3 a b c) (Nat.le_refl _) (isxmlChars_3 a b c)

/-- Spelled out: no read outside a buffer, no use of a freed object, no endless loop. -/
theorem C113_never_faults (bs : Bytes) (f : C.Fault) : C.isxml bs ≠ .error f := by
  obtain ⟨m, h, -⟩ := C113_no_fault bs
  rw [h]
  exact fun h => by cases h

-- a byte order mark, white space up to the end of the buffer
example : isxmlChars [0xEF, 0xBB, 0xBF, 0x20, 0x0A] = some (some [' ', '\n']) := by
  rw [isxmlChars_bom8 _ (by decide +kernel) (by decide +kernel) (by decide +kernel)]
  rfl

end Amara
