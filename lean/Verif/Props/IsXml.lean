/- C60: what `isxml` accepts. -/
import Verif.Lemmas.IsXml

namespace Amara

theorem headWord_lt (a b c d : UInt8) : headWord a b c d < 0x100000000 := by
  have := byte_lt a
  have := byte_lt b
  have := byte_lt c
  have := byte_lt d
  unfold headWord; omega

theorem headWord_eq {a b c d a' b' c' d' : UInt8} (h : headWord a b c d = headWord a' b' c' d') :
    a = a' ∧ b = b' ∧ c = c' ∧ d = d' := by
  have := byte_lt a
  have := byte_lt b
  have := byte_lt c
  have := byte_lt d
  have := byte_lt a'
  have := byte_lt b'
  have := byte_lt c'
  have := byte_lt d'
  unfold headWord at h
  refine ⟨?_, ?_, ?_, ?_⟩ <;> exact UInt8.toNat_inj.1 (by omega)

theorem headWord_is {a b c d : UInt8} {n : Nat} (h : headWord a b c d = n) (a' b' c' d' : UInt8)
    (h' : headWord a' b' c' d' = n) : a = a' ∧ b = b' ∧ c = c' ∧ d = d' :=
  headWord_eq (h.trans h'.symm)

theorem headWord_EFBBBF (d : UInt8) : headWord 0xEF 0xBB 0xBF d = 0xEFBBBF00 + d.toNat := by
  have h1 : (0xEF : UInt8).toNat = 0xEF := by decide
  have h2 : (0xBB : UInt8).toNat = 0xBB := by decide
  have h3 : (0xBF : UInt8).toNat = 0xBF := by decide
  unfold headWord; rw [h1, h2, h3]

theorem headWord_FEFF (c d : UInt8) : headWord 0xFE 0xFF c d = 0xFEFF0000 + c.toNat * 256 + d.toNat := by
  have h1 : (0xFE : UInt8).toNat = 0xFE := by decide
  have h2 : (0xFF : UInt8).toNat = 0xFF := by decide
  unfold headWord; rw [h1, h2]

theorem headWord_FFFE (c d : UInt8) : headWord 0xFF 0xFE c d = 0xFFFE0000 + c.toNat * 256 + d.toNat := by
  have h1 : (0xFE : UInt8).toNat = 0xFE := by decide
  have h2 : (0xFF : UInt8).toNat = 0xFF := by decide
  unfold headWord; rw [h1, h2]

/-- The first character of a text that starts with a tag. -/
theorem StartsWithTag.first {s : Str} (h : StartsWithTag s) :
    ∃ c t, s = c :: t ∧ (c.toNat = 0x3C ∨ c.toNat = 0x20 ∨ c.toNat = 9 ∨ c.toNat = 10 ∨ c.toNat = 13) := by
  obtain ⟨ws, rest, rfl, hw⟩ := h
  cases ws with
  | nil => exact ⟨_, _, rfl, Or.inl rfl⟩
  | cons w ws =>
    refine ⟨w, _, rfl, Or.inr ?_⟩
    have := hw w (List.mem_cons_self ..)
    unfold XmlSpace at this
    simp only [List.mem_cons, List.not_mem_nil, or_false] at this
    rcases this with rfl | rfl | rfl | rfl <;> decide

theorem utf8_ascii (c : Char) (h : c.toNat < 128) : String.utf8EncodeChar c = [UInt8.ofNat c.toNat] := by
  unfold String.utf8EncodeChar
  rw [if_pos]
  · rfl
  · show c.toNat ≤ 127; omega

theorem utf16_ascii (le : Bool) (c : Char) (h : c.toNat < 128) :
    utf16Char le c = if le then [UInt8.ofNat c.toNat, 0] else [0, UInt8.ofNat c.toNat] := by
  unfold utf16Char bytes16
  rw [if_pos (by omega), Nat.mod_eq_of_lt (by omega), Nat.div_eq_of_lt (by omega)]; rfl

theorem isxmlChars_signature {a b c d : UInt8} (rest : Bytes) (h : headWord a b c d ∈ signatureWords) :
    isxmlChars (a :: b :: c :: d :: rest) = none := by
  rw [isxmlChars]; rw [if_pos h]

theorem isxmlChars_bom32 {a b c d : UInt8} (rest : Bytes) (h1 : headWord a b c d ∉ signatureWords)
    (h2 : headWord a b c d ∈ bom32Words) :
    isxmlChars (a :: b :: c :: d :: rest) = some (decodeUtf32 (a :: b :: c :: d :: rest)) := by
  rw [isxmlChars]; rw [if_neg h1, if_pos h2]

theorem isxmlChars_bom8 {a b c d : UInt8} (rest : Bytes) (h1 : headWord a b c d ∉ signatureWords)
    (h2 : headWord a b c d ∉ bom32Words) (h3 : headWord a b c d / 256 = 0xEFBBBF) :
    isxmlChars (a :: b :: c :: d :: rest) = some (decodeUtf8 (d :: rest)) := by
  rw [isxmlChars]; rw [if_neg h1, if_neg h2, if_pos h3]

theorem isxmlChars_bom16 {a b c d : UInt8} (rest : Bytes) (h1 : headWord a b c d ∉ signatureWords)
    (h2 : headWord a b c d ∉ bom32Words) (h3 : ¬ headWord a b c d / 256 = 0xEFBBBF)
    (h4 : headWord a b c d / 65536 = 0xFEFF ∨ headWord a b c d / 65536 = 0xFFFE) :
    isxmlChars (a :: b :: c :: d :: rest) = some (decodeUtf16 (a :: b :: c :: d :: rest)) := by
  rw [isxmlChars]; rw [if_neg h1, if_neg h2, if_neg h3, if_pos h4]

theorem isxmlChars_plain {a b c d : UInt8} (rest : Bytes) (h1 : headWord a b c d ∉ signatureWords)
    (h2 : headWord a b c d ∉ bom32Words) (h3 : ¬ headWord a b c d / 256 = 0xEFBBBF)
    (h4 : ¬ (headWord a b c d / 65536 = 0xFEFF ∨ headWord a b c d / 65536 = 0xFFFE)) :
    isxmlChars (a :: b :: c :: d :: rest) = some (decodeUtf8 (a :: b :: c :: d :: rest)) := by
  rw [isxmlChars]; rw [if_neg h1, if_neg h2, if_neg h3, if_neg h4]

theorem isxmlChars_0 : isxmlChars [] = some (decodeUtf8 []) := by simp only [isxmlChars]
theorem isxmlChars_1 (a) : isxmlChars [a] = some (decodeUtf8 [a]) := by simp only [isxmlChars]
theorem isxmlChars_2 (a b) : isxmlChars [a, b] = some (decodeUtf8 [a, b]) := by simp only [isxmlChars]
theorem isxmlChars_3 (a b c) : isxmlChars [a, b, c] = some (decodeUtf8 [a, b, c]) := by
  simp only [isxmlChars]

theorem isxml_of_chars {bs : Bytes} {o : Option Str} (h : isxmlChars bs = some o)
    (hx : isxml bs = true) : ∃ s, o = some s ∧ StartsWithTag s := by
  unfold isxml at hx
  rw [h] at hx
  cases o with
  | none => cases hx
  | some s => exact ⟨s, rfl, (firstIsTag_iff s).1 hx⟩

theorem isxml_decoded {bs : Bytes} {s : Str} (h : isxmlChars bs = some (some s))
    (hs : StartsWithTag s) : isxml bs = true := by
  unfold isxml; rw [h]; exact (firstIsTag_iff s).2 hs

theorem isxml_of_none {bs : Bytes} (h : isxmlChars bs = none) : isxml bs = true := by
  unfold isxml; rw [h]

theorem isxml_signature {bs : Bytes} (h : HasSignature bs) : isxml bs = true := by
  obtain ⟨sig, hm, rest, rfl⟩ := h
  have key : ∀ a b c d : UInt8, headWord a b c d ∈ signatureWords →
      sig = [a, b, c, d] → isxml (sig ++ rest) = true := by
    intro a b c d h hs
    have e : sig ++ rest = a :: b :: c :: d :: rest := by rw [hs]; rfl
    rw [e]
    exact isxml_of_none (isxmlChars_signature rest h)
  simp only [List.mem_cons, List.not_mem_nil, or_false] at hm
  rcases hm with h | h | h | h | h | h | h | h <;>
    exact key _ _ _ _ (by simp [headWord, signatureWords]) h

theorem signature_of_word {a b c d : UInt8} {rest : Bytes} (h : headWord a b c d ∈ signatureWords) :
    HasSignature (a :: b :: c :: d :: rest) := by
  unfold signatureWords at h
  simp only [List.mem_cons, List.not_mem_nil, or_false] at h
  rcases h with h | h | h | h | h | h | h | h
  · obtain ⟨rfl, rfl, rfl, rfl⟩ := headWord_is h 0x3C 0x3F 0x78 0x6D (by simp [headWord])
    exact ⟨[0x3C, 0x3F, 0x78, 0x6D], by simp, _, rfl⟩
  · obtain ⟨rfl, rfl, rfl, rfl⟩ := headWord_is h 0 0x3C 0 0x3F (by simp [headWord])
    exact ⟨[0, 0x3C, 0, 0x3F], by simp, _, rfl⟩
  · obtain ⟨rfl, rfl, rfl, rfl⟩ := headWord_is h 0x3C 0 0x3F 0 (by simp [headWord])
    exact ⟨[0x3C, 0, 0x3F, 0], by simp, _, rfl⟩
  · obtain ⟨rfl, rfl, rfl, rfl⟩ := headWord_is h 0x4C 0x6F 0xA7 0x94 (by simp [headWord])
    exact ⟨[0x4C, 0x6F, 0xA7, 0x94], by simp, _, rfl⟩
  · obtain ⟨rfl, rfl, rfl, rfl⟩ := headWord_is h 0 0 0 0x3C (by simp [headWord])
    exact ⟨[0, 0, 0, 0x3C], by simp, _, rfl⟩
  · obtain ⟨rfl, rfl, rfl, rfl⟩ := headWord_is h 0x3C 0 0 0 (by simp [headWord])
    exact ⟨[0x3C, 0, 0, 0], by simp, _, rfl⟩
  · obtain ⟨rfl, rfl, rfl, rfl⟩ := headWord_is h 0 0 0x3C 0 (by simp [headWord])
    exact ⟨[0, 0, 0x3C, 0], by simp, _, rfl⟩
  · obtain ⟨rfl, rfl, rfl, rfl⟩ := headWord_is h 0 0x3C 0 0 (by simp [headWord])
    exact ⟨[0, 0x3C, 0, 0], by simp, _, rfl⟩

theorem isxml_encodes {bs : Bytes} {s : Str} (hs : StartsWithTag s) (he : Encodes s bs) :
    isxml bs = true := by
  obtain ⟨c, t, hst, hc⟩ := hs.first
  have hb : (UInt8.ofNat c.toNat).toNat = c.toNat := toNat_ofNat8 (by omega)
  cases he with
  | plain =>
    have hd := (decodeUtf8_iff (utf8 s) s).2 rfl
    have hu : utf8 s = UInt8.ofNat c.toNat :: utf8 t := by
      rw [hst]; show String.utf8EncodeChar c ++ utf8 t = _
      rw [utf8_ascii c (by omega)]; rfl
    rw [hu] at hd ⊢
    match hx : utf8 t with
    | x :: y :: z :: rest =>
      rw [hx] at hd
      have hlt : headWord (UInt8.ofNat c.toNat) x y z / 0x1000000 = c.toNat := by
        have := byte_lt x
        have := byte_lt y
        have := byte_lt z
        unfold headWord; rw [hb]; omega
      by_cases hsig : headWord (UInt8.ofNat c.toNat) x y z ∈ signatureWords
      · exact isxml_signature (signature_of_word hsig)
      · apply isxml_decoded (s := s) _ hs
        rw [isxmlChars_plain rest hsig _ (by omega) (by omega), hd]
        unfold bom32Words
        simp only [List.mem_cons, List.not_mem_nil, or_false]
        omega
    | [] => rw [hx] at hd; exact isxml_decoded (s := s) (by rw [isxmlChars_1, hd]) hs
    | [x] => rw [hx] at hd; exact isxml_decoded (s := s) (by rw [isxmlChars_2, hd]) hs
    | [x, y] => rw [hx] at hd; exact isxml_decoded (s := s) (by rw [isxmlChars_3, hd]) hs
  | bom8 =>
    have hd := (decodeUtf8_iff (utf8 s) s).2 rfl
    have hu : utf8 s = UInt8.ofNat c.toNat :: utf8 t := by
      rw [hst]; show String.utf8EncodeChar c ++ utf8 t = _
      rw [utf8_ascii c (by omega)]; rfl
    rw [hu] at hd ⊢
    apply isxml_decoded (s := s) _ hs
    have hw : headWord 0xEF 0xBB 0xBF (UInt8.ofNat c.toNat) = 0xEFBBBF00 + c.toNat := by
      rw [headWord_EFBBBF, hb]
    refine (isxmlChars_bom8 _ ?_ ?_ (by omega)).trans (by rw [hd])
    · rw [hw]; unfold signatureWords
      simp only [List.mem_cons, List.not_mem_nil, or_false]
      omega
    · rw [hw]; unfold bom32Words
      simp only [List.mem_cons, List.not_mem_nil, or_false]
      omega
  | bom16be =>
    have hd := (decodeUnits16_iff false (utf16 false s) s).2 rfl
    have hu : utf16 false s = 0 :: UInt8.ofNat c.toNat :: utf16 false t := by
      rw [hst]; show utf16Char false c ++ utf16 false t = _
      rw [utf16_ascii false c (by omega)]; rfl
    rw [hu] at hd ⊢
    apply isxml_decoded (s := s) _ hs
    have hw : headWord 0xFE 0xFF 0 (UInt8.ofNat c.toNat) = 0xFEFF0000 + c.toNat := by
      rw [headWord_FEFF, hb]; simp
    refine (isxmlChars_bom16 _ ?_ ?_ (by omega) (by omega)).trans ?_
    · rw [hw]; unfold signatureWords
      simp only [List.mem_cons, List.not_mem_nil, or_false]
      omega
    · rw [hw]; unfold bom32Words
      simp only [List.mem_cons, List.not_mem_nil, or_false]
      omega
    · rw [decodeUtf16, hd]
  | bom16le =>
    have hd := (decodeUnits16_iff true (utf16 true s) s).2 rfl
    have hu : utf16 true s = UInt8.ofNat c.toNat :: 0 :: utf16 true t := by
      rw [hst]; show utf16Char true c ++ utf16 true t = _
      rw [utf16_ascii true c (by omega)]; rfl
    rw [hu] at hd ⊢
    apply isxml_decoded (s := s) _ hs
    have hw : headWord 0xFF 0xFE (UInt8.ofNat c.toNat) 0 = 0xFFFE0000 + c.toNat * 256 := by
      rw [headWord_FFFE, hb]; simp
    refine (isxmlChars_bom16 _ ?_ ?_ (by omega) (by omega)).trans ?_
    · rw [hw]; unfold signatureWords
      simp only [List.mem_cons, List.not_mem_nil, or_false]
      omega
    · rw [hw]; unfold bom32Words
      simp only [List.mem_cons, List.not_mem_nil, or_false]
      omega
    · rw [decodeUtf16, hd]
  | bom32be =>
    apply isxml_decoded (s := s) _ hs
    refine (isxmlChars_bom32 _ (by simp [headWord, signatureWords])
      (by simp [headWord, bom32Words])).trans ?_
    rw [decodeUtf32]; exact congrArg some (decodeUnits32_utf32 _ s)
  | bom32le =>
    apply isxml_decoded (s := s) _ hs
    refine (isxmlChars_bom32 _ (by simp [headWord, signatureWords])
      (by simp [headWord, bom32Words])).trans ?_
    rw [decodeUtf32]; exact congrArg some (decodeUnits32_utf32 _ s)

theorem isxml_sound {bs : Bytes} (h : isxml bs = true) :
    HasSignature bs ∨ ∃ s, StartsWithTag s ∧ Encodes s bs := by
  have short : isxmlChars bs = some (decodeUtf8 bs) → ∃ s, StartsWithTag s ∧ Encodes s bs := by
    intro hc
    obtain ⟨s, hd, hs⟩ := isxml_of_chars hc h
    exact ⟨s, hs, (decodeUtf8_iff bs s).1 hd ▸ .plain⟩
  match bs with
  | [] => exact Or.inr (short isxmlChars_0)
  | [_] => exact Or.inr (short (isxmlChars_1 _))
  | [_, _] => exact Or.inr (short (isxmlChars_2 _ _))
  | [_, _, _] => exact Or.inr (short (isxmlChars_3 _ _ _))
  | a :: b :: c :: d :: rest =>
    by_cases h1 : headWord a b c d ∈ signatureWords
    · exact Or.inl (signature_of_word h1)
    right
    by_cases h2 : headWord a b c d ∈ bom32Words
    · obtain ⟨s, hd, hs⟩ := isxml_of_chars (isxmlChars_bom32 rest h1 h2) h
      unfold bom32Words at h2
      simp only [List.mem_cons, List.not_mem_nil, or_false] at h2
      rcases h2 with h2 | h2 | h2 | h2
      · obtain ⟨rfl, rfl, rfl, rfl⟩ := headWord_is h2 0 0 0xFE 0xFF (by simp [headWord])
        rw [decodeUtf32] at hd
        refine ⟨s, hs, ?_⟩
        rw [(decodeUnits32_iff _ _ _).1 hd]
        exact .bom32be
      · obtain ⟨rfl, rfl, rfl, rfl⟩ := headWord_is h2 0xFF 0xFE 0 0 (by simp [headWord])
        rw [decodeUtf32] at hd
        refine ⟨s, hs, ?_⟩
        rw [(decodeUnits32_iff _ _ _).1 hd]
        exact .bom32le
      · obtain ⟨rfl, rfl, rfl, rfl⟩ := headWord_is h2 0 0 0xFF 0xFE (by simp [headWord])
        rw [decodeUtf32, decodeUnits32, if_neg (by simp [unit32])] at hd
        · cases hd
        all_goals simp
      · obtain ⟨rfl, rfl, rfl, rfl⟩ := headWord_is h2 0xFE 0xFF 0 0 (by simp [headWord])
        rw [decodeUtf32, decodeUnits32, if_pos (by simp [unit32])] at hd
        · rw [Option.map_eq_some_iff] at hd
          obtain ⟨t, -, rfl⟩ := hd
          obtain ⟨c, t', ht, hc⟩ := hs.first
          have hn := ofNat_toNat_of (n := unit32 true 0xFE 0xFF 0 0) (by simp [unit32])
          have hne : c = Char.ofNat (unit32 true 0xFE 0xFF 0 0) := (List.cons.inj ht).1.symm
          have hv : unit32 true 0xFE 0xFF 0 0 = 0xFFFE := by simp [unit32]
          rw [hne, hn, hv] at hc
          omega
        all_goals simp
    by_cases h3 : headWord a b c d / 256 = 0xEFBBBF
    · obtain ⟨s, hd, hs⟩ := isxml_of_chars (isxmlChars_bom8 rest h1 h2 h3) h
      have : headWord a b c d = headWord 0xEF 0xBB 0xBF d := by
        have h4 := byte_lt d
        rw [headWord_EFBBBF]
        unfold headWord at h3 ⊢
        omega
      obtain ⟨rfl, rfl, rfl, -⟩ := headWord_eq this
      refine ⟨s, hs, ?_⟩
      rw [(decodeUtf8_iff _ _).1 hd]
      exact .bom8
    by_cases h4 : headWord a b c d / 65536 = 0xFEFF ∨ headWord a b c d / 65536 = 0xFFFE
    · obtain ⟨s, hd, hs⟩ := isxml_of_chars (isxmlChars_bom16 rest h1 h2 h3 h4) h
      have hcl := byte_lt c
      have hdl := byte_lt d
      rcases h4 with h4 | h4
      · have : headWord a b c d = headWord 0xFE 0xFF c d := by
          rw [headWord_FEFF]
          unfold headWord at h4 ⊢
          omega
        obtain ⟨rfl, rfl, -, -⟩ := headWord_eq this
        rw [decodeUtf16] at hd
        refine ⟨s, hs, ?_⟩
        rw [(decodeUnits16_iff _ _ _).1 hd]
        exact .bom16be
      · have : headWord a b c d = headWord 0xFF 0xFE c d := by
          rw [headWord_FFFE]
          unfold headWord at h4 ⊢
          omega
        obtain ⟨rfl, rfl, -, -⟩ := headWord_eq this
        rw [decodeUtf16] at hd
        refine ⟨s, hs, ?_⟩
        rw [(decodeUnits16_iff _ _ _).1 hd]
        exact .bom16le
    · exact short (isxmlChars_plain rest h1 h2 h3 h4)

/-- **C60.** `isxml` says yes exactly to the byte strings that carry one of the recognised
signatures, or that are - in UTF-8 with or without byte order mark, or in UTF-16 or UTF-32 announced
by their byte order mark - the encoding of a text whose first character other than white space is
'<'. -/
theorem C60_isxml (bs : Bytes) :
    isxml bs = true ↔ HasSignature bs ∨ ∃ s, StartsWithTag s ∧ Encodes s bs :=
  ⟨isxml_sound, fun h => h.elim isxml_signature fun ⟨_, hs, he⟩ => isxml_encodes hs he⟩

/-- In particular every document that starts with a tag, after any amount of white space, is
recognised in UTF-8. -/
theorem C60_utf8_documents (ws rest : Str) (h : ∀ c ∈ ws, XmlSpace c) :
    isxml (utf8 (ws ++ '<' :: rest)) = true :=
  (C60_isxml _).2 (Or.inr ⟨_, ⟨ws, rest, rfl, h⟩, .plain⟩)

/-- White space, then a tag, in UTF-8. -/
example : isxml [0x20, 0x0A, 0x3C, 0x61, 0x3E] = true :=
  C60_utf8_documents [' ', '\n'] ['a', '>'] (by unfold XmlSpace; decide)
/-- The same after a byte order mark; in UTF-16, little-endian; cut short; and not a tag. -/
example : isxml [0xEF, 0xBB, 0xBF, 0x0A, 0x3C, 0x61, 0x3E] = true :=
  (C60_isxml _).2 (Or.inr ⟨['\n', '<', 'a', '>'], ⟨['\n'], ['a', '>'], rfl, by unfold XmlSpace; decide⟩, .bom8⟩)
example : isxml [0xFF, 0xFE, 0x20, 0x00, 0x3C, 0x00] = true := by decide
example : isxml [0xFF, 0xFE, 0x20, 0x00, 0x3C] = false := by decide
example : isxml [0xFE, 0xFF, 0xD8, 0x3D, 0xDE, 0x00] = false := by decide
example : isxml [0x00, 0x00, 0xFE, 0xFF, 0x00, 0x00, 0x00, 0x3C] = true := by decide

end Amara
