/- Decoders and encoders of `isxml` are inverse to each other. -/
import Verif.Model.IsXml
import Verif.Spec.IsXml

namespace Amara

theorem toByteArray_inj {a b : Bytes} (h : a.toByteArray = b.toByteArray) : a = b := by
  have := congrArg (fun x => x.data.toList) h
  simpa using this

theorem decodeUtf8_iff (bs : Bytes) (s : Str) : decodeUtf8 bs = some s ↔ bs = utf8 s := by
  constructor
  · intro h
    unfold decodeUtf8 at h
    rw [Option.map_eq_some_iff] at h
    obtain ⟨a, ha, rfl⟩ := h
    have hs : bs.toByteArray.utf8Decode?.isSome := by rw [ha]; rfl
    have := ByteArray.utf8Encode_get_utf8Decode? (b := bs.toByteArray) (h := hs)
    simp only [ha, Option.get_some] at this
    exact (toByteArray_inj (by simpa [utf8, List.utf8Encode] using this)).symm
  · rintro rfl
    have := List.utf8Decode?_utf8Encode (l := s)
    unfold decodeUtf8 utf8
    rw [List.utf8Encode] at this
    rw [this]; simp

theorem char_range (c : Char) : c.toNat < 0xD800 ∨ (0xDFFF < c.toNat ∧ c.toNat < 0x110000) := by
  have h := c.valid
  rcases h with h | ⟨h1, h2⟩
  · exact Or.inl h
  · exact Or.inr ⟨h1, h2⟩

theorem ofNat_toNat_of {n : Nat} (h : n < 0xD800 ∨ (0xDFFF < n ∧ n < 0x110000)) :
    (Char.ofNat n).toNat = n := by
  have : n.isValidChar := by rcases h with h | h; exact Or.inl h; exact Or.inr h
  unfold Char.ofNat
  rw [dif_pos this]
  show (Char.ofNatAux n this).val.toNat = n
  simp [Char.ofNatAux, UInt32.toNat]

theorem ofNat_toNat' (c : Char) : Char.ofNat c.toNat = c := Char.ofNat_toNat c

theorem byte_lt (a : UInt8) : a.toNat < 256 := a.toNat_lt

theorem ofNat_byte (a : UInt8) {n : Nat} (h : n = a.toNat) : UInt8.ofNat n = a := by
  subst h; simp

theorem toNat_ofNat8 {n : Nat} (h : n < 256) : (UInt8.ofNat n).toNat = n := by
  simp [Nat.mod_eq_of_lt h]

theorem bytes16_unit16 (le : Bool) (a b : UInt8) : bytes16 le (unit16 le a b) = [a, b] := by
  have ha := byte_lt a
  have hb := byte_lt b
  unfold bytes16 unit16
  cases le
  · simp only [Bool.false_eq_true, if_false]
    rw [ofNat_byte a (by omega), ofNat_byte b (by omega)]
  · simp only [if_true]
    rw [ofNat_byte a (by omega), ofNat_byte b (by omega)]

theorem bytes16_spec (le : Bool) {n : Nat} (h : n < 65536) :
    ∃ a b, bytes16 le n = [a, b] ∧ unit16 le a b = n := by
  cases le
  · refine ⟨_, _, rfl, ?_⟩
    unfold unit16
    rw [toNat_ofNat8 (by omega), toNat_ofNat8 (by omega)]
    simp only [Bool.false_eq_true, if_false]; omega
  · refine ⟨_, _, rfl, ?_⟩
    unfold unit16
    rw [toNat_ofNat8 (by omega), toNat_ofNat8 (by omega)]
    simp only [if_true]; omega

theorem unit16_lt (le : Bool) (a b : UInt8) : unit16 le a b < 65536 := by
  have ha := byte_lt a
  have hb := byte_lt b
  unfold unit16
  split <;> omega

theorem decodeUnits16_sound (le : Bool) (bs : Bytes) (s : Str) :
    decodeUnits16 le bs = some s → bs = utf16 le s := by
  fun_induction decodeUnits16 le bs generalizing s with
  | case1 => intro h; cases h; rfl
  | case2 => intro h; cases h
  | case3 a b rest hu ih =>
    intro h
    rw [Option.map_eq_some_iff] at h
    obtain ⟨t, ht, rfl⟩ := h
    have hlt := unit16_lt le a b
    have hn := ofNat_toNat_of (n := unit16 le a b) (by omega)
    show _ = utf16Char le _ ++ utf16 le t
    rw [← ih t ht]
    unfold utf16Char
    rw [hn, if_pos (by omega), bytes16_unit16]; rfl
  | case4 => intro h; cases h
  | case5 a b hu1 hu2 c d rest' hv ih =>
    intro h
    rw [Option.map_eq_some_iff] at h
    obtain ⟨t, ht, rfl⟩ := h
    have hn := ofNat_toNat_of
      (n := 0x10000 + (unit16 le a b - 0xD800) * 1024 + (unit16 le c d - 0xDC00)) (by omega)
    show _ = utf16Char le _ ++ utf16 le t
    rw [← ih t ht]
    unfold utf16Char
    rw [hn, if_neg (by omega)]
    rw [show 0xD800 + (0x10000 + (unit16 le a b - 0xD800) * 1024 + (unit16 le c d - 0xDC00) - 0x10000)
      / 1024 = unit16 le a b by omega]
    rw [show 0xDC00 + (0x10000 + (unit16 le a b - 0xD800) * 1024 + (unit16 le c d - 0xDC00) - 0x10000)
      % 1024 = unit16 le c d by omega]
    rw [bytes16_unit16, bytes16_unit16]; rfl
  | case6 => intro h; cases h
  | case7 => intro h; cases h

theorem decodeUnits16_utf16 (le : Bool) (s : Str) : decodeUnits16 le (utf16 le s) = some s := by
  induction s with
  | nil => simp [utf16, decodeUnits16]
  | cons c s ih =>
    show decodeUnits16 le (utf16Char le c ++ utf16 le s) = _
    have hc := char_range c
    unfold utf16Char
    split
    · rename_i h
      obtain ⟨a, b, hab, hu⟩ := bytes16_spec le h
      rw [hab]
      simp only [List.cons_append, List.nil_append]
      rw [decodeUnits16.eq_def]
      simp only
      rw [hu, if_pos (by omega), ih, ofNat_toNat']; rfl
    · obtain ⟨a, b, hab, hu⟩ := bytes16_spec le
        (n := 0xD800 + (c.toNat - 0x10000) / 1024) (by omega)
      obtain ⟨a', b', hab', hu'⟩ := bytes16_spec le
        (n := 0xDC00 + (c.toNat - 0x10000) % 1024) (by omega)
      rw [hab, hab']
      simp only [List.cons_append, List.nil_append]
      rw [decodeUnits16.eq_3, hu, if_neg (by omega),  if_neg (by omega)]
      rw [hu', if_pos (by omega), ih]
      rw [show 0x10000 + (0xD800 + (c.toNat - 0x10000) / 1024 - 0xD800) * 1024
        + (0xDC00 + (c.toNat - 0x10000) % 1024 - 0xDC00) = c.toNat by omega, ofNat_toNat']; rfl

theorem decodeUnits16_iff (le : Bool) (bs : Bytes) (s : Str) :
    decodeUnits16 le bs = some s ↔ bs = utf16 le s :=
  ⟨decodeUnits16_sound le bs s, fun h => h ▸ decodeUnits16_utf16 le s⟩

theorem utf32Char_unit32 (le : Bool) (a b c d : UInt8)
    (h : unit32 le a b c d < 0xD800 ∨ (0xDFFF < unit32 le a b c d ∧ unit32 le a b c d < 0x110000)) :
    utf32Char le (Char.ofNat (unit32 le a b c d)) = [a, b, c, d] := by
  have ha := byte_lt a
  have hb := byte_lt b
  have hc := byte_lt c
  have hd := byte_lt d
  unfold utf32Char
  rw [ofNat_toNat_of h]
  unfold unit32
  cases le
  · simp only [Bool.false_eq_true, if_false]
    rw [ofNat_byte a (by omega), ofNat_byte b (by omega), ofNat_byte c (by omega),
      ofNat_byte d (by omega)]
  · simp only [if_true]
    rw [ofNat_byte d (by omega), ofNat_byte c (by omega), ofNat_byte b (by omega),
      ofNat_byte a (by omega)]; rfl

theorem utf32Char_spec (le : Bool) (ch : Char) :
    ∃ a b c d, utf32Char le ch = [a, b, c, d] ∧ unit32 le a b c d = ch.toNat := by
  have h := char_range ch
  cases le
  · refine ⟨_, _, _, _, rfl, ?_⟩
    unfold unit32
    rw [toNat_ofNat8 (by omega), toNat_ofNat8 (by omega), toNat_ofNat8 (by omega),
      toNat_ofNat8 (by omega)]
    simp only [Bool.false_eq_true, if_false]; omega
  · refine ⟨_, _, _, _, rfl, ?_⟩
    unfold unit32
    rw [toNat_ofNat8 (by omega), toNat_ofNat8 (by omega), toNat_ofNat8 (by omega),
      toNat_ofNat8 (by omega)]
    simp only [if_true]; omega

theorem decodeUnits32_sound (le : Bool) (bs : Bytes) (s : Str) :
    decodeUnits32 le bs = some s → bs = utf32 le s := by
  fun_induction decodeUnits32 le bs generalizing s with
  | case1 => intro h; cases h; rfl
  | case2 a b c d rest hu ih =>
    intro h
    rw [Option.map_eq_some_iff] at h
    obtain ⟨t, ht, rfl⟩ := h
    show _ = utf32Char le _ ++ utf32 le t
    rw [← ih t ht, utf32Char_unit32 le a b c d hu]; rfl
  | case3 => intro h; cases h
  | case4 => intro h; cases h

theorem decodeUnits32_utf32 (le : Bool) (s : Str) : decodeUnits32 le (utf32 le s) = some s := by
  induction s with
  | nil => simp [utf32, decodeUnits32]
  | cons ch s ih =>
    show decodeUnits32 le (utf32Char le ch ++ utf32 le s) = _
    obtain ⟨a, b, c, d, h, hu⟩ := utf32Char_spec le ch
    rw [h]
    simp only [List.cons_append, List.nil_append]
    rw [decodeUnits32.eq_2, hu, if_pos (char_range ch), ih, ofNat_toNat']; rfl

theorem decodeUnits32_iff (le : Bool) (bs : Bytes) (s : Str) :
    decodeUnits32 le bs = some s ↔ bs = utf32 le s :=
  ⟨decodeUnits32_sound le bs s, fun h => h ▸ decodeUnits32_utf32 le s⟩

theorem isXmlSpace_iff (c : Char) : isXmlSpace c = true ↔ XmlSpace c := by
  have e : ∀ d : Char, c.toNat = d.toNat ↔ c = d :=
    fun d => ⟨fun h => by rw [← ofNat_toNat' c, h, ofNat_toNat'], fun h => h ▸ rfl⟩
  have h1 := e '\t'
  have h2 := e '\n'
  have h3 := e '\r'
  have h4 := e ' '
  unfold isXmlSpace XmlSpace
  simp only [Bool.or_eq_true, beq_iff_eq, List.mem_cons, List.not_mem_nil, or_false]
  rw [← h1, ← h2, ← h3, ← h4]
  show _ ↔ c.toNat = 32 ∨ c.toNat = 9 ∨ c.toNat = 10 ∨ c.toNat = 13
  omega

theorem firstIsTag_iff (s : Str) : firstIsTag s = true ↔ StartsWithTag s := by
  induction s with
  | nil =>
    constructor
    · intro h; exact absurd h (by simp [firstIsTag])
    · rintro ⟨ws, rest, h, -⟩; cases ws <;> simp at h
  | cons c cs ih =>
    unfold firstIsTag
    by_cases hc : isXmlSpace c = true
    · rw [if_pos hc, ih]
      constructor
      · rintro ⟨ws, rest, rfl, hw⟩
        refine ⟨c :: ws, rest, rfl, ?_⟩
        intro d hd
        rcases List.mem_cons.1 hd with rfl | hd
        · exact (isXmlSpace_iff _).1 hc
        · exact hw d hd
      · rintro ⟨ws, rest, h, hw⟩
        cases ws with
        | nil => cases h; exact absurd hc (by decide)
        | cons w ws => cases h; exact ⟨ws, rest, rfl, fun d hd => hw d (List.mem_cons_of_mem _ hd)⟩
    · rw [if_neg hc]
      constructor
      · intro h
        have : c = '<' := by simpa using h
        exact ⟨[], cs, by rw [this]; rfl, by simp⟩
      · rintro ⟨ws, rest, h, hw⟩
        cases ws with
        | nil => cases h; rfl
        | cons w ws =>
          cases h
          exact absurd ((isXmlSpace_iff _).2 (hw c (List.mem_cons_self ..))) hc

end Amara
