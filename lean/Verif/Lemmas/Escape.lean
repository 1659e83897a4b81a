import Verif.Model.Tree
import Verif.Spec.Tree
import Verif.Lemmas.Chars
/-
Helper lemmas about `escape` and `quoteattr`.
-/
namespace Amara

@[simp] theorem replaceChar_nil (c r) : replaceChar c r [] = [] := rfl
theorem replaceChar_cons (c r d s) :
    replaceChar c r (d :: s) = (if d = c then r else [d]) ++ replaceChar c r s := by
  simp [replaceChar]
theorem replaceChar_append (c r s t) :
    replaceChar c r (s ++ t) = replaceChar c r s ++ replaceChar c r t := by
  simp [replaceChar]
theorem replaceChar_id {c r s} (h : c ∉ s) : replaceChar c r s = s := by
  induction s with
  | nil => rfl
  | cons d s ih =>
    simp only [List.mem_cons, not_or] at h
    rw [replaceChar_cons, ih h.2, if_neg (fun e => h.1 e.symm)]; rfl

/-- What `escape` does to one character. -/
def escChar (c : Char) : Str :=
  if c = '&' then "&amp;".toList else if c = '>' then "&gt;".toList
  else if c = '<' then "&lt;".toList else [c]

theorem escape_append (s t : Str) : escape (s ++ t) = escape s ++ escape t := by
  simp [escape, replaceChar_append]

theorem replaceChar_ne {c d : Char} (r : Str) (h : d ≠ c) : replaceChar c r [d] = [d] := by
  rw [replaceChar_cons, if_neg h, replaceChar_nil]; rfl

theorem escape_single (c : Char) : escape [c] = escChar c := by
  rw [escChar]
  by_cases h1 : c = '&'
  · subst h1; decide
  by_cases h2 : c = '>'
  · subst h2; decide
  by_cases h3 : c = '<'
  · subst h3; decide
  rw [if_neg h1, if_neg h2, if_neg h3, escape, replaceChar_ne _ h1, replaceChar_ne _ h2,
    replaceChar_ne _ h3]

theorem escape_cons (c : Char) (s : Str) : escape (c :: s) = escChar c ++ escape s := by
  have : escape (c :: s) = escape [c] ++ escape s := escape_append [c] s
  rw [this, escape_single]

@[simp] theorem escape_nil : escape [] = [] := rfl

def escAttrChar (c : Char) : Str :=
  if c = '\n' then "&#10;".toList else if c = '\r' then "&#13;".toList
  else if c = '\t' then "&#9;".toList else escChar c

theorem escapeAttr_append (s t : Str) : escapeAttr (s ++ t) = escapeAttr s ++ escapeAttr t := by
  simp [escapeAttr, escape_append, replaceChar_append]

theorem escapeAttr_single (c : Char) : escapeAttr [c] = escAttrChar c := by
  rw [escAttrChar]
  by_cases h1 : c = '\n'
  · subst h1; decide
  by_cases h2 : c = '\r'
  · subst h2; decide
  by_cases h3 : c = '\t'
  · subst h3; decide
  rw [if_neg h1, if_neg h2, if_neg h3, escapeAttr, escape_single, escChar]
  by_cases h4 : c = '&'
  · subst h4; decide
  by_cases h5 : c = '>'
  · subst h5; decide
  by_cases h6 : c = '<'
  · subst h6; decide
  rw [if_neg h4, if_neg h5, if_neg h6, replaceChar_ne _ h1, replaceChar_ne _ h2, replaceChar_ne _ h3]

theorem escapeAttr_cons (c : Char) (s : Str) : escapeAttr (c :: s) = escAttrChar c ++ escapeAttr s := by
  have : escapeAttr (c :: s) = escapeAttr [c] ++ escapeAttr s := escapeAttr_append [c] s
  rw [this, escapeAttr_single]

@[simp] theorem escapeAttr_nil : escapeAttr [] = [] := rfl

/-- A character that has no special meaning. -/
def Plain (c : Char) : Prop := c ≠ '&' ∧ c ≠ '<' ∧ c ≠ '>'

theorem escape_refs (s : Str) : Refs textRefs Plain s (escape s) := by
  induction s with
  | nil => exact .nil
  | cons c s ih =>
    rw [escape_cons]
    simp only [escChar]
    by_cases h1 : c = '&'
    · subst h1; exact .ref (by decide) ih
    · by_cases h2 : c = '>'
      · subst h2; exact .ref (by decide) ih
      · by_cases h3 : c = '<'
        · subst h3; exact .ref (by decide) ih
        · simp only [h1, h2, h3, if_false]; exact .lit ⟨h1, h3, h2⟩ ih

/-- `escape s` spells `s`. -/
theorem escape_spells {lit : Char → Prop} : ∀ (s : Str), (∀ c ∈ s, Plain c → lit c) →
    Spells lit s (escape s) := by
  intro s
  induction s with
  | nil => intro _; exact .nil
  | cons c s ih =>
    intro h
    have ih := ih (fun d hd => h d (by simp [hd]))
    rw [escape_cons]
    generalize hz : escape s = z at ih ⊢
    by_cases h1 : c = '&'
    · subst h1
      rw [show escChar '&' = '&' :: ("amp".toList ++ [';']) by decide]
      have := Spells.named (n := "amp") (c := '&') (by decide) ih
      simpa only [List.cons_append, List.append_assoc, List.nil_append] using this
    by_cases h2 : c = '>'
    · subst h2
      rw [show escChar '>' = '&' :: ("gt".toList ++ [';']) by decide]
      have := Spells.named (n := "gt") (c := '>') (by decide) ih
      simpa only [List.cons_append, List.append_assoc, List.nil_append] using this
    by_cases h3 : c = '<'
    · subst h3
      rw [show escChar '<' = '&' :: ("lt".toList ++ [';']) by decide]
      have := Spells.named (n := "lt") (c := '<') (by decide) ih
      simpa only [List.cons_append, List.append_assoc, List.nil_append] using this
    rw [escChar, if_neg h1, if_neg h2, if_neg h3]
    exact .lit (h c (by simp) ⟨h1, h3, h2⟩) ih

theorem escapeAttr_eq_escape : ∀ (s : Str), (∀ c ∈ s, c ≠ '\t' ∧ c ≠ '\n' ∧ c ≠ '\r') →
    escapeAttr s = escape s := by
  intro s
  induction s with
  | nil => intro _; rw [escapeAttr_nil, escape_nil]
  | cons c s ih =>
    intro h
    have hc := h c (by simp)
    rw [escapeAttr_cons, escape_cons, ih (fun d hd => h d (by simp [hd]))]
    simp [escAttrChar, hc.1, hc.2.1, hc.2.2]

theorem mem_escape {c : Char} (h : c = '"' ∨ c = '\'') (s : Str) : c ∈ escape s ↔ c ∈ s := by
  have key : ∀ d, c ∈ escChar d ↔ c = d := by
    intro d
    simp only [escChar]
    by_cases h1 : d = '&'
    · subst h1; rcases h with rfl | rfl <;> decide
    by_cases h2 : d = '>'
    · subst h2; rcases h with rfl | rfl <;> decide
    by_cases h3 : d = '<'
    · subst h3; rcases h with rfl | rfl <;> decide
    rw [if_neg h1, if_neg h2, if_neg h3, List.mem_singleton]
  induction s with
  | nil => simp
  | cons d s ih =>
    rw [escape_cons, List.mem_append, List.mem_cons, key]
    exact ⟨Or.imp_right ih.1, Or.imp_right ih.2⟩

/-- Escaping and then replacing the double quote spells the same string. -/
theorem escape_quot_spells {lit : Char → Prop} : ∀ (s : Str), (∀ c ∈ s, Plain c → c ≠ '"' → lit c) →
    Spells lit s (replaceChar '"' "&quot;".toList (escape s)) := by
  intro s
  induction s with
  | nil => intro _; exact .nil
  | cons c s ih =>
    intro h
    have ih := ih (fun d hd => h d (by simp [hd]))
    rw [escape_cons, replaceChar_append]
    generalize hz : replaceChar '"' "&quot;".toList (escape s) = z at ih ⊢
    by_cases h1 : c = '&'
    · subst h1
      rw [show replaceChar '"' "&quot;".toList (escChar '&') = '&' :: ("amp".toList ++ [';']) by decide]
      have := Spells.named (n := "amp") (c := '&') (by decide) ih
      simpa only [List.cons_append, List.append_assoc, List.nil_append] using this
    by_cases h2 : c = '>'
    · subst h2
      rw [show replaceChar '"' "&quot;".toList (escChar '>') = '&' :: ("gt".toList ++ [';']) by decide]
      have := Spells.named (n := "gt") (c := '>') (by decide) ih
      simpa only [List.cons_append, List.append_assoc, List.nil_append] using this
    by_cases h3 : c = '<'
    · subst h3
      rw [show replaceChar '"' "&quot;".toList (escChar '<') = '&' :: ("lt".toList ++ [';']) by decide]
      have := Spells.named (n := "lt") (c := '<') (by decide) ih
      simpa only [List.cons_append, List.append_assoc, List.nil_append] using this
    by_cases h4 : c = '"'
    · subst h4
      rw [show replaceChar '"' "&quot;".toList (escChar '"') = '&' :: ("quot".toList ++ [';']) by decide]
      have := Spells.named (n := "quot") (c := '"') (by decide) ih
      simpa only [List.cons_append, List.append_assoc, List.nil_append] using this
    rw [escChar, if_neg h1, if_neg h2, if_neg h3, replaceChar_ne _ h4]
    exact .lit (h c (by simp) ⟨h1, h3, h2⟩ h4) ih

/-- `quoteattr` quotes a spelling of the value. -/
theorem quoteattr_spells {v : Str} (h : AttrValue v) :
    ∃ q raw, (q = '"' ∨ q = '\'') ∧ quoteattr v = q :: (raw ++ [q]) ∧ Spells (AttrLit q) v raw := by
  have hcr : ∀ c ∈ v, c ≠ '\t' ∧ c ≠ '\n' ∧ c ≠ '\r' := by
    intro c hc
    have := h c hc
    refine ⟨this.2.1, this.2.2, ?_⟩
    rintro rfl
    exact absurd this.1 (by decide)
  have he := escapeAttr_eq_escape v hcr
  have lit : ∀ q c, c ∈ v → Plain c → c ≠ q → AttrLit q c := by
    intro q c hc hp hq
    exact ⟨(h c hc).1, hp.1, hp.2.1, hp.2.2, (h c hc).2.1, (h c hc).2.2, hq⟩
  simp only [quoteattr, he]
  by_cases h1 : '"' ∈ escape v
  · rw [if_pos h1]
    by_cases h2 : '\'' ∈ escape v
    · rw [if_pos h2]
      exact ⟨'"', _, .inl rfl, rfl, escape_quot_spells v (fun c hc hp hq => lit _ c hc hp hq)⟩
    · rw [if_neg h2]
      refine ⟨'\'', _, .inr rfl, rfl, escape_spells v (fun c hc hp => lit _ c hc hp ?_)⟩
      rintro rfl
      exact h2 ((mem_escape (.inr rfl) v).2 hc)
  · rw [if_neg h1]
    refine ⟨'"', _, .inl rfl, rfl, escape_spells v (fun c hc hp => lit _ c hc hp ?_)⟩
    rintro rfl
    exact h1 ((mem_escape (.inl rfl) v).2 hc)

/-! ### for arbitrary values -/

theorem escAttrChar_cases (c : Char) :
    (∃ n, (n, c) ∈ attrRefs ∧ n ≠ "&quot;" ∧ '"' ∉ n.toList ∧ escAttrChar c = n.toList) ∨
      (Plain c ∧ escAttrChar c = [c]) := by
  by_cases h1 : c = '\n'
  · subst h1; exact .inl ⟨"&#10;", by decide, by decide, by decide, by decide⟩
  by_cases h2 : c = '\r'
  · subst h2; exact .inl ⟨"&#13;", by decide, by decide, by decide, by decide⟩
  by_cases h3 : c = '\t'
  · subst h3; exact .inl ⟨"&#9;", by decide, by decide, by decide, by decide⟩
  by_cases h4 : c = '&'
  · subst h4; exact .inl ⟨"&amp;", by decide, by decide, by decide, by decide⟩
  by_cases h5 : c = '>'
  · subst h5; exact .inl ⟨"&gt;", by decide, by decide, by decide, by decide⟩
  by_cases h6 : c = '<'
  · subst h6; exact .inl ⟨"&lt;", by decide, by decide, by decide, by decide⟩
  right
  refine ⟨⟨h4, h6, h5⟩, ?_⟩
  rw [escAttrChar, if_neg h1, if_neg h2, if_neg h3, escChar, if_neg h4, if_neg h5, if_neg h6]

theorem escapeAttr_refs (s : Str) : Refs attrRefs Plain s (escapeAttr s) := by
  induction s with
  | nil => exact .nil
  | cons c s ih =>
    rw [escapeAttr_cons]
    rcases escAttrChar_cases c with ⟨n, h, _, _, e⟩ | ⟨h, e⟩
    · rw [e]; exact .ref h ih
    · rw [e]; exact .lit h ih

theorem escapeAttr_quot_refs (s : Str) :
    Refs attrRefs (fun c => Plain c ∧ c ≠ '"') s (replaceChar '"' "&quot;".toList (escapeAttr s)) := by
  induction s with
  | nil => exact .nil
  | cons c s ih =>
    rw [escapeAttr_cons, replaceChar_append]
    rcases escAttrChar_cases c with ⟨n, h, _, hq, e⟩ | ⟨h, e⟩
    · rw [e, replaceChar_id hq]; exact .ref h ih
    · rw [e, replaceChar_cons]
      by_cases h4 : c = '"'
      · subst h4; rw [if_pos rfl, replaceChar_nil, List.append_nil]; exact .ref (n := "&quot;") (by decide) ih
      · rw [if_neg h4]; exact .lit ⟨h, h4⟩ ih

theorem mem_escapeAttr {c : Char} (h : c = '"' ∨ c = '\'') (s : Str) : c ∈ escapeAttr s ↔ c ∈ s := by
  have key : ∀ d, c ∈ escAttrChar d ↔ c = d := by
    intro d
    rcases escAttrChar_cases d with ⟨n, hm, h1, h2, e⟩ | ⟨_, e⟩
    · rw [e]
      constructor
      · intro hc
        rcases h with rfl | rfl
        · exact absurd hc h2
        · exfalso
          have : ∀ p ∈ attrRefs, '\'' ∉ p.1.toList := by decide
          exact this _ hm hc
      · rintro rfl
        exfalso
        have : ∀ p ∈ attrRefs, p.2 = '\'' ∨ p.2 = '"' → p.1 = "&quot;" := by decide
        exact h1 (this _ hm h.symm)
    · rw [e, List.mem_singleton]
  induction s with
  | nil => simp
  | cons d s ih => 
    rw [escapeAttr_cons, List.mem_append, List.mem_cons, key]
    exact ⟨Or.imp_right ih.1, Or.imp_right ih.2⟩

theorem Refs.mono {refs} {lit lit' : Char → Prop} {s w} (h : Refs refs lit s w)
    (hl : ∀ c ∈ s, lit c → lit' c) : Refs refs lit' s w := by
  induction h with
  | nil => exact .nil
  | lit hc _ ih => exact .lit (hl _ (by simp) hc) (ih (fun d hd => hl d (by simp [hd])))
  | ref hc _ ih => exact .ref hc (ih (fun d hd => hl d (by simp [hd])))

theorem quoteattr_refs (v : Str) :
    ∃ q raw, (q = '"' ∨ q = '\'') ∧ quoteattr v = q :: (raw ++ [q]) ∧
      Refs attrRefs (fun c => Plain c ∧ c ≠ q) v raw := by
  simp only [quoteattr]
  by_cases h1 : '"' ∈ escapeAttr v
  · rw [if_pos h1]
    by_cases h2 : '\'' ∈ escapeAttr v
    · rw [if_pos h2]
      exact ⟨'"', _, .inl rfl, rfl, escapeAttr_quot_refs v⟩
    · rw [if_neg h2]
      refine ⟨'\'', _, .inr rfl, rfl, (escapeAttr_refs v).mono (fun c hc hp => ⟨hp, ?_⟩)⟩
      rintro rfl
      exact h2 ((mem_escapeAttr (.inr rfl) v).2 hc)
  · rw [if_neg h1]
    refine ⟨'"', _, .inl rfl, rfl, (escapeAttr_refs v).mono (fun c hc hp => ⟨hp, ?_⟩)⟩
    rintro rfl
    exact h1 ((mem_escapeAttr (.inl rfl) v).2 hc)

/-- Nothing but the allowed characters and those of the references occurs. -/
theorem Refs.not_mem {refs} {lit : Char → Prop} {s w} (h : Refs refs lit s w) {d : Char}
    (h1 : ∀ p ∈ refs, d ∉ p.1.toList) (h2 : ¬ lit d) : d ∉ w := by
  induction h with
  | nil => simp
  | lit hc _ ih =>
    simp only [List.mem_cons, not_or]
    exact ⟨fun e => h2 (e ▸ hc), ih⟩
  | ref hc _ ih =>
    simp only [List.mem_append, not_or]
    exact ⟨h1 _ hc, ih⟩

/-- The tables above can be read in one way only. -/
def PrefixFree (refs : List (String × Char)) : Prop :=
  ∀ p ∈ refs, ∀ p' ∈ refs, ∀ a b : Str, p.1.toList ++ a = p'.1.toList ++ b → p.2 = p'.2 ∧ a = b

theorem prefixFree_of {refs : List (String × Char)}
    (h : ∀ p ∈ refs, ∀ p' ∈ refs, p = p' ∨
      ((p.1.toList.zip p'.1.toList).any fun x => x.1 != x.2) = true) : PrefixFree refs := by
  have key : ∀ (x y a b : Str), ((x.zip y).any fun z => z.1 != z.2) = true → x ++ a ≠ y ++ b := by
    intro x
    induction x with
    | nil => intro y a b h; simp at h
    | cons c x ih =>
      intro y a b h
      cases y with
      | nil => simp at h
      | cons d y =>
        simp only [List.zip_cons_cons, List.any_cons, Bool.or_eq_true, bne_iff_ne] at h
        rcases h with h | h
        · intro e; simp only [List.cons_append, List.cons.injEq] at e; exact h e.1
        · intro e; simp only [List.cons_append, List.cons.injEq] at e; exact ih y a b h e.2
  intro p hp p' hp' a b e
  rcases h p hp p' hp' with rfl | h
  · exact ⟨rfl, List.append_cancel_left e⟩
  · exact absurd e (key _ _ a b h)

theorem Refs.unique {refs} {lit : Char → Prop} (hpf : PrefixFree refs)
    (hamp : ∀ p ∈ refs, ∃ r, p.1.toList = '&' :: r) (hlit : ¬ lit '&') {s w} (h : Refs refs lit s w) :
    ∀ {s'}, Refs refs lit s' w → s = s' := by
  induction h with
  | nil =>
    intro s' h'
    generalize hz : ([] : Str) = z at h'
    cases h' with
    | nil => rfl
    | lit => cases hz
    | ref hm _ => obtain ⟨r, hr⟩ := hamp _ hm; simp only at hr; rw [hr] at hz; cases hz
  | @lit c s w hc _ ih =>
    intro s' h'
    generalize hz : c :: w = z at h'
    cases h' with
    | nil => cases hz
    | lit hc' h'' => cases hz; rw [ih h'']
    | ref hm h'' =>
      obtain ⟨r, hr⟩ := hamp _ hm
      simp only at hr; rw [hr] at hz; cases hz; exact absurd hc hlit
  | @ref n c s w hm _ ih =>
    intro s' h'
    obtain ⟨r, hr⟩ := hamp _ hm
    simp only at hr
    generalize hz : n.toList ++ w = z at h'
    cases h' with
    | nil => rw [hr] at hz; cases hz
    | lit hc' h'' => rw [hr] at hz; cases hz; exact absurd hc' hlit
    | ref hm' h'' =>
      obtain ⟨h1, h2⟩ := hpf _ hm _ hm' _ _ hz
      simp only at h1
      subst h1 h2
      rw [ih h'']

end Amara
