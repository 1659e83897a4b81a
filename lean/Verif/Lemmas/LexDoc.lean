import Verif.Lemmas.Lex
/-
Lemmas for `Props/Lex.lean`: the scanner on documents.
-/
namespace Amara.Lex
open Amara

/-! ### reading a part of the text -/

/-- Scanning `s` in the state `st` gives the tokens `ts` and, as illegal, only white space, until `r` remains and the
state is `st'`. -/
inductive Reads : LState → Str → List (Kind × Str) → LState → Str → Prop
  | refl {st s} : Reads st s [] st s
  | tok {st s m ts st' r} : s ≠ [] → scan st s = some m → Reads m.next (s.drop m.len) ts st' r →
      Reads st s ((m.kind, m.value) :: ts) st' r
  | skip {st c s ts st' r} : isLexWs c = true → scan st (c :: s) = none → Reads st s ts st' r →
      Reads st (c :: s) ts st' r

theorem Reads.trans {st s ts st1 s1 ts' st2 s2} (h : Reads st s ts st1 s1) (h' : Reads st1 s1 ts' st2 s2) :
    Reads st s (ts ++ ts') st2 s2 := by
  induction h with
  | refl => exact h'
  | tok h0 h1 _ ih => exact .tok h0 h1 (ih h')
  | skip h0 h1 _ ih => exact .skip h0 h1 (ih h')

theorem reads_lexeme {st k v w st' r ts st2 r2} (h : Lexeme st k v w st') (hr : ∀ c ∈ r.head?, grows k st c = false)
    (hn : Reads st' r ts st2 r2) : Reads st (w ++ r) ((k, v) :: ts) st2 r2 := by
  refine .tok (m := ⟨k, v, st', w.length⟩) (by simp [lexeme_ne h]) (scan_exact h hr) ?_
  rw [List.drop_left]; exact hn

theorem tag_ws {c : Char} {s : Str} (h : isLexWs c = true) : scan .tag (c :: s) = none := by
  have h1 : isNameStart c = false := by
    cases h' : isNameStart c with
    | false => rfl
    | true => rw [nameStart_not_lexWs h'] at h; cases h
  have : c ≠ '>' ∧ c ≠ '\'' ∧ c ≠ '"' ∧ c ≠ '=' := by
    rcases (isLexWs_iff c).1 h with rfl | rfl | rfl <;> decide
  rw [scan, scanTag, name_none h1, char_none this.1, char_none this.2.1, char_none this.2.2.1, char_none this.2.2.2]
  rfl

theorem reads_space {sp s ts st' r} (h : LexSpace sp) (hn : Reads .tag s ts st' r) : Reads .tag (sp ++ s) ts st' r := by
  induction sp with
  | nil => exact hn
  | cons c sp ih =>
    have hc := lexSpace_all.1 h c (by simp)
    exact .skip hc (tag_ws hc) (ih (fun d hd => h d (by simp [hd])))

theorem reads_drain {st s ts st' r} (h : Reads st s ts st' r) (hr : r = []) : ∀ {p fuel}, s.length < fuel →
    tokensOf (drain fuel ⟨st, s, p⟩).1 = ts ∧ LexSpace (illegalsOf (drain fuel ⟨st, s, p⟩).1) ∧
      (drain fuel ⟨st, s, p⟩).2.state = st' := by
  induction h with
  | refl =>
    intro p fuel hf
    subst hr
    obtain ⟨f, rfl⟩ : ∃ f, fuel = f + 1 := ⟨fuel - 1, by omega⟩
    exact ⟨rfl, (by intro c hc; cases hc), rfl⟩
  | @tok st s m ts st' r h0 h1 _ ih =>
    intro p fuel hf
    obtain ⟨f, rfl⟩ : ∃ f, fuel = f + 1 := ⟨fuel - 1, by omega⟩
    obtain ⟨w, t, hw, hl, hx⟩ := scan_good h1
    have hne := List.length_pos_iff.2 (lexeme_ne hx)
    have hlen : (s.drop m.len).length < f := by
      rw [List.length_drop]
      have := List.length_pos_iff.2 h0
      omega
    rw [drain_tok h1 h0]
    obtain ⟨i1, i2, i3⟩ := ih hr (p := p + m.len) hlen
    exact ⟨by simpa [tokensOf, Out.token?] using i1, by simpa [illegalsOf] using i2, i3⟩
  | @skip st c s ts st' r hc h1 _ ih =>
    intro p fuel hf
    simp only [List.length_cons] at hf
    obtain ⟨f, rfl⟩ : ∃ f, fuel = f + 1 := ⟨fuel - 1, by omega⟩
    rw [drain_skip h1]
    obtain ⟨i1, i2, i3⟩ := ih hr (p := p + 1) (fuel := f + 1) (by omega)
    refine ⟨by rw [tokensOf, List.filterMap_cons]; exact i1, ?_, i3⟩
    intro d hd
    rcases List.mem_cons.1 (show d ∈ c :: illegalsOf _ from hd) with rfl | hd
    · exact (isLexWs_iff _).1 hc
    · exact i2 d hd

/-! ### newlines -/

theorem replaceCrLf_cons {c : Char} {r : Str} (h : c ≠ '\r' ∨ r.head? ≠ some '\n') :
    replaceCrLf (c :: r) = c :: replaceCrLf r := by
  rw [replaceCrLf]
  rintro r' rfl rfl
  rcases h with h | h
  · exact h rfl
  · exact h rfl

theorem newlines_cons {c : Char} {r : Str} (h : c ≠ '\r') : newlines (c :: r) = c :: newlines r := by
  rw [newlines, replaceCrLf_cons (.inl h), List.map_cons, if_neg h]; rfl

theorem newlines_plain {a b : Str} (h : ∀ c ∈ a, c ≠ '\r') : newlines (a ++ b) = a ++ newlines b := by
  induction a with
  | nil => rfl
  | cons c a ih =>
    rw [List.cons_append, newlines_cons (h c (by simp)), ih (fun d hd => h d (by simp [hd])), List.cons_append]

theorem replaceCrLf_append {a b : Str} (h : a.getLast? ≠ some '\r' ∨ b.head? ≠ some '\n') :
    replaceCrLf (a ++ b) = replaceCrLf a ++ replaceCrLf b := by
  induction a using replaceCrLf.induct with
  | case1 => rfl
  | case2 r ih =>
    show '\n' :: replaceCrLf (r ++ b) = '\n' :: replaceCrLf r ++ replaceCrLf b
    rw [ih]
    · rfl
    · refine h.imp (fun h => ?_) id
      cases r with
      | nil => simp
      | cons d r => simpa [List.getLast?_cons] using h
  | case3 c r hn ih =>
    have hc : c ≠ '\r' ∨ r.head? ≠ some '\n' := by
      by_cases h1 : c = '\r'
      · refine .inr fun h2 => ?_
        obtain ⟨r', rfl⟩ := head_split h2
        exact hn r' h1 rfl
      · exact .inl h1
    have hc' : c ≠ '\r' ∨ (r ++ b).head? ≠ some '\n' := by
      cases r with
      | nil =>
        refine h.imp (fun h => ?_) id
        rintro rfl; exact h rfl
      | cons d r => exact hc
    rw [List.cons_append, replaceCrLf_cons hc', replaceCrLf_cons hc, ih]
    · rfl
    · refine h.imp (fun h => ?_) id
      cases r with
      | nil => simp
      | cons d r => simpa [List.getLast?_cons] using h

theorem newlines_append {a b : Str} (h : a.getLast? ≠ some '\r' ∨ b.head? ≠ some '\n') :
    newlines (a ++ b) = newlines a ++ newlines b := by
  rw [newlines, replaceCrLf_append h, List.map_append]; rfl

theorem newlines_none {a : Str} (h : ∀ c ∈ a, c ≠ '\r') : newlines a = a := by
  have := newlines_plain (b := []) h
  simpa [newlines, replaceCrLf] using this

theorem replaceCrLf_mem {s : Str} : ∀ c ∈ replaceCrLf s, c ∈ s := by
  induction s using replaceCrLf.induct with
  | case1 => intro c hc; cases hc
  | case2 r ih =>
    intro c hc
    rcases List.mem_cons.1 (show c ∈ '\n' :: replaceCrLf r from hc) with rfl | hc
    · simp
    · simp [ih c hc]
  | case3 d r hn ih =>
    intro c hc
    rw [replaceCrLf] at hc
    · rcases List.mem_cons.1 hc with rfl | hc
      · simp
      · simp [ih c hc]
    · exact hn

theorem newlines_space {w : Str} (h : Space w) : LexSpace (newlines w) := by
  intro c hc
  rw [newlines, List.mem_map] at hc
  obtain ⟨d, hd, rfl⟩ := hc
  rcases h d (replaceCrLf_mem d hd) with rfl | rfl | rfl | rfl <;> simp

theorem newlines_nil {w : Str} (h : newlines w = []) : w = [] := by
  cases w with
  | nil => rfl
  | cons c w =>
    rw [newlines, List.map_eq_nil_iff] at h
    unfold replaceCrLf at h
    split at h
    · rename_i heq; cases heq
    · cases h
    · cases h

theorem name_noCR {n : Str} (h : IsName n) : ∀ c ∈ n, c ≠ '\r' := by
  obtain ⟨c, r, rfl, h1, h2⟩ := h
  rintro d hd rfl
  rcases List.mem_cons.1 hd with rfl | hd
  · revert h1; decide
  · have := h2 _ hd; revert this; decide

theorem hexDigit_plain {d : Char} (h : (hexDigit? d).isSome = true) : d ≠ '\r' := by
  rintro rfl; revert h; decide

theorem spells_noCR {lit s raw} (h : Spells lit s raw) (hl : ∀ c, lit c → c ≠ '\r') : ∀ c ∈ raw, c ≠ '\r' := by
  induction h with
  | nil => intro c hc; cases hc
  | lit h _ ih =>
    intro c hc
    rcases List.mem_cons.1 hc with rfl | hc
    · exact hl _ h
    · exact ih c hc
  | named h _ ih =>
    intro c hc
    simp only [namedRefs, List.mem_cons, Prod.mk.injEq, List.not_mem_nil, or_false] at h
    rcases h with ⟨rfl, rfl⟩ | ⟨rfl, rfl⟩ | ⟨rfl, rfl⟩ | ⟨rfl, rfl⟩ | ⟨rfl, rfl⟩ <;>
    · simp only [List.mem_cons, List.mem_append] at hc
      rintro rfl
      rcases hc with hc | hc | hc | hc
      · exact absurd hc (by decide)
      · revert hc; decide
      · exact absurd hc (by decide)
      · exact ih _ hc rfl
  | hex _ hd _ _ _ ih =>
    intro c hc
    simp only [List.mem_cons, List.mem_append] at hc
    rintro rfl
    rcases hc with hc | hc | hc | hc | hc | hc
    · exact absurd hc (by decide)
    · exact absurd hc (by decide)
    · exact absurd hc (by decide)
    · exact hexDigit_plain (hd _ hc) rfl
    · exact absurd hc (by decide)
    · exact ih _ hc rfl

/-! ### text -/

theorem spells_split {lit s raw} (h : Spells lit s raw) (hamp : ¬ lit '&') : ∃ v s' raw', s = v ++ s' ∧ raw = v ++ raw' ∧
    (∀ c ∈ v, lit c) ∧ Spells lit s' raw' ∧ ∀ c ∈ raw'.head?, ¬ lit c := by
  induction h with
  | nil => exact ⟨[], [], [], rfl, rfl, by simp, .nil, by simp⟩
  | @lit c s w hc _ ih =>
    obtain ⟨v, s', raw', h1, h2, h3, h4, h5⟩ := ih
    refine ⟨c :: v, s', raw', by simp [h1], by simp [h2], ?_, h4, h5⟩
    intro d hd
    rcases List.mem_cons.1 hd with rfl | hd
    · exact hc
    · exact h3 d hd
  | @named n c s w hn hs _ => exact ⟨[], _, _, rfl, rfl, by simp, .named hn hs, by simpa using hamp⟩
  | @hex ds c s w h0 hd hv hl hs _ => exact ⟨[], _, _, rfl, rfl, by simp, .hex h0 hd hv hl hs, by simpa using hamp⟩

theorem decode_cons {t ts a b} (h : tokText t = some a) (h' : decode ts = some b) : decode (t :: ts) = some (a ++ b) := by
  rw [decode, h, h']; rfl

theorem named_kind {n : String} {c : Char} (h : (n, c) ∈ namedRefs) : ∃ m k, (m, k) ∈ entities ∧
    tokText (k, m.toList) = some [c] ∧ m.toList = '&' :: (n.toList ++ [';']) ∧ ∀ st d, grows k st d = false := by
  simp only [namedRefs, List.mem_cons, Prod.mk.injEq, List.not_mem_nil, or_false] at h
  rcases h with ⟨rfl, rfl⟩ | ⟨rfl, rfl⟩ | ⟨rfl, rfl⟩ | ⟨rfl, rfl⟩ | ⟨rfl, rfl⟩
  · exact ⟨"&lt;", .ltEnt, by decide, rfl, by decide, fun _ _ => rfl⟩
  · exact ⟨"&gt;", .gtEnt, by decide, rfl, by decide, fun _ _ => rfl⟩
  · exact ⟨"&amp;", .ampEnt, by decide, rfl, by decide, fun _ _ => rfl⟩
  · exact ⟨"&quot;", .quotEnt, by decide, rfl, by decide, fun _ _ => rfl⟩
  · exact ⟨"&apos;", .aposEnt, by decide, rfl, by decide, fun _ _ => rfl⟩

theorem char_valid (c : Char) : c.toNat.isValidChar := c.valid

theorem reads_spells {st : LState} {lit : Char → Prop} (hst : st ≠ .tag) (hamp : ¬ lit '&')
    (hrun : ∀ v, v ≠ [] → (∀ c ∈ v, lit c) → Lexeme st .chardata v v st)
    (hgrow : ∀ c, ¬ lit c → grows .chardata st c = false) (n : Nat) : ∀ {s raw : Str}, raw.length ≤ n → Spells lit s raw →
    ∃ ts, decode ts = some s ∧ ∀ t : Str, (∀ c ∈ t.head?, ¬ lit c) → Reads st (raw ++ t) ts st t := by
  induction n with
  | zero =>
    intro s raw hl h
    obtain rfl : raw = [] := List.length_eq_zero_iff.1 (by omega)
    cases h
    exact ⟨[], rfl, fun t _ => .refl⟩
  | succ n ih =>
    intro s raw hl h
    obtain ⟨v, s', raw', rfl, rfl, hv, h', hh⟩ := spells_split h hamp
    have hrest : ∃ ts, decode ts = some s' ∧ ∀ t : Str, (∀ c ∈ t.head?, ¬ lit c) → Reads st (raw' ++ t) ts st t := by
      cases h' with
      | nil => exact ⟨[], rfl, fun t _ => .refl⟩
      | lit hc _ => exact absurd hc (hh _ rfl)
      | @named m c s w hn hs =>
        simp only [List.length_append, List.length_cons] at hl
        obtain ⟨ts, h1, h2⟩ := ih (by omega) hs
        obtain ⟨m', k, hm, ht, hm', hg⟩ := named_kind hn
        refine ⟨(k, m'.toList) :: ts, decode_cons ht h1, fun t hc => ?_⟩
        rw [show '&' :: (m.toList ++ ';' :: w) ++ t = m'.toList ++ (w ++ t) by rw [hm']; simp]
        exact reads_lexeme (.named hst hm) (fun c _ => hg _ _) (h2 t hc)
      | @hex ds c s w h0 hd hx _ hs =>
        simp only [List.length_append, List.length_cons] at hl
        obtain ⟨ts, h1, h2⟩ := ih (by omega) hs
        refine ⟨(.numEnt, ds) :: ts, decode_cons (a := [c]) ?_ h1, fun t hc => ?_⟩
        · rw [tokText, hx, if_pos (char_valid c), Char.ofNat_toNat]
        · rw [show '&' :: '#' :: 'x' :: (ds ++ ';' :: w) ++ t = "&#x".toList ++ (ds ++ [';']) ++ (w ++ t) by simp]
          exact reads_lexeme (.hex hst h0 hd) (fun c _ => rfl) (h2 t hc)
    obtain ⟨ts, h1, h2⟩ := hrest
    by_cases h0 : v = []
    · subst h0; exact ⟨ts, h1, h2⟩
    · refine ⟨(.chardata, v) :: ts, decode_cons rfl h1, fun t hc => ?_⟩
      rw [List.append_assoc]
      refine reads_lexeme (hrun v h0 hv) ?_ (h2 t hc)
      intro c hc'
      refine hgrow c ?_
      cases raw' with
      | nil => exact hc c hc'
      | cons d r => exact hh c hc'

theorem reads_text {s raw} (h : Spells TextLit s raw) : ∃ ts, decode ts = some s ∧
    ∀ t : Str, (∀ c ∈ t.head?, ¬ TextLit c) → Reads .data (raw ++ t) ts .data t := by
  refine reads_spells (by decide) (by decide) (fun v h0 h1 => .text h0 h1) ?_ _ (Nat.le_refl _) h
  intro c hc
  show isDataChar c = false
  rw [← Bool.not_eq_true, isDataChar_iff]; exact hc

/-- The state inside a quoted value, and the token of its quotes. -/
def quoteState (q : Char) : LState := if q = '"' then .attrdbl else .attrsgl
def quoteTok (q : Char) : Kind × Str := if q = '"' then (.dblQuote, ['"']) else (.sglQuote, ['\''])

theorem reads_value {q v raw} (hq : q = '"' ∨ q = '\'') (h : Spells (AttrLit q) v raw) :
    ∃ tv, decode tv = some v ∧ ∀ {w ts st r}, Reads .tag w ts st r →
      Reads .tag (q :: (raw ++ q :: w)) (quoteTok q :: (tv ++ quoteTok q :: ts)) st r := by
  rcases hq with rfl | rfl
  · obtain ⟨tv, h1, h2⟩ := reads_spells (st := .attrdbl) (lit := AttrLit '"') (by decide) (by decide)
      (fun v h0 h1 => .valueDbl h0 h1) (by
        intro c hc
        show isAttrCharDbl c = false
        rw [← Bool.not_eq_true, dbl_pat]; exact hc) _ (Nat.le_refl _) h
    refine ⟨tv, h1, fun hr => ?_⟩
    refine reads_lexeme (w := ['"']) .openDbl (fun c _ => rfl) ?_
    refine (h2 _ ?_).trans (reads_lexeme (w := ['"']) .closeDbl (fun c _ => rfl) hr)
    intro c hc; cases hc; decide
  · obtain ⟨tv, h1, h2⟩ := reads_spells (st := .attrsgl) (lit := AttrLit '\'') (by decide) (by decide)
      (fun v h0 h1 => .valueSgl h0 h1) (by
        intro c hc
        show isAttrCharSgl c = false
        rw [← Bool.not_eq_true, sgl_pat]; exact hc) _ (Nat.le_refl _) h
    refine ⟨tv, h1, fun hr => ?_⟩
    refine reads_lexeme (w := ['\'']) .openSgl (fun c _ => rfl) ?_
    refine (h2 _ ?_).trans (reads_lexeme (w := ['\'']) .closeSgl (fun c _ => rfl) hr)
    intro c hc; cases hc; decide

theorem quoteTok_ok {q : Char} (hq : q = '"' ∨ q = '\'') :
    quoteTok q = (.dblQuote, ['"']) ∨ quoteTok q = (.sglQuote, ['\'']) := by
  rcases hq with rfl | rfl
  · exact .inl rfl
  · exact .inr rfl

/-! ### tags -/

theorem attrLit_noCR {q c : Char} (h : AttrLit q c) : c ≠ '\r' := by
  rintro rfl
  have := h.1
  revert this; decide

theorem textLit_noCR {c : Char} (h : TextLit c) : c ≠ '\r' := by
  rintro rfl
  have := h.1
  revert this; decide

theorem quote_noCR {q : Char} (hq : q = '"' ∨ q = '\'') : q ≠ '\r' := by
  rcases hq with rfl | rfl <;> decide

theorem name_cons {n : Str} (hn : IsName n) : ∃ c r, n = c :: r ∧ isLexWs c = false ∧ c ≠ '\n' := by
  obtain ⟨c, r, rfl, hc⟩ := name_head hn
  have := nameStart_not_lexWs hc
  exact ⟨c, r, rfl, this, by rintro rfl; cases this⟩

theorem name_head_nl {n t : Str} (hn : IsName n) : (n ++ t).head? ≠ some '\n' := by
  obtain ⟨c, r, rfl, _, hc⟩ := name_cons hn
  simpa using hc

theorem reads_attrs {kvs wa} (h : IsAttrs kvs wa) : ∃ ta, AttrToks kvs ta ∧ ∀ w1, Space w1 → ∃ sp x,
    newlines (wa ++ w1) = sp ++ x ∧ LexSpace sp ∧ (sp = [] → x = []) ∧ (∀ c ∈ x.head?, isLexWs c = false) ∧
    ∀ t, Reads .tag (x ++ '>' :: t) (ta ++ [(.gt, ['>'])]) .data t := by
  induction h with
  | nil =>
    refine ⟨[], .nil, fun w1 h1 => ⟨newlines w1, [], by simp, newlines_space h1, by simp, by simp, fun t => ?_⟩⟩
    exact reads_lexeme (w := ['>']) .gt (fun c _ => rfl) .refl
  | @cons k v raw wk w2 q kvs w h0 hk hn h2 hq hv _ ih =>
    obtain ⟨ta, hta, ih⟩ := ih
    obtain ⟨tv, htv, hr⟩ := reads_value hq hv
    refine ⟨_, .cons (quoteTok_ok hq) htv hta, fun w1 h1 => ?_⟩
    obtain ⟨sp, x, hx, hsp, _, _, hx'⟩ := ih w1 h1
    have e : newlines (wk ++ (k ++ (w2 ++ '=' :: q :: (raw ++ q :: w))) ++ w1) =
        newlines wk ++ (k ++ (newlines w2 ++ '=' :: q :: (raw ++ q :: (sp ++ x)))) := by
      rw [show wk ++ (k ++ (w2 ++ '=' :: q :: (raw ++ q :: w))) ++ w1 =
        wk ++ (k ++ (w2 ++ ('=' :: q :: (raw ++ q :: (w ++ w1))))) by simp]
      rw [newlines_append (.inr (name_head_nl hn)), newlines_plain (name_noCR hn),
        newlines_append (.inr (by simp)), newlines_cons (by decide), newlines_cons (quote_noCR hq),
        newlines_plain (spells_noCR hv fun c => attrLit_noCR), newlines_cons (quote_noCR hq), hx]
    refine ⟨newlines wk, _, e, newlines_space hk, fun h => absurd (newlines_nil h) h0, ?_, fun t => ?_⟩
    · obtain ⟨c, r, rfl, hc, _⟩ := name_cons hn
      intro d hd; cases hd; exact hc
    · rw [show k ++ (newlines w2 ++ '=' :: q :: (raw ++ q :: (sp ++ x))) ++ '>' :: t =
        k ++ (newlines w2 ++ ('=' :: (q :: (raw ++ q :: (sp ++ (x ++ '>' :: t)))))) by simp]
      have hs2 := newlines_space h2
      have := reads_lexeme (r := newlines w2 ++ ('=' :: (q :: (raw ++ q :: (sp ++ (x ++ '>' :: t)))))) (.name hn) ?_
        (reads_space hs2 (reads_lexeme (w := ['=']) .eq (fun c _ => rfl) (hr (reads_space hsp (hx' t)))))
      · simpa using this
      · intro c hc
        cases h : newlines w2 with
        | nil => rw [h] at hc; cases hc; decide
        | cons d r =>
          rw [h] at hc hs2
          cases hc
          exact lexWs_not_nameChar (lexSpace_all.1 hs2 _ (by simp))

theorem name_space {c : Char} (h : NameStartCode c.toNat ∨ NameCode c.toNat) (hs : isPySpace c = true) :
    c = Char.ofNat 0x1680 := by
  rw [Char.eq_iff_toNat, show (Char.ofNat 0x1680).toNat = 0x1680 from rfl]
  simp only [isPySpace, inRanges, List.any_cons, List.any_nil, Bool.or_false, Bool.or_eq_true, Bool.and_eq_true,
    decide_eq_true_eq] at hs
  unfold NameCode MicroNameCode NameStartCode at h
  omega

theorem name_chars {n : Str} (hn : IsName n) : ∀ c ∈ n, NameStartCode c.toNat ∨ NameCode c.toNat := by
  obtain ⟨c, r, rfl, h1, h2⟩ := hn
  intro d hd
  rcases List.mem_cons.1 hd with rfl | hd
  · exact .inl h1
  · exact .inr (h2 d hd)

theorem stripped_name {w1 n w2 : Str} (h1 : LexSpace w1) (h2 : LexSpace w2) (hn : IsName n) (ht : Trimmed n) :
    Stripped (w1 ++ (n ++ w2)) n := by
  refine ⟨w1, w2, rfl, fun c hc => lexWs_space (lexSpace_all.1 h1 c hc),
    fun c hc => lexWs_space (lexSpace_all.1 h2 c hc), fun c hc => ?_, fun c hc => ?_⟩
  · rw [← Bool.not_eq_true]
    intro hs
    have := name_space (name_chars hn c (List.mem_of_mem_head? hc)) hs
    subst this; exact ht.1 hc
  · rw [← Bool.not_eq_true]
    intro hs
    have := name_space (name_chars hn c (List.mem_of_mem_getLast? hc)) hs
    subst this; exact ht.2 hc

theorem reads_start {w0 n sp x t ts st r} (h0 : LexSpace w0) (hn : IsName n) (hsp : LexSpace sp) (hx : sp = [] → x = [])
    (hx' : ∀ c ∈ x.head?, isLexWs c = false) (ht : Trimmed n) (hr : Reads .tag (x ++ '>' :: t) ts st r) :
    Reads .data ('<' :: (w0 ++ (n ++ (sp ++ (x ++ '>' :: t))))) ((.starttag, n) :: ts) st r := by
  have hm : matchSpacedName (w0 ++ (n ++ sp) ++ (x ++ '>' :: t)) = some (w0 ++ (n ++ sp)) := by
    refine matchSpacedName_ends h0 hn hsp fun c hc => ?_
    cases x with
    | nil => cases hc; exact ⟨fun _ => by decide, by decide⟩
    | cons d x => cases hc; exact ⟨fun h => absurd (hx h) (by simp), hx' _ rfl⟩
  have hs : scan .data ('<' :: (w0 ++ (n ++ (sp ++ (x ++ '>' :: t))))) =
      some ⟨.starttag, n, .tag, (w0 ++ (n ++ sp)).length + 1⟩ := by
    rw [scan, scanData, show w0 ++ (n ++ (sp ++ (x ++ '>' :: t))) = w0 ++ (n ++ sp) ++ (x ++ '>' :: t) by simp,
      ruleStart, hm, Option.map_some, ← stripped_eq (stripped_name h0 hsp hn ht)]
    rfl
  refine .tok (m := ⟨.starttag, n, .tag, (w0 ++ (n ++ sp)).length + 1⟩) (by simp) hs ?_
  rw [show '<' :: (w0 ++ (n ++ (sp ++ (x ++ '>' :: t)))) = '<' :: (w0 ++ (n ++ sp)) ++ (x ++ '>' :: t) by simp]
  have : ('<' :: (w0 ++ (n ++ sp)) ++ (x ++ '>' :: t)).drop ((w0 ++ (n ++ sp)).length + 1) = x ++ '>' :: t :=
    List.drop_left (l₁ := '<' :: (w0 ++ (n ++ sp)))
  rw [this]; exact hr

theorem reads_stop {w0 n w1 t ts st r} (h0 : LexSpace w0) (hn : IsName n) (h1 : LexSpace w1) (ht : Trimmed n)
    (hr : Reads .data t ts st r) :
    Reads .data ('<' :: '/' :: (w0 ++ (n ++ (w1 ++ '>' :: t)))) ((.endtag, n) :: ts) st r := by
  have := reads_lexeme (.stop h0 hn h1 (stripped_name h0 h1 hn ht)) (fun c _ => rfl) hr
  simpa using this

/-! ### documents -/

theorem NoGap.part {a w b : Str} (h : NoGap (a ++ (w ++ b))) : NoGap w := by
  rintro x sp y rfl hs
  exact h (a ++ x) sp (y ++ b) (by simp) hs

theorem reads_content {ns w} (h : IsContent ns w) : NoGap w → (∀ n ∈ elemNamesList ns, Trimmed n) →
    ∃ ts, NodeToks ns ts ∧ ∀ t, (∀ x ∈ ns.getLast?, x.isText = true → ∀ c ∈ t.head?, ¬ TextLit c) →
      Reads .data (newlines w ++ t) ts .data t := by
  induction h with
  | nil => exact fun _ _ => ⟨[], .nil, fun t _ => .refl⟩
  | @text s raw ns w h0 hs hc hh ih =>
    intro hg hn
    obtain ⟨tt, ht, hr⟩ := reads_text hs
    obtain ⟨ts, hts, hr'⟩ := ih (NoGap.part (a := raw) (b := []) (by simpa using hg)) (by simpa [elemNamesList, elemNames] using hn)
    refine ⟨_, .text h0 ht hts hh, fun t hc' => ?_⟩
    rw [newlines_plain (spells_noCR hs fun c => textLit_noCR), List.append_assoc]
    refine (hr _ ?_).trans (hr' t (fun x hx => hc' x ?_))
    · cases hc with
      | nil => exact hc' _ rfl rfl
      | text => exact absurd (hh _ rfl) (by simp [Node.isText])
      | elem =>
        intro c hc
        rw [newlines_cons (by decide)] at hc
        cases hc; decide
    · cases ns with
      | nil => cases hx
      | cons y ns => simpa [List.getLast?_cons] using hx
  | @elem n kvs wa cs wc ns w w0 w1 w2 w3 w4 hn ha hcs hns h0 h1 h2 h3 h4 ihc ihn =>
    intro hg hnm
    have hw2 : w2 = [] := hg ('<' :: (w0 ++ (n ++ (wa ++ (w1 ++ '>' :: wc))))) w2 (w3 ++ (n ++ (w4 ++ '>' :: w))) (by simp) h2
    subst hw2
    have htn : Trimmed n := hnm n (by simp [elemNamesList, elemNames])
    obtain ⟨tc, htc, hrc⟩ := ihc
      (NoGap.part (a := '<' :: (w0 ++ (n ++ (wa ++ (w1 ++ ['>']))))) (w := wc)
        (b := '<' :: '/' :: (w3 ++ (n ++ (w4 ++ '>' :: w)))) (by simpa using hg))
      (fun m hm => hnm m (by simp [elemNamesList, elemNames, hm]))
    obtain ⟨ts, hts, hr⟩ := ihn
      (NoGap.part (a := '<' :: (w0 ++ (n ++ (wa ++ (w1 ++ '>' :: (wc ++ ('<' :: '/' :: (w3 ++ (n ++ (w4 ++ ['>'])))))))))) (w := w)
        (b := []) (by simpa using hg))
      (fun m hm => hnm m (by simp [elemNamesList, hm]))
    obtain ⟨ta, hta, hra⟩ := reads_attrs ha
    obtain ⟨sp, x, hx, hsp, hx0, hx1, hrx⟩ := hra w1 h1
    refine ⟨_, .elem hta htc hts, fun t ht => ?_⟩
    have e : newlines ('<' :: (w0 ++ (n ++ (wa ++ (w1 ++ '>' :: (wc ++
          ('<' :: ([] ++ '/' :: (w3 ++ (n ++ (w4 ++ '>' :: w))))))))))) =
        '<' :: (newlines w0 ++ (n ++ (sp ++ (x ++ '>' :: (newlines wc ++
          ('<' :: '/' :: (newlines w3 ++ (n ++ (newlines w4 ++ '>' :: newlines w)))))))))  := by
      rw [newlines_cons (by decide), newlines_append (.inr (name_head_nl hn)), newlines_plain (name_noCR hn),
        ← List.append_assoc wa w1, newlines_append (.inr (by simp)), hx, newlines_cons (by decide),
        newlines_append (.inr (by simp)), newlines_cons (by decide), List.nil_append, newlines_cons (by decide),
        newlines_append (.inr (name_head_nl hn)), newlines_plain (name_noCR hn), newlines_append (.inr (by simp)),
        newlines_cons (by decide)]
      simp
    rw [e]
    have := reads_start (newlines_space h0) hn hsp hx0 hx1 htn
      ((hrx (newlines wc ++ ('<' :: '/' :: (newlines w3 ++ (n ++ (newlines w4 ++ '>' :: (newlines w ++ t))))))).trans
        ((hrc _ (by intro _ _ _ c hc; cases hc; decide)).trans
          (reads_stop (newlines_space h3) hn (newlines_space h4) htn (hr t (fun y hy => ht y ?_)))))
    · simpa using this
    · cases ns with
      | nil => cases hy
      | cons z ns => simpa [List.getLast?_cons] using hy

theorem content_ends {n as cs w} (h : IsContent [.elem n as cs] w) : w.head? = some '<' ∧ w.getLast? = some '>' := by
  generalize hns : [Node.elem n as cs] = ns at h
  cases h with
  | nil => cases hns
  | text => cases hns
  | elem _ _ _ h =>
    cases hns
    cases h
    refine ⟨rfl, ?_⟩
    simp [List.getLast?_cons, List.getLast?_append]

theorem reads_blank {w t ts st r} (h : LexSpace w) (ht : ∀ c ∈ t.head?, ¬ TextLit c) (hr : Reads .data t ts st r) :
    ∃ a : List (Kind × Str), Reads .data (w ++ t) (a ++ ts) st r ∧ ∀ x ∈ a, x.1 = .chardata ∧ LexSpace x.2 := by
  by_cases h0 : w = []
  · subst h0; exact ⟨[], hr, by simp⟩
  · refine ⟨[(.chardata, w)], ?_, by simp [h]⟩
    refine reads_lexeme (.text h0 fun c hc => ?_) (fun c hc => ?_) hr
    · rcases h c hc with rfl | rfl | rfl <;> decide
    · show isDataChar c = false
      rw [← Bool.not_eq_true, isDataChar_iff]; exact ht c hc

theorem reads_doc {e w} (h : IsDoc e w) (hg : NoGap w) (hn : ∀ n ∈ elemNames e, Trimmed n) : ∃ a ts b,
    NodeToks [e] ts ∧ Reads .data (newlines w) (a ++ (ts ++ b)) .data [] ∧
    ∀ x ∈ a ++ b, x.1 = .chardata ∧ LexSpace x.2 := by
  obtain ⟨he, w0, w1, w2, h0, h2, hc, rfl⟩ := h
  cases e with
  | text s => cases he
  | elem n as cs =>
    obtain ⟨hh, hl⟩ := content_ends hc
    obtain ⟨ts, hts, hr⟩ := reads_content hc hg.part (by simpa [elemNamesList] using hn)
    have e : newlines (w0 ++ (w1 ++ w2)) = newlines w0 ++ (newlines w1 ++ (newlines w2 ++ [])) := by
      rw [newlines_append (.inr (by simp [List.head?_append, hh])), newlines_append (.inl (by simp [hl]))]
      simp
    rw [e]
    obtain ⟨b, hb, hb'⟩ := reads_blank (t := []) (newlines_space h2) (by simp) .refl
    have hlt : ∀ c ∈ (newlines w1 ++ (newlines w2 ++ [])).head?, ¬ TextLit c := by
      obtain ⟨r, rfl⟩ := head_split hh
      rw [newlines_cons (by decide)]
      intro c hc; cases hc; decide
    have hcont := (hr (newlines w2 ++ []) (by intro x hx hx'; cases hx; cases hx')).trans hb
    obtain ⟨a, ha, ha'⟩ := reads_blank (newlines_space h0) hlt hcont
    refine ⟨a, ts, b, hts, by simpa using ha, fun x hx => ?_⟩
    rcases List.mem_append.1 hx with hx | hx
    · exact ha' x hx
    · exact hb' x hx

/-! ### the tokens determine the tree -/

/-- The kinds that text is made of. -/
def isTextKind (t : Kind × Str) : Bool := (tokText t).isSome

theorem decode_kinds {ts s} (h : decode ts = some s) : ∀ t ∈ ts, isTextKind t = true := by
  induction ts generalizing s with
  | nil => intro t ht; cases ht
  | cons u ts ih =>
    rw [decode, Option.bind_eq_some_iff] at h
    obtain ⟨a, ha, hb⟩ := h
    rw [Option.map_eq_some_iff] at hb
    obtain ⟨b, hb, _⟩ := hb
    intro t ht
    rcases List.mem_cons.1 ht with rfl | ht
    · simp [isTextKind, ha]
    · exact ih hb t ht

theorem span_unique {α} {p : α → Bool} {a b c d : List α} (h : a ++ b = c ++ d) (ha : ∀ x ∈ a, p x = true)
    (hc : ∀ x ∈ c, p x = true) (hb : ∀ x ∈ b.head?, p x = false) (hd : ∀ x ∈ d.head?, p x = false) : a = c ∧ b = d := by
  induction a generalizing c with
  | nil =>
    cases c with
    | nil => exact ⟨rfl, h⟩
    | cons y c =>
      have h' : b = y :: (c ++ d) := h
      have := hb y (by simp [h'])
      rw [hc y (by simp)] at this; cases this
  | cons x a ih =>
    cases c with
    | nil =>
      have h' : x :: (a ++ b) = d := h
      have := hd x (by simp [← h'])
      rw [ha x (by simp)] at this; cases this
    | cons y c =>
      injection h with h1 h2
      obtain ⟨rfl, rfl⟩ := ih h2 (fun z hz => ha z (by simp [hz])) (fun z hz => hc z (by simp [hz]))
      exact ⟨by rw [h1], rfl⟩

theorem quote_kind {q : Kind × Str} (h : q = (.dblQuote, ['"']) ∨ q = (.sglQuote, ['\''])) : isTextKind q = false := by
  rcases h with rfl | rfl <;> rfl

theorem attrToks_unique {k1 t1} (h1 : AttrToks k1 t1) : ∀ {k2 t2 r1 r2}, AttrToks k2 t2 →
    t1 ++ (.gt, ['>']) :: r1 = t2 ++ (.gt, ['>']) :: r2 → k1 = k2 ∧ r1 = r2 := by
  induction h1 with
  | nil =>
    intro k2 t2 r1 r2 h2 h
    cases h2 with
    | nil => injection h with _ h; exact ⟨rfl, h⟩
    | cons => injection h with h _; cases h
  | @cons k v q ts kvs ta hq hd _ ih =>
    intro k2 t2 r1 r2 h2 h
    cases h2 with
    | nil => injection h with h _; cases h
    | @cons k' v' q' ts' kvs' ta' hq' hd' h2 =>
      simp only [List.cons_append, List.append_assoc] at h
      injection h with e1 h
      injection h with _ h
      injection h with e2 h
      cases e1; subst e2
      obtain ⟨rfl, h'⟩ := span_unique h (decode_kinds hd) (decode_kinds hd')
        (by intro x hx; cases hx; exact quote_kind hq) (by intro x hx; cases hx; exact quote_kind hq)
      injection h' with _ h'
      obtain ⟨rfl, rfl⟩ := ih h2 h'
      rw [hd] at hd'
      cases hd'
      exact ⟨rfl, rfl⟩

theorem nodeToks_head {ns ts r} (h : NodeToks ns ts) (hn : ∀ n ∈ ns.head?, n.isText = false)
    (hr : ∀ x ∈ r.head?, isTextKind x = false) : ∀ x ∈ (ts ++ r).head?, isTextKind x = false := by
  cases h with
  | nil => exact hr
  | text => exact absurd (hn _ rfl) (by simp [Node.isText])
  | elem => intro x hx; cases hx; rfl

theorem text_head {ts s r} (h : decode ts = some s) (h0 : s ≠ []) : ∃ t ts', ts ++ r = t :: ts' ∧ isTextKind t = true := by
  cases ts with
  | nil => cases h; exact absurd rfl h0
  | cons t ts => exact ⟨t, _, rfl, decode_kinds h t (by simp)⟩

theorem nodeToks_unique {n1 t1} (h1 : NodeToks n1 t1) : ∀ {n2 t2 r1 r2}, NodeToks n2 t2 → t1 ++ r1 = t2 ++ r2 →
    (∀ x ∈ r1.head?, isTextKind x = false ∧ x.1 ≠ .starttag) → (∀ x ∈ r2.head?, isTextKind x = false ∧ x.1 ≠ .starttag) →
    n1 = n2 ∧ r1 = r2 := by
  induction h1 with
  | nil =>
    intro n2 t2 r1 r2 h2 h hr1 hr2
    cases h2 with
    | nil => exact ⟨rfl, h⟩
    | text h0 hd _ _ =>
      rw [List.append_assoc] at h
      obtain ⟨t, ts', e, ht⟩ := text_head (r := _) hd h0
      rw [e] at h
      have := (hr1 t (by rw [show r1 = _ from h]; rfl)).1
      rw [ht] at this; cases this
    | elem =>
      exact absurd rfl (hr1 _ (by rw [show r1 = _ from h]; rfl)).2
  | @text s ts ns ts' h0 hd hns hn ih =>
    intro n2 t2 r1 r2 h2 h hr1 hr2
    rw [List.append_assoc] at h
    obtain ⟨t, u, e, ht⟩ := text_head (r := ts' ++ r1) hd h0
    cases h2 with
    | nil =>
      rw [e] at h
      have := (hr2 t (by rw [show r2 = _ from h.symm]; rfl)).1
      rw [ht] at this; cases this
    | elem =>
      rw [e] at h
      injection h with h _
      subst h; cases ht
    | text h0' hd' hns' hn' =>
      rw [List.append_assoc] at h
      obtain ⟨rfl, h'⟩ := span_unique h (decode_kinds hd) (decode_kinds hd')
        (nodeToks_head hns hn fun x hx => (hr1 x hx).1) (nodeToks_head hns' hn' fun x hx => (hr2 x hx).1)
      obtain ⟨rfl, rfl⟩ := ih hns' h' hr1 hr2
      rw [hd] at hd'
      cases hd'
      exact ⟨rfl, rfl⟩
  | @elem n kvs ta cs tc ns ts ha hc hns ihc ihn =>
    intro n2 t2 r1 r2 h2 h hr1 hr2
    cases h2 with
    | nil => exact absurd rfl (hr2 _ (by rw [show r2 = _ from h.symm]; rfl)).2
    | text h0 hd _ _ =>
      rw [List.append_assoc] at h
      obtain ⟨t, ts', e, ht⟩ := text_head (r := _) hd h0
      rw [e] at h
      injection h with h _
      subst h; cases ht
    | elem ha' hc' hns' =>
      simp only [List.cons_append, List.append_assoc] at h
      injection h with e h
      cases e
      obtain ⟨rfl, h⟩ := attrToks_unique ha ha' h
      obtain ⟨rfl, h⟩ := ihc hc' h (by intro x hx; cases hx; exact ⟨rfl, by intro h; cases h⟩)
        (by intro x hx; cases hx; exact ⟨rfl, by intro h; cases h⟩)
      injection h with _ h
      obtain ⟨rfl, rfl⟩ := ihn hns' h hr1 hr2
      exact ⟨rfl, rfl⟩

theorem nodeToks_elem {n as cs t} (h : NodeToks [.elem n as cs] t) : ∃ kvs ta tc, as = dictOf kvs ∧ AttrToks kvs ta ∧
    NodeToks cs tc ∧ t = (.starttag, n) :: (ta ++ (.gt, ['>']) :: (tc ++ [(.endtag, n)])) := by
  generalize hns : [Node.elem n as cs] = ns at h
  cases h with
  | nil => cases hns
  | text => cases hns
  | elem ha hc h =>
    cases hns
    cases h
    exact ⟨_, _, _, rfl, ha, hc, rfl⟩

/-- Whatever follows an element, its tokens determine it. -/
theorem nodeToks_unique_elem {n as cs n' as' cs' t t' r r'} (h : NodeToks [.elem n as cs] t)
    (h' : NodeToks [.elem n' as' cs'] t') (he : t ++ r = t' ++ r') :
    Node.elem n as cs = .elem n' as' cs' := by
  obtain ⟨kvs, ta, tc, rfl, ha, hc, rfl⟩ := nodeToks_elem h
  obtain ⟨kvs', ta', tc', rfl, ha', hc', rfl⟩ := nodeToks_elem h'
  simp only [List.cons_append, List.append_assoc] at he
  injection he with e he
  cases e
  obtain ⟨rfl, he⟩ := attrToks_unique ha ha' he
  obtain ⟨rfl, _⟩ := nodeToks_unique hc hc' he (by intro x hx; cases hx; exact ⟨rfl, by intro h; cases h⟩)
    (by intro x hx; cases hx; exact ⟨rfl, by intro h; cases h⟩)
  rfl

end Amara.Lex
