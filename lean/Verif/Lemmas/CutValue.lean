import Verif.Lemmas.Scan
import Verif.Lemmas.Valid
/-
A MicroXML document cut inside a quoted attribute value: the parser reads the rest of the text one
quote out of step and never comes to the end of a tag again.
-/
namespace Amara

/-- Where a reader of a well-formed document is: in text (plain, or in a reference), after '<' (or '</'), in the name of a tag,
in white space after a name or a value, in the name of an attribute, after it, after '=', inside a
value (plain, or in a reference), just after a value; `bad`: the text is not well-formed. -/
inductive Lay where
  | text
  | tamp
  | thash
  | tref
  | lt
  | name
  | gap
  | aname
  | aeq
  | eq
  | val (q : Char)
  | amp (q : Char)
  | hash (q : Char)
  | ref (q : Char)
  | closed
  | bad
deriving DecidableEq, Repr

def Lay.next : Lay → Char → Lay
  | .text, c => if c = '<' then .lt else if c = '>' then .bad else if c = '&' then .tamp else .text
  | .tamp, c => if c = '#' then .thash else if c.isAlphanum then .tref else .bad
  | .thash, c => if c = 'x' then .tref else .bad
  | .tref, c => if c = ';' then .text else if c.isAlphanum then .tref else .bad
  | .lt, c => if isWs c ∨ c = '/' then .lt else if isNameStart c then .name else .bad
  | .name, c => if isWs c then .gap else if isNameChar c then .name else
      if c = '>' then .text else .bad
  | .gap, c => if isWs c then .gap else if isNameStart c then .aname else
      if c = '>' then .text else .bad
  | .aname, c => if isWs c then .aeq else if isNameChar c then .aname else
      if c = '=' then .eq else .bad
  | .aeq, c => if isWs c then .aeq else if c = '=' then .eq else .bad
  | .eq, c => if c = '"' ∨ c = '\'' then .val c else .bad
  | .val q, c => if c = q then .closed else if c = '&' then .amp q else
      if c = '<' ∨ c = '>' then .bad else .val q
  | .amp q, c => if c = '#' then .hash q else if c.isAlphanum then .ref q else .bad
  | .hash q, c => if c = 'x' then .ref q else .bad
  | .ref q, c => if c = ';' then .val q else if c.isAlphanum then .ref q else .bad
  | .closed, c => if isWs c then .gap else if c = '>' then .text else .bad
  | .bad, _ => .bad

theorem Lay.bad_stays (w : Str) : w.foldl Lay.next .bad = .bad := by
  induction w with
  | nil => rfl
  | cons c w ih => simpa [Lay.next] using ih

/-- The coarser reader of `endsInValue`. -/
def Lay.scan : Lay → Scan
  | .text => .out
  | .tamp => .out
  | .thash => .out
  | .tref => .out
  | .eq => .eq
  | .val q => .val q
  | .amp q => .amp q
  | .hash q => .hash q
  | .ref q => .ref q
  | .bad => .lost
  | _ => .tag

theorem Lay.scan_next {d : Lay} {c : Char} (h : d.next c ≠ .bad) :
    (d.next c).scan = d.scan.next c := by
  have hws : isWs c = true → c ≠ '>' ∧ c ≠ '=' := fun h => (ws_tag h).1
  have hst : isNameStart c = true → c ≠ '>' ∧ c ≠ '=' := fun h => (start_tag h).1
  have hnm : isNameChar c = true → c ≠ '>' ∧ c ≠ '=' := name_tag
  have hal : c.isAlphanum = true → c ≠ '<' := by rintro h rfl; revert h; decide
  have hsl : isWs c = true ∨ c = '/' → c ≠ '>' ∧ c ≠ '=' := by
    rintro (h | rfl)
    · exact hws h
    · decide
  cases d <;> simp only [Lay.next] at h ⊢ <;> repeat' split at h
  all_goals first
    | (exact absurd rfl h)
    | skip
  all_goals simp_all [Lay.scan, Scan.next]

theorem Lay.scan_fold : ∀ (w : Str) (d : Lay), w.foldl Lay.next d ≠ .bad →
    (w.foldl Lay.next d).scan = w.foldl Scan.next d.scan := by
  intro w
  induction w with
  | nil => intro d _; rfl
  | cons c w ih =>
    intro d h
    have hn : d.next c ≠ .bad := by
      intro e
      simp only [List.foldl_cons, e] at h
      exact h (Lay.bad_stays w)
    simp only [List.foldl_cons] at h ⊢
    rw [ih _ h, Lay.scan_next hn]

theorem Lay.prefix_ok {u v : Str} {d : Lay} (h : (u ++ v).foldl Lay.next d ≠ .bad) :
    u.foldl Lay.next d ≠ .bad := by
  intro e
  rw [List.foldl_append, e] at h
  exact h (Lay.bad_stays v)

/-! ### documents are well-formed for this reader -/

theorem hexDigit_alnum {d : Char} (h : (hexDigit? d).isSome) : d.isAlphanum = true := by
  exact isHexDigit_alnum ((hexDigit_agree d).1.2 h)

theorem lay_tref {w : Str} (h : ∀ d ∈ w, d.isAlphanum = true) : w.foldl Lay.next .tref = .tref := by
  induction w with
  | nil => rfl
  | cons c w ih =>
    have h1 := h c (by simp)
    have h2 : c ≠ ';' := by rintro rfl; revert h1; decide
    simpa [Lay.next, h1, h2] using ih (fun d hd => h d (by simp [hd]))

theorem lay_ref {q : Char} {w : Str} (h : ∀ d ∈ w, d.isAlphanum = true) :
    w.foldl Lay.next (.ref q) = .ref q := by
  induction w with
  | nil => rfl
  | cons c w ih =>
    have h1 := h c (by simp)
    have h2 : c ≠ ';' := by rintro rfl; revert h1; decide
    simpa [Lay.next, h1, h2] using ih (fun d hd => h d (by simp [hd]))

theorem lay_spells_text {s raw : Str} (h : Spells TextLit s raw) :
    raw.foldl Lay.next .text = .text := by
  induction h with
  | nil => rfl
  | lit hc _ ih =>
    obtain ⟨_, h1, h2, h3⟩ := hc
    simpa [Lay.next, h1, h2, h3] using ih
  | named hn _ ih =>
    simp only [namedRefs, List.mem_cons, List.not_mem_nil, or_false, Prod.mk.injEq] at hn
    rcases hn with ⟨rfl, _⟩ | ⟨rfl, _⟩ | ⟨rfl, _⟩ | ⟨rfl, _⟩ | ⟨rfl, _⟩ <;>
      simpa [Lay.next, show ∀ c : Char, c.isAlphanum = isNamedRefChar c from
        fun c => (isNamedRefChar_eq c).symm, isNamedRefChar, inRanges] using ih
  | hex _ hds _ _ _ ih =>
    have e1 : Lay.next .text '&' = .tamp := by decide
    have e2 : Lay.next .tamp '#' = .thash := by decide
    have e3 : Lay.next .thash 'x' = .tref := by decide
    have e4 : Lay.next .tref ';' = .text := by decide
    rw [List.foldl_cons, e1, List.foldl_cons, e2, List.foldl_cons, e3, List.foldl_append,
      lay_tref (fun d hd => hexDigit_alnum (hds d hd)), List.foldl_cons, e4]
    exact ih

theorem lay_spells_val {q : Char} (hq : q = '"' ∨ q = '\'') {s raw : Str}
    (h : Spells (AttrLit q) s raw) : raw.foldl Lay.next (.val q) = .val q := by
  have n1 : '&' ≠ q := by rcases hq with rfl | rfl <;> decide
  induction h with
  | nil => rfl
  | lit hc _ ih =>
    obtain ⟨_, h1, h2, h3, _, _, h4⟩ := hc
    simpa [Lay.next, h1, h2, h3, h4] using ih
  | named hn _ ih =>
    simp only [namedRefs, List.mem_cons, List.not_mem_nil, or_false, Prod.mk.injEq] at hn
    rcases hn with ⟨rfl, _⟩ | ⟨rfl, _⟩ | ⟨rfl, _⟩ | ⟨rfl, _⟩ | ⟨rfl, _⟩ <;>
      simpa [Lay.next, n1, show ∀ c : Char, c.isAlphanum = isNamedRefChar c from
        fun c => (isNamedRefChar_eq c).symm, isNamedRefChar, inRanges] using ih
  | hex _ hds _ _ _ ih =>
    simp only [List.foldl_cons, List.foldl_append, Lay.next, n1, if_false, if_true,
      lay_ref (fun d hd => hexDigit_alnum (hds d hd))]
    exact ih

theorem lay_space {w : Str} (h : Space w) {d : Lay} (hd : d = .text ∨ d = .lt ∨ d = .gap ∨ d = .aeq) :
    w.foldl Lay.next d = d := by
  induction w with
  | nil => rfl
  | cons c w ih =>
    have hc : isWs c = true := (isWs_iff c).2 (h c (by simp))
    have h1 : d.next c = d := by
      have := ws_tag hc
      have h2 : c ≠ '&' := by rintro rfl; revert hc; decide
      rcases hd with rfl | rfl | rfl | rfl <;> simp [Lay.next, hc, this, h2]
    simp only [List.foldl_cons, h1]
    exact ih (fun e he => h e (by simp [he]))

theorem lay_names {w : Str} (h : ∀ d ∈ w, isNameChar d = true) {d : Lay}
    (hd : d = .name ∨ d = .aname) : w.foldl Lay.next d = d := by
  induction w with
  | nil => rfl
  | cons c w ih =>
    have hc := h c (by simp)
    have hw : isWs c = false := by
      cases hx : isWs c
      · rfl
      · rcases (isWs_iff c).1 hx with rfl | rfl | rfl | rfl <;> (revert hc; decide)
    have h1 : d.next c = d := by
      rcases hd with rfl | rfl <;> simp [Lay.next, hc, hw]
    simp only [List.foldl_cons, h1]
    exact ih (fun e he => h e (by simp [he]))

theorem lay_name {n : Str} (hn : IsName n) {d d' : Lay} (hd : (d = .lt ∧ d' = .name) ∨ (d = .gap ∧ d' = .aname)) :
    n.foldl Lay.next d = d' := by
  obtain ⟨c, r, rfl, hc, hr⟩ := hn
  have hc := (isNameStart_iff c).2 hc
  have hr : ∀ d ∈ r, isNameChar d = true := fun d hd => (isNameChar_iff d).2 (hr d hd)
  have hw := isWs_nameStart hc
  have hne := nameStart_ne hc
  rcases hd with ⟨rfl, rfl⟩ | ⟨rfl, rfl⟩
  · simp only [List.foldl_cons, Lay.next, hw, hc, hne.1]
    exact lay_names hr (.inl rfl)
  · simp only [List.foldl_cons, Lay.next, hw, hc]
    exact lay_names hr (.inr rfl)

theorem lay_to_gap {w : Str} (hw : w ≠ []) (hs : Space w) {d d' : Lay}
    (hd : ((d = .name ∨ d = .closed) ∧ d' = .gap) ∨ (d = .aname ∧ d' = .aeq)) : w.foldl Lay.next d = d' := by
  cases w with
  | nil => exact absurd rfl hw
  | cons c w =>
    have hc : isWs c = true := (isWs_iff c).2 (hs c (by simp))
    have hs' : Space w := fun e he => hs e (by simp [he])
    rcases hd with ⟨rfl | rfl, rfl⟩ | ⟨rfl, rfl⟩ <;> simp only [List.foldl_cons, Lay.next, hc, if_true]
    · exact lay_space hs' (by simp)
    · exact lay_space hs' (by simp)
    · exact lay_space hs' (by simp)

theorem lay_attrs {kvs : List (Str × Str)} {wa : Str} (h : IsAttrs kvs wa) : ∀ {d : Lay},
    d = .name ∨ d = .closed → wa.foldl Lay.next d = .name ∨ wa.foldl Lay.next d = .closed := by
  induction h with
  | nil => intro d hd; exact hd
  | @cons k v raw w1 w2 q kvs w h1 h2 h3 h4 h5 h6 _ ih =>
    intro d hd
    have e2 : ('=' :: q :: (raw ++ q :: w)).foldl Lay.next .aname = w.foldl Lay.next .closed ∧
        ('=' :: q :: (raw ++ q :: w)).foldl Lay.next .aeq = w.foldl Lay.next .closed := by
      constructor <;>
        simp [Lay.next, h5, lay_spells_val h5 h6, show isWs '=' = false by decide, show isNameChar '=' = false by decide]
    rw [List.foldl_append, lay_to_gap h1 h2 (.inl ⟨hd, rfl⟩), List.foldl_append,
      lay_name h3 (.inr ⟨rfl, rfl⟩), List.foldl_append]
    by_cases hw2 : w2 = []
    · subst hw2
      rw [List.foldl_nil, e2.1]
      exact ih (.inr rfl)
    · rw [lay_to_gap hw2 h4 (.inr ⟨rfl, rfl⟩), e2.2]
      exact ih (.inr rfl)

theorem lay_tag_end {d : Lay} (hd : d = .name ∨ d = .closed) {w : Str} (hs : Space w) (t : Str) :
    (w ++ '>' :: t).foldl Lay.next d = t.foldl Lay.next .text := by
  have e1 : isWs '>' = false := by decide
  have e2 : isNameChar '>' = false := by decide
  have e3 : isNameStart '>' = false := by decide
  by_cases hw : w = []
  · subst hw
    rcases hd with rfl | rfl <;> simp [Lay.next, e1, e2]
  · rw [List.foldl_append, lay_to_gap hw hs (.inl ⟨hd, rfl⟩)]
    simp [Lay.next, e1, e3]

theorem lay_content {ns : List Node} {w : Str} (h : IsContent ns w) :
    w.foldl Lay.next .text = .text := by
  induction h with
  | nil => rfl
  | text _ hs _ _ ih => rw [List.foldl_append, lay_spells_text hs, ih]
  | @elem n kvs wa cs wc ns w w0 w1 w2 w3 w4 hn ha _ _ h0 h1 h2 h3 h4 ihc ihn =>
    have elt : Lay.next .text '<' = .lt := by decide
    have esl : Lay.next .lt '/' = .lt := by decide
    rw [List.foldl_cons, elt, List.foldl_append, lay_space h0 (by simp), List.foldl_append,
      lay_name hn (.inl ⟨rfl, rfl⟩), List.foldl_append,
      lay_tag_end (lay_attrs ha (.inl rfl)) h1, List.foldl_append, ihc,
      List.foldl_cons, elt, List.foldl_append, lay_space h2 (by simp), List.foldl_cons, esl,
      List.foldl_append, lay_space h3 (by simp), List.foldl_append, lay_name hn (.inl ⟨rfl, rfl⟩),
      lay_tag_end (.inl rfl) h4, ihn]

theorem lay_doc {e : Node} {w : Str} (h : IsDoc e w) : w.foldl Lay.next .text = .text := by
  obtain ⟨_, w0, w1, w2, h0, h2, h1, rfl⟩ := h
  rw [List.foldl_append, lay_space h0 (by simp), List.foldl_append, lay_content h1,
    lay_space h2 (by simp)]

/-! ### the parser one quote out of step -/

/-- The quote of the value the reader is in. -/
def Lay.quote : Lay → Option Char
  | .val q => some q
  | .amp q => some q
  | .hash q => some q
  | .ref q => some q
  | _ => none

/-- In text. -/
def Lay.inText (d : Lay) : Prop := d = .text ∨ d = .tamp ∨ d = .thash ∨ d = .tref

/-- In text or in a value: not in a tag. -/
def Lay.Off (d : Lay) : Prop := d.inText ∨ ∃ q, (q = '"' ∨ q = '\'') ∧ d.quote = some q

theorem Lay.off_next {d : Lay} {c : Char} (h : d.Off) (hb : d.next c ≠ .bad) (h1 : c ≠ '<')
    (h2 : c ≠ '"') (h3 : c ≠ '\'') : (d.next c).Off := by
  rcases h with h | ⟨q, hq, hd⟩
  · left
    rcases h with rfl | rfl | rfl | rfl <;> simp only [Lay.next, h1, if_false] at hb ⊢ <;>
      repeat' split at hb
    all_goals first
      | (exact absurd rfl hb)
      | simp_all [Lay.inText]
  · right
    refine ⟨q, hq, ?_⟩
    have hcq : c ≠ q := by rcases hq with rfl | rfl <;> assumption
    cases d <;> simp [Lay.quote] at hd <;> subst hd <;> simp only [Lay.next] at hb ⊢ <;>
      repeat' split at hb
    all_goals first
      | (exact absurd rfl hb)
      | simp_all [Lay.quote]

theorem Lay.quote_next {d : Lay} {c q : Char} (h : d.quote ≠ some q) (hc : c ≠ q) :
    (d.next c).quote ≠ some q := by
  cases d <;> simp only [Lay.next] <;> repeat' split
  all_goals simp_all [Lay.quote]

/-- At the quote that ends a value the parser reads, the reader of the document is in text or in a
value. -/
theorem Lay.stop_off {d : Lay} {q : Char} (hq : q = '"' ∨ q = '\'') (h : d.quote ≠ some q)
    (hd : ∀ q', d.quote = some q' → q' = '"' ∨ q' = '\'')
    (hb : d.next q ≠ .bad) : (d.next q).Off := by
  have hn : q.isAlphanum = false ∧ isWs q = false ∧ isNameStart q = false ∧ isNameChar q = false ∧
      q ≠ '#' ∧ q ≠ ';' ∧ q ≠ 'x' ∧ q ≠ '/' ∧ q ≠ '>' ∧ q ≠ '=' ∧ q ≠ '<' ∧ q ≠ '&' := by
    rcases hq with rfl | rfl <;> decide
  obtain ⟨n1, n2, n3, n4, n5, n6, n7, n8, n9, n10, n11, n12⟩ := hn
  cases d with
  | text => left; left; simp [Lay.next, n11, n9, n12]
  | eq => right; exact ⟨q, hq, by simp [Lay.next, hq, Lay.quote]⟩
  | val q' =>
    have : q ≠ q' := by rintro rfl; exact h rfl
    right; exact ⟨q', hd q' rfl, by simp [Lay.next, this, n9, n11, n12, Lay.quote]⟩
  | _ => simp [Lay.next, n1, n2, n3, n4, n5, n6, n7, n8, n9, n10] at hb

/-- Values are opened by quotes. -/
def Lay.Kind (d : Lay) : Prop := ∀ q, d.quote = some q → q = '"' ∨ q = '\''

theorem Lay.kind_next {d : Lay} (h : d.Kind) (c : Char) : (d.next c).Kind := by
  intro q hq
  cases d <;> simp only [Lay.next] at hq <;> repeat' split at hq
  all_goals first
    | (simp [Lay.quote] at hq; done)
    | (exact h q hq)
    | skip
  simp [Lay.quote] at hq
  subst hq
  assumption

theorem Lay.kind_fold {d : Lay} (h : d.Kind) (w : Str) : (w.foldl Lay.next d).Kind := by
  induction w generalizing d with
  | nil => exact h
  | cons c w ih => exact ih (Lay.kind_next h c)

theorem fold_cons_ok {d : Lay} {c : Char} {r : Str} (h : (c :: r).foldl Lay.next d ≠ .bad) :
    d.next c ≠ .bad ∧ r.foldl Lay.next (d.next c) ≠ .bad := by
  refine ⟨?_, h⟩
  intro e
  simp only [List.foldl_cons, e] at h
  exact h (Lay.bad_stays r)

/-- A value read by the parser when the reader of the document is not in a value of that quote ends
where the reader of the document is in text or in a value. -/
theorem cdata_off {q : Char} (hq : q = '"' ∨ q = '\'') : ∀ (r : Str) {m : CMode} {v t : Str} {d : Lay},
    cdata (attrPat q) q m r = .found v t → d.quote ≠ some q → d.Kind → r.foldl Lay.next d ≠ .bad →
    ∃ p, r = p ++ t ∧ (p.foldl Lay.next d).Off := by
  have hpq : attrPat q q = false := by rcases hq with rfl | rfl <;> decide
  have h1 : isNamedRefChar q = false := by rcases hq with rfl | rfl <;> decide
  have h2 : isHexDigit q = false := by rcases hq with rfl | rfl <;> decide
  have h3 : q ≠ '#' ∧ q ≠ 'x' ∧ q ≠ ';' ∧ q ≠ '&' := by rcases hq with rfl | rfl <;> decide
  intro r
  induction r with
  | nil => intro m v t d h; cases m <;> simp [cdata] at h
  | cons c r ih =>
    intro m v t d h hd hk hok
    obtain ⟨hok1, hok2⟩ := fold_cons_ok hok
    have key : ∀ {m' : CMode} {v}, cdata (attrPat q) q m' r = .found v t → c ≠ q →
        ∃ p, c :: r = p ++ t ∧ (p.foldl Lay.next d).Off := by
      intro m' v h hn
      obtain ⟨p, hp, hf⟩ := ih h (Lay.quote_next hd hn) (Lay.kind_next hk c) hok2
      exact ⟨c :: p, by simp [hp], hf⟩
    have keyp : ∀ {m' : CMode} {v e}, (cdata (attrPat q) q m' r).push e = .found v t → c ≠ q →
        ∃ p, c :: r = p ++ t ∧ (p.foldl Lay.next d).Off := by
      intro m' v e h hn
      obtain ⟨v', h', _⟩ := CRes.push_found h
      exact key h' hn
    have n0 : attrPat q c = true → c ≠ q := by rintro h rfl; simp [hpq] at h
    have n1 : isNamedRefChar c = true → c ≠ q := by intro hh e; subst e; rw [h1] at hh; cases hh
    have n2 : isHexDigit c = true → c ≠ q := by intro hh e; subst e; rw [h2] at hh; cases hh
    cases m <;> simp only [cdata] at h
    · split at h
      · exact keyp h (n0 (by assumption))
      · split at h
        · rename_i hc; cases h
          subst hc
          exact ⟨[c], rfl, Lay.stop_off hq hd hk hok1⟩
        · split at h <;> exact key h (by assumption)
    · split at h
      · rename_i hc; subst hc; exact key h (Ne.symm h3.1)
      · split at h
        · exact key h (n1 (by assumption))
        · split at h <;> cases h
    · split at h
      · rename_i hc; subst hc; exact key h (Ne.symm h3.2.1)
      · cases h
    · split at h
      · exact key h (n2 (by assumption))
      · split at h
        · rename_i hc; subst hc
          split at h
          · exact keyp h (Ne.symm h3.2.2.1)
          · cases h
        · cases h
    · split at h
      · exact key h (n1 (by assumption))
      · split at h
        · rename_i hc; subst hc
          split at h
          · exact keyp h (Ne.symm h3.2.2.1)
          · cases h
        · cases h

theorem off_name {d : Lay} (h : d.Off) : ∀ {w : Str}, (∀ c ∈ w, isNameChar c = true ∨ isWs c = true) →
    w.foldl Lay.next d ≠ .bad → (w.foldl Lay.next d).Off := by
  intro w
  induction w generalizing d with
  | nil => intro _ _; exact h
  | cons c w ih =>
    intro hw hok
    obtain ⟨h1, h2⟩ := fold_cons_ok hok
    have hc : c ≠ '<' ∧ c ≠ '"' ∧ c ≠ '\'' := by
      rcases hw c (by simp) with hc | hc
      · refine ⟨?_, ?_, ?_⟩ <;> (rintro rfl; revert hc; decide)
      · rcases (isWs_iff c).1 hc with rfl | rfl | rfl | rfl <;> decide
    exact ih (Lay.off_next h h1 hc.1 hc.2.1 hc.2.2) (fun e he => hw e (by simp [he])) h2

/-- In a tag before any attribute, or just after a value. -/
def Lay.Before (d : Lay) : Prop := d = .lt ∨ d = .name ∨ d = .gap ∨ d = .closed

theorem before_names {d : Lay} (h : d = .lt ∨ d = .name ∨ d = .closed) : ∀ {w : Str},
    (∀ c ∈ w, isNameChar c = true) → w.foldl Lay.next d ≠ .bad →
    w.foldl Lay.next d = .lt ∨ w.foldl Lay.next d = .name ∨ w.foldl Lay.next d = .closed := by
  intro w
  induction w generalizing d with
  | nil => intro _ _; exact h
  | cons c w ih =>
    intro hw hok
    obtain ⟨h1, h2⟩ := fold_cons_ok hok
    have hc := hw c (by simp)
    have hws : isWs c = false := by
      cases hx : isWs c
      · rfl
      · rw [isNameChar_ws hx] at hc; cases hc
    have hgt : c ≠ '>' ∧ c ≠ '/' := by constructor <;> (rintro rfl; revert hc; decide)
    refine ih ?_ (fun e he => hw e (by simp [he])) h2
    rcases h with rfl | rfl | rfl
    · simp only [Lay.next, hws, hgt.2] at h1 ⊢
      cases hs : isNameStart c <;> simp_all
    · simp [Lay.next, hws, hc]
    · simp [Lay.next, hws, hgt.1] at h1

theorem before_ws {d : Lay} (h : d = .lt ∨ d = .name ∨ d = .gap ∨ d = .closed) : ∀ {w : Str},
    (∀ c ∈ w, isWs c = true) →
    w.foldl Lay.next d = .lt ∨ w.foldl Lay.next d = .name ∨ w.foldl Lay.next d = .gap ∨
      w.foldl Lay.next d = .closed := by
  intro w
  induction w generalizing d with
  | nil => intro _; exact h
  | cons c w ih =>
    intro hw
    have hc := hw c (by simp)
    refine ih ?_ (fun e he => hw e (by simp [he]))
    rcases h with rfl | rfl | rfl | rfl <;> simp [Lay.next, hc]

theorem before_eq {d : Lay} (h : d = .lt ∨ d = .name ∨ d = .gap ∨ d = .closed) :
    d.next '=' = .bad := by
  rcases h with rfl | rfl | rfl | rfl <;> decide

/-- The parser is out of step: outside tags for the reader of the document, but in the attributes of
a start tag for the parser. -/
def Astray (s : PState) (d : Lay) : Prop :=
  d.Kind ∧ s.pendingEnd = false ∧
  match s.st with
  | .completeTag => d.Off
  | .attribute => ∃ c r, s.rest = c :: r ∧ ((d.next c).Off ∨ d.next c = .lt ∨ d.next c = .closed)
  | _ => False

theorem Astray.app {s : PState} {d : Lay} (h : Astray s d) (f : Str) : Astray (s.app f) d := by
  obtain ⟨hk, hp, hm⟩ := h
  refine ⟨hk, hp, ?_⟩
  obtain ⟨st, rest, pe, gi, at_, stk⟩ := s
  cases st <;> simp only [PState.app] at hm ⊢
  · exact hm
  · obtain ⟨c, r, rfl, h⟩ := hm
    exact ⟨c, r ++ f, by simp, h⟩

theorem step_astray {s : PState} {d : Lay} (h : Astray s d) (hok : s.rest.foldl Lay.next d ≠ .bad) :
    (∃ e, step false s = .fail e) ∨
    ∃ s' p, (step false s = .cont s' [] ∨ step false s = .pause s' []) ∧ s.rest = p ++ s'.rest ∧
      Astray s' (p.foldl Lay.next d) := by
  obtain ⟨st, rest, pe, gi, at_, stk⟩ := s
  obtain ⟨hk, hp, hm⟩ := h
  simp only at hp hok; subst hp
  cases st <;> simp only at hm
  · -- completeTag
    obtain ⟨p, hp, hpw⟩ := dropWs_prefix rest
    simp only [step, stepCompleteTag]
    rw [hp] at hok
    have hoff := off_name hm (fun c hc => .inr (hpw c hc)) (Lay.prefix_ok hok)
    rcases hr : dropWs rest with _ | ⟨c, r⟩
    · right
      refine ⟨⟨.completeTag, [], false, gi, at_, stk⟩, p, .inr (by simp [wait]), by simpa [hr] using hp, ?_⟩
      exact ⟨Lay.kind_fold hk p, rfl, hoff⟩
    · rw [hr, List.foldl_append] at hok
      obtain ⟨hok1, hok2⟩ := fold_cons_ok hok
      simp only [true_and]
      cases hns : isNameStart c
      · have hgt : c ≠ '>' := by
          rintro rfl
          rcases hoff with h | ⟨q, hq, h⟩
          · rcases h with h | h | h | h <;> (rw [h] at hok1; exact hok1 (by decide))
          · generalize p.foldl Lay.next d = d' at h hok1
            apply hok1
            cases d' <;> simp [Lay.quote] at h <;> subst h <;> rcases hq with rfl | rfl <;> decide
        left
        exact ⟨.runtime, by simp [hgt]⟩
      · right
        refine ⟨⟨.attribute, c :: r, false, gi, at_, stk⟩, p, .inl (by simp), by simpa [hr] using hp, Lay.kind_fold hk p, rfl, c, r, rfl, .inl ?_⟩
        have hc : c ≠ '<' ∧ c ≠ '"' ∧ c ≠ '\'' := by
          refine ⟨?_, ?_, ?_⟩ <;> (rintro rfl; revert hns; decide)
        exact Lay.off_next hoff hok1 hc.1 hc.2.1 hc.2.2
  · -- attribute
    obtain ⟨c, r, rfl, hd⟩ := hm
    have self : Astray ⟨.attribute, c :: r, false, gi, at_, stk⟩ (([] : Str).foldl Lay.next d) :=
      ⟨hk, rfl, c, r, rfl, hd⟩
    obtain ⟨hok1, hok2⟩ := fold_cons_ok hok
    simp only [step, stepAttribute]
    by_cases hdn : dropName r = []
    · right
      exact ⟨_, [], .inr (by simp [hdn, wait]), rfl, self⟩
    · simp only [hdn, if_false]
      obtain ⟨p2, hp2, hp2w⟩ := dropWs_prefix (dropName r)
      rcases hdw : dropWs (dropName r) with _ | ⟨x, r3⟩
      · right
        exact ⟨_, [], .inr (by simp [wait]), rfl, self⟩
      · by_cases hx : x = '='
        · subst hx
          have hsplit : r = takeName r ++ (p2 ++ '=' :: r3) := by
            rw [← hdw, ← hp2]; exact takeName_dropName r
          have hall := takeName_all r
          generalize takeName r = nm at hsplit hall
          -- up to the '='
          rw [hsplit, List.foldl_append] at hok2
          have hokn := Lay.prefix_ok (u := nm) (v := p2 ++ '=' :: r3) (by rw [List.foldl_append]; exact hok2)
          rw [List.foldl_append] at hok2
          have hokp : p2.foldl Lay.next (nm.foldl Lay.next (d.next c)) ≠ .bad := by
            intro e
            rw [e, Lay.bad_stays] at hok2
            exact hok2 rfl
          obtain ⟨hoke, hok3⟩ := fold_cons_ok hok2
          have hoff : (p2.foldl Lay.next (nm.foldl Lay.next (d.next c))).Off := by
            have hb : d.next c = .lt ∨ d.next c = .closed → False := by
              intro h
              have h1 := before_names (h.elim .inl (fun h => .inr (.inr h))) hall hokn
              have h2 := before_ws (h1.elim .inl (fun h => h.elim (fun h => .inr (.inl h))
                (fun h => .inr (.inr (.inr h))))) hp2w
              exact hoke (before_eq h2)
            rcases hd with hd | hd
            · exact off_name (off_name hd (fun c hc => .inl (hall c hc)) hokn)
                (fun c hc => .inr (hp2w c hc)) hokp
            · exact (hb hd).elim
          have hoffe := Lay.off_next hoff hoke (by decide) (by decide) (by decide)
          have hfold : (c :: (nm ++ (p2 ++ ['=']))).foldl Lay.next d =
              (p2.foldl Lay.next (nm.foldl Lay.next (d.next c))).next '=' := by
            simp [List.foldl_append]
          generalize hd' : (p2.foldl Lay.next (nm.foldl Lay.next (d.next c))).next '=' = d' at *
          have hk' : d'.Kind := by
            rw [← hfold]; exact Lay.kind_fold hk _
          simp only [if_true]
          cases r3 with
          | nil =>
            right
            exact ⟨_, [], .inr (by simp), rfl, self⟩
          | cons q r4 =>
            have e1 : c :: r = (c :: (nm ++ (p2 ++ ['=']))) ++ q :: r4 := by
              rw [hsplit]; simp
            obtain ⟨hokq, hok4⟩ := fold_cons_ok hok3
            by_cases hq : q = '"' ∨ q = '\''
            · simp only [hq, if_true]
              -- after the quote
              have hnq : (d'.next q).quote ≠ some q ∧ ((d'.next q).Off ∨ d'.next q = .closed) := by
                by_cases hdq : d'.quote = some q
                · cases hdd : d' <;> simp [hdd, Lay.quote] at hdq
                  · subst hdq; exact ⟨by simp [Lay.next, Lay.quote], .inr (by simp [Lay.next])⟩
                  all_goals
                    subst hdq
                    rw [hdd] at hokq
                    exfalso; apply hokq
                    rcases hq with rfl | rfl <;> decide
                · have := Lay.stop_off hq hdq hk' hokq
                  refine ⟨?_, .inl this⟩
                  intro hh
                  -- a value opened here would need the reader to be just after '=' in a tag
                  rcases hoffe with h | ⟨q', hq', h⟩
                  · rcases h with h | h | h | h <;> rw [h] at hh <;>
                      rcases hq with rfl | rfl <;> exact absurd hh (by decide)
                  · have hne : q ≠ q' := by rintro rfl; exact hdq h
                    cases hdd : d' <;> simp [hdd, Lay.quote] at h <;> subst h <;> rw [hdd] at hh hokq
                    · have h1 : q ≠ '&' ∧ ¬ (q = '<' ∨ q = '>') := by
                        rcases hq with rfl | rfl <;> decide
                      simp [Lay.next, hne, h1] at hh
                      simp [Lay.quote] at hh
                      exact hne hh.symm
                    all_goals
                      apply hokq
                      rcases hq with rfl | rfl <;> rcases hq' with rfl | rfl <;> decide
              rcases hc : cdata (attrPat q) q .txt r4 with ⟨v, r5⟩ | _ | e
              · right
                obtain ⟨p3, hp3, hf3⟩ := cdata_off hq _ hc hnq.1 (Lay.kind_next hk' q) hok4
                refine ⟨_, (c :: (nm ++ (p2 ++ ['=']))) ++ q :: p3, .inl rfl, ?_, ?_⟩
                · simp only; rw [e1, hp3]; simp
                · rw [List.foldl_append, hfold]
                  exact ⟨Lay.kind_fold hk' (q :: p3), rfl, hf3⟩
              · right
                refine ⟨⟨.attribute, q :: r4, false, gi, at_, stk⟩, c :: (nm ++ (p2 ++ ['='])),
                  .inr (by simp [wait]), e1, ?_⟩
                rw [hfold]
                exact ⟨hk', rfl, q, r4, rfl, hnq.2.elim .inl (fun h => .inr (.inr h))⟩
              · left; exact ⟨e, rfl⟩
            · right
              simp only [hq, if_false]
              refine ⟨_, c :: (nm ++ (p2 ++ ['='])), .inl rfl, e1, ?_⟩
              rw [hfold]
              refine ⟨hk', rfl, q, r4, rfl, ?_⟩
              rw [not_or] at hq
              by_cases hlt : q = '<'
              · subst hlt
                rcases hoffe with h | ⟨q', hq', h⟩
                · rcases h with h | h | h | h <;> rw [h] at hokq ⊢
                  · right; left; decide
                  · exact absurd rfl hokq
                  · exact absurd rfl hokq
                  · exact absurd rfl hokq
                · exfalso; apply hokq
                  cases hdd : d' <;> simp [hdd, Lay.quote] at h <;> subst h <;>
                    rcases hq' with rfl | rfl <;> decide
              · exact .inl (Lay.off_next hoffe hokq hlt hq.1 hq.2)
        · left
          exact ⟨.runtime, by simp [hx]⟩

theorem exec_astray {s : PState} {d : Lay} (h : Astray s d) (hok : s.rest.foldl Lay.next d ≠ .bad) :
    (exec false s).1 = [] ∧ ∀ s', (exec false s).2 = .paused s' →
      ∃ p, s.rest = p ++ s'.rest ∧ Astray s' (p.foldl Lay.next d) := by
  refine exec_induct (done := false) (P := fun s evs o => ∀ d, Astray s d →
    s.rest.foldl Lay.next d ≠ .bad → evs = [] ∧ ∀ s', o = .paused s' →
      ∃ p, s.rest = p ++ s'.rest ∧ Astray s' (p.foldl Lay.next d)) ?_ ?_ ?_ ?_ s d h hok
  · intro s s1 evs hs d h hok
    rcases step_astray h hok with ⟨e, he⟩ | ⟨s', p, hs', hp, ha⟩
    · rw [he] at hs; cases hs
    · rw [hs] at hs'
      rcases hs' with hs' | hs' <;> cases hs'
      exact ⟨rfl, by rintro s' h; cases h; exact ⟨p, hp, ha⟩⟩
  · intro s e _ d _ _; exact ⟨rfl, by intro s' h; cases h⟩
  · intro s _ d _ _; exact ⟨rfl, by intro s' h; cases h⟩
  · intro s s1 evs evs' o hs ih d h hok
    rcases step_astray h hok with ⟨e, he⟩ | ⟨s', p, hs', hp, ha⟩
    · rw [he] at hs; cases hs
    · rw [hs] at hs'
      rcases hs' with hs' | hs' <;> cases hs'
      rw [hp, List.foldl_append] at hok
      obtain ⟨h1, h2⟩ := ih _ ha hok
      refine ⟨by simp [h1], ?_⟩
      intro s' ho
      obtain ⟨p', hp', ha'⟩ := h2 s' ho
      exact ⟨p ++ p', by rw [hp, hp']; simp, by rw [List.foldl_append]; exact ha'⟩

theorem sendAll_astray : ∀ (frags : List Str) {s : PState} {d : Lay}, Astray s d →
    (s.rest ++ frags.flatten).foldl Lay.next d ≠ .bad → (sendAll (.awaiting s) frags).1 = [] := by
  intro frags
  induction frags with
  | nil => intro s d _ _; rfl
  | cons f fs ih =>
    intro s d h hok
    by_cases hf : f = []
    · subst hf
      simpa [sendAll, send] using ih h (by simpa using hok)
    · have hok1 : (s.app f).rest.foldl Lay.next d ≠ .bad := by
        apply Lay.prefix_ok (v := fs.flatten)
        simpa [PState.app] using hok
      obtain ⟨h1, h2⟩ := exec_astray (h.app f) hok1
      have hsa := send_awaiting s hf false
      cases hx : exec false (s.app f) with
      | mk E o =>
        rw [hx] at hsa h1 h2
        simp only at h1; subst h1
        cases o with
        | paused s1 =>
          obtain ⟨p, hp, ha⟩ := h2 s1 rfl
          have := ih ha (by
            have : s.rest ++ (f :: fs).flatten = p ++ (s1.rest ++ fs.flatten) := by
              have : s.rest ++ f = p ++ s1.rest := hp
              simp only [List.flatten_cons]
              rw [← List.append_assoc, this, List.append_assoc]
            rw [this, List.foldl_append] at hok
            exact hok)
          simpa [sendAll, hsa] using this
        | raised e => simp [sendAll, hsa]
        | running s1 => simp [sendAll, hsa]

/-! ### the parser in step -/

/-- Where `handle_cdata` is inside a value. -/
def CMode.lay (q : Char) : CMode → Lay
  | .txt => .val q
  | .amp => .amp q
  | .hash => .hash q
  | .hex _ => .ref q
  | .named _ => .ref q

/-- Where `handle_cdata` is in text. -/
def CMode.tlay : CMode → Lay
  | .txt => .text
  | .amp => .tamp
  | .hash => .thash
  | .hex _ => .tref
  | .named _ => .tref

theorem cdata_lay_found {q : Char} (hq : q = '"' ∨ q = '\'') : ∀ (r : Str) {m : CMode} {v t : Str},
    cdata (attrPat q) q m r = .found v t → r.foldl Lay.next (m.lay q) ≠ .bad →
    ∃ p, r = p ++ t ∧ p.foldl Lay.next (m.lay q) = .closed := by
  have hamp : attrPat q '&' = false := by rcases hq with rfl | rfl <;> decide
  have hpq : attrPat q q = false := by rcases hq with rfl | rfl <;> decide
  have h1 : isNamedRefChar ';' = false := by decide
  have h2 : isHexDigit ';' = false := by decide
  intro r
  induction r with
  | nil => intro m v t h; cases m <;> simp [cdata] at h
  | cons c r ih =>
    intro m v t h hok
    obtain ⟨hok1, hok2⟩ := fold_cons_ok hok
    have key : ∀ {m' : CMode} {v}, cdata (attrPat q) q m' r = .found v t →
        (m.lay q).next c = m'.lay q →
        ∃ p, c :: r = p ++ t ∧ p.foldl Lay.next (m.lay q) = .closed := by
      intro m' v h hn
      rw [hn] at hok2
      obtain ⟨p, hp, hf⟩ := ih h hok2
      exact ⟨c :: p, by simp [hp], by simp [hn, hf]⟩
    have keyp : ∀ {m' : CMode} {v d}, (cdata (attrPat q) q m' r).push d = .found v t →
        (m.lay q).next c = m'.lay q →
        ∃ p, c :: r = p ++ t ∧ p.foldl Lay.next (m.lay q) = .closed := by
      intro m' v d h hn
      obtain ⟨v', h', _⟩ := CRes.push_found h
      exact key h' hn
    have hbr : c ≠ q → c ≠ '&' → (Lay.val q).next c ≠ .bad → (Lay.val q).next c = .val q := by
      intro e1 e2 hb
      simp only [Lay.next, e1, e2, if_false] at hb ⊢
      split at hb
      · exact absurd rfl hb
      · rename_i e3; simp [e3]
    cases m <;> simp only [cdata] at h
    · split at h
      · rename_i hc
        refine keyp h ?_
        have n1 : c ≠ q := by rintro rfl; simp [hpq] at hc
        have n2 : c ≠ '&' := by rintro rfl; simp [hamp] at hc
        exact hbr n1 n2 hok1
      · split at h
        · rename_i hc; cases h
          exact ⟨[c], rfl, by simp [CMode.lay, Lay.next, hc]⟩
        · split at h
          · exact key h (by simp_all [CMode.lay, Lay.next])
          · exact key h (hbr (by assumption) (by assumption) hok1)
    · split at h
      · exact key h (by simp [CMode.lay, Lay.next, *])
      · split at h
        · rename_i hc
          exact key h (by rw [isNamedRefChar_eq] at hc; simp [CMode.lay, Lay.next, *])
        · split at h <;> cases h
    · split at h
      · exact key h (by simp [CMode.lay, Lay.next, *])
      · cases h
    · split at h
      · rename_i hc
        have : c ≠ ';' := by rintro rfl; simp [h2] at hc
        exact key h (by simp [CMode.lay, Lay.next, this, isHexDigit_alnum hc])
      · split at h
        · split at h
          · exact keyp h (by simp [CMode.lay, Lay.next, *])
          · cases h
        · cases h
    · split at h
      · rename_i hc
        have : c ≠ ';' := by rintro rfl; simp [h1] at hc
        exact key h (by rw [isNamedRefChar_eq] at hc; simp [CMode.lay, Lay.next, *])
      · split at h
        · split at h
          · exact keyp h (by simp [CMode.lay, Lay.next, *])
          · cases h
        · cases h

theorem cdata_lay_text : ∀ (r : Str) {m : CMode}, r.foldl Lay.next m.tlay ≠ .bad →
    (∀ v t, cdata isDataChar '<' m r = .found v t →
      ∃ p, r = p ++ t ∧ p.foldl Lay.next m.tlay = .lt) ∧
    (cdata isDataChar '<' m r = .more → (r.foldl Lay.next m.tlay).inText) := by
  have h0 : isDataChar '<' = false := by decide
  have h0' : isDataChar '&' = false := by decide
  have h1 : isNamedRefChar ';' = false := by decide
  have h2 : isHexDigit ';' = false := by decide
  intro r
  induction r with
  | nil =>
    intro m _
    constructor
    · intro v t h; cases m <;> simp [cdata] at h
    · intro _; cases m <;> simp [CMode.tlay, Lay.inText]
  | cons c r ih =>
    intro m hok
    obtain ⟨hok1, hok2⟩ := fold_cons_ok hok
    have key : ∀ {m' : CMode}, m.tlay.next c = m'.tlay →
        (∀ v t, cdata isDataChar '<' m' r = .found v t →
          ∃ p, c :: r = p ++ t ∧ p.foldl Lay.next m.tlay = .lt) ∧
        (cdata isDataChar '<' m' r = .more → ((c :: r).foldl Lay.next m.tlay).inText) := by
      intro m' hn
      rw [hn] at hok2
      obtain ⟨i1, i2⟩ := ih hok2
      constructor
      · intro v t h
        obtain ⟨p, hp, hf⟩ := i1 v t h
        exact ⟨c :: p, by simp [hp], by simp [hn, hf]⟩
      · intro h
        rw [List.foldl_cons, hn]
        exact i2 h
    have keyp : ∀ {m' : CMode} {e : Char}, m.tlay.next c = m'.tlay →
        (∀ v t, (cdata isDataChar '<' m' r).push e = .found v t →
          ∃ p, c :: r = p ++ t ∧ p.foldl Lay.next m.tlay = .lt) ∧
        ((cdata isDataChar '<' m' r).push e = .more → ((c :: r).foldl Lay.next m.tlay).inText) := by
      intro m' e hn
      obtain ⟨k1, k2⟩ := key hn
      constructor
      · intro v t h
        obtain ⟨v', h', _⟩ := CRes.push_found h
        exact k1 v' t h'
      · intro h; exact k2 (CRes.push_more h)
    have hbr : c ≠ '<' → c ≠ '&' → Lay.text.next c ≠ .bad → Lay.text.next c = .text := by
      intro e1 e2 hb
      simp only [Lay.next, e1, e2, if_false] at hb ⊢
      split at hb
      · exact absurd rfl hb
      · rename_i e3; simp [e3]
    cases m <;> simp only [cdata]
    · split
      · rename_i hc
        have n1 : c ≠ '<' := by rintro rfl; simp [h0] at hc
        have n2 : c ≠ '&' := by rintro rfl; simp [h0'] at hc
        exact keyp (m' := .txt) (hbr n1 n2 hok1)
      · split
        · rename_i hc
          constructor
          · intro v t h; cases h; exact ⟨[c], rfl, by simp [CMode.tlay, Lay.next, hc]⟩
          · intro h; cases h
        · split
          · rename_i hc; subst hc; exact key (m' := .amp) rfl
          · exact key (m' := .txt) (hbr (by assumption) (by assumption) hok1)
    · split
      · exact key (m' := .hash) (by simp [CMode.tlay, Lay.next, *])
      · split
        · rename_i hc
          exact key (m' := .named [c]) (by rw [isNamedRefChar_eq] at hc; simp [CMode.tlay, Lay.next, *])
        · rename_i hn hc
          rw [isNamedRefChar_eq] at hc
          exact absurd (by simp [CMode.tlay, Lay.next, hn, hc]) hok1
    · split
      · exact key (m' := .hex []) (by simp [CMode.tlay, Lay.next, *])
      · rename_i hc
        exact absurd (by simp [CMode.tlay, Lay.next, hc]) hok1
    · rename_i acc
      split
      · rename_i hc
        have : c ≠ ';' := by rintro rfl; simp [h2] at hc
        exact key (m' := .hex (c :: acc)) (by simp [CMode.tlay, Lay.next, this, isHexDigit_alnum hc])
      · split
        · split
          · exact keyp (m' := .txt) (by simp [CMode.tlay, Lay.next, *])
          · constructor
            · intro v t h; cases h
            · intro h; cases h
        · constructor
          · intro v t h; cases h
          · intro h; cases h
    · rename_i acc
      split
      · rename_i hc
        have : c ≠ ';' := by rintro rfl; simp [h1] at hc
        exact key (m' := .named (c :: acc)) (by rw [isNamedRefChar_eq] at hc; simp [CMode.tlay, Lay.next, *])
      · split
        · split
          · exact keyp (m' := .txt) (by simp [CMode.tlay, Lay.next, *])
          · constructor
            · intro v t h; cases h
            · intro h; cases h
        · rename_i hc hn
          rw [isNamedRefChar_eq] at hc
          have e : Lay.tref.next c = .bad := by simp [Lay.next, hn, hc]
          exact absurd e hok1

/-- The parser is in step with the reader of the document. -/
def InStep (s : PState) (d : Lay) : Prop :=
  match s.st with
  | .preElement => d = .text
  | .inElement => d = .text
  | .completeDoc => d = .text
  | .preTagGi => d = .lt
  | .preCompleteTagGi => d = .lt
  | .completeTag => (d = .name ∧ ∀ c r, s.rest = c :: r → isNameChar c = false) ∨ d = .closed ∨ (d = .lt ∧ ∃ r, s.rest = '/' :: r)
  | .attribute => s.pendingEnd = false ∧ d = .gap ∧ ∃ c r, s.rest = c :: r ∧ isNameStart c = true

theorem lay_ws {w : Str} (h : ∀ c ∈ w, isWs c = true) {d : Lay}
    (hd : d = .text ∨ d = .lt ∨ d = .gap ∨ d = .aeq) : w.foldl Lay.next d = d :=
  lay_space (fun c hc => (isWs_iff c).1 (h c hc)) hd

theorem lay_ws_name {w : Str} (h : ∀ c ∈ w, isWs c = true) {d : Lay} (hd : d = .name ∨ d = .closed) :
    (w = [] ∧ w.foldl Lay.next d = d) ∨ w.foldl Lay.next d = .gap := by
  by_cases hw : w = []
  · exact .inl ⟨hw, by simp [hw]⟩
  · exact .inr (lay_to_gap hw (fun c hc => (isWs_iff c).1 (h c hc)) (.inl ⟨hd, rfl⟩))

theorem dropName_head {l : Str} {c : Char} {r : Str} (h : dropName l = c :: r) : isNameChar c = false := by
  induction l with
  | nil => cases h
  | cons a l ih =>
    simp only [dropName] at h
    split at h
    · exact ih h
    · cases h; simp_all

theorem step_instep {s : PState} {d : Lay} (h : InStep s d) (hok : s.rest.foldl Lay.next d ≠ .bad) :
    (∀ s' evs, step false s = .cont s' evs →
      ∃ p, s.rest = p ++ s'.rest ∧ InStep s' (p.foldl Lay.next d)) ∧
    (∀ s' evs, step false s = .pause s' evs → (s.rest.foldl Lay.next d).quote = none ∨
      ∃ p, s.rest = p ++ s'.rest ∧ Astray s' (p.foldl Lay.next d)) := by
  obtain ⟨st, rest, pe, gi, at_, stk⟩ := s
  obtain ⟨p, hp, hpw⟩ := dropWs_prefix rest
  have hpt := lay_ws hpw (d := .text) (by simp)
  have hpl := lay_ws hpw (d := .lt) (by simp)
  cases st <;> simp only [InStep] at h <;> simp only at hok
  · -- preElement
    subst h
    simp only [step, stepPreElement]
    rcases hr : dropWs rest with _ | ⟨c, r⟩
    · refine ⟨fun s' evs h => (by simp [wait] at h), fun s' evs h => .inl ?_⟩
      rw [hr, List.append_nil] at hp
      rw [hp, hpt]; rfl
    · rw [hr] at hp
      simp only
      split
      · rename_i hc; subst hc
        refine ⟨fun s' evs h => ?_, fun s' evs h => by cases h⟩
        cases h
        exact ⟨p ++ ['<'], by simp [hp], by simp [InStep, hpt, Lay.next]⟩
      · refine ⟨fun s' evs h => ?_, fun s' evs h => by cases h⟩
        cases h
        exact ⟨p, hp, by simp [InStep, hpt]⟩
  · -- inElement
    subst h
    simp only [step, stepInElement]
    obtain ⟨h1, h2⟩ := cdata_lay_text rest (m := .txt) hok
    rcases hc : cdata isDataChar '<' .txt rest with ⟨v, r⟩ | _ | e
    · refine ⟨fun s' evs h => ?_, fun s' evs h => by cases h⟩
      cases h
      obtain ⟨p', hp', hf⟩ := h1 v r hc
      exact ⟨p', hp', hf⟩
    · refine ⟨fun s' evs h => (by simp [wait] at h), fun s' evs h => .inl ?_⟩
      have := h2 hc
      simp only [CMode.tlay] at this
      rcases this with e | e | e | e <;> rw [e] <;> rfl
    · exact ⟨fun s' evs h => (by cases h), fun s' evs h => by cases h⟩
  · -- preTagGi
    subst h
    simp only [step, stepTagGi]
    rcases hr : dropWs rest with _ | ⟨c, r⟩
    · refine ⟨fun s' evs h => (by simp [wait] at h), fun s' evs h => .inl ?_⟩
      rw [hr, List.append_nil] at hp
      rw [hp, hpl]; rfl
    · rw [hr] at hp
      simp only [true_and]
      rw [hp, List.foldl_append, hpl] at hok
      obtain ⟨hok1, hok2⟩ := fold_cons_ok hok
      split
      · rename_i hc; subst hc
        refine ⟨fun s' evs h => ?_, fun s' evs h => by cases h⟩
        cases h
        exact ⟨p ++ ['/'], by simp [hp], by simp [InStep, hpl, Lay.next]⟩
      · split
        · rename_i hsl hns
          have hn : Lay.lt.next c = .name := by
            simp [Lay.next, isWs_nameStart hns, hsl, hns]
          split
          · rename_i hd
            refine ⟨fun s' evs h => (by simp [wait] at h), fun s' evs h => .inl ?_⟩
            rw [hp, List.foldl_append, hpl, List.foldl_cons, hn, takeName_dropName r, hd,
              List.append_nil, lay_names (takeName_all r) (.inl rfl)]
            rfl
          · refine ⟨fun s' evs h => ?_, fun s' evs h => by simp at h⟩
            cases h
            refine ⟨p ++ c :: takeName r, ?_, ?_⟩
            · simp only [List.append_assoc, List.cons_append, ← takeName_dropName]; exact hp
            · rw [List.foldl_append, hpl, List.foldl_cons, hn, lay_names (takeName_all r) (.inl rfl)]
              exact .inl ⟨rfl, fun c r' h => dropName_head h⟩
        · rename_i hsl hns
          exfalso
          apply hok1
          have hw : isWs c = false := by
            have : ∀ (l : Str) {c r}, dropWs l = c :: r → isWs c = false := by
              intro l
              induction l with
              | nil => intro c r h; cases h
              | cons a l ih =>
                intro c r h
                simp only [dropWs] at h
                split at h
                · exact ih h
                · cases h; simp_all
            exact this rest hr
          simp [Lay.next, hw, hsl, hns]
  · -- preCompleteTagGi
    subst h
    simp only [step, stepTagGi]
    rcases hr : dropWs rest with _ | ⟨c, r⟩
    · refine ⟨fun s' evs h => (by simp [wait] at h), fun s' evs h => .inl ?_⟩
      rw [hr, List.append_nil] at hp
      rw [hp, hpl]; rfl
    · rw [hr] at hp
      simp only [reduceCtorEq, false_and, if_false]
      rw [hp, List.foldl_append, hpl] at hok
      obtain ⟨hok1, hok2⟩ := fold_cons_ok hok
      split
      · rename_i hns
        have hn : Lay.lt.next c = .name := by
          simp [Lay.next, isWs_nameStart hns, (nameStart_ne hns).1, hns]
        split
        · rename_i hd
          refine ⟨fun s' evs h => (by simp [wait] at h), fun s' evs h => .inl ?_⟩
          rw [hp, List.foldl_append, hpl, List.foldl_cons, hn, takeName_dropName r, hd,
            List.append_nil, lay_names (takeName_all r) (.inl rfl)]
          rfl
        · refine ⟨fun s' evs h => ?_, fun s' evs h => by simp at h⟩
          cases h
          refine ⟨p ++ c :: takeName r, ?_, ?_⟩
          · simp only [List.append_assoc, List.cons_append, ← takeName_dropName]; exact hp
          · rw [List.foldl_append, hpl, List.foldl_cons, hn, lay_names (takeName_all r) (.inl rfl)]
            exact .inl ⟨rfl, fun c r' h => dropName_head h⟩
      · rename_i hns
        refine ⟨fun s' evs h => ?_, fun s' evs h => by simp at h⟩
        cases h
        have hw : isWs c = false := by
          have : ∀ (l : Str) {c r}, dropWs l = c :: r → isWs c = false := by
            intro l
            induction l with
            | nil => intro c r h; cases h
            | cons a l ih =>
              intro c r h
              simp only [dropWs] at h
              split at h
              · exact ih h
              · cases h; simp_all
          exact this rest hr
        have hsl : c = '/' := by
          by_cases hsl : c = '/'
          · exact hsl
          · exfalso; apply hok1; simp [Lay.next, hw, hsl, hns]
        subst hsl
        exact ⟨p, hp, .inr (.inr ⟨hpl, r, rfl⟩)⟩
  · -- completeTag
    simp only [step, stepCompleteTag]
    rcases h with ⟨h, hhd⟩ | h | ⟨rfl, r, rfl⟩
    case inr.inr =>
      have e1 : dropWs ('/' :: r) = '/' :: r := by
        simp [dropWs, show isWs '/' = false by decide]
      rw [e1]
      simp only [show isNameStart '/' = false by decide]
      refine ⟨fun s' evs h => ?_, fun s' evs h => ?_⟩ <;> simp at h
    all_goals
      have hd : d = .name ∨ d = .closed := by first | exact .inl h | exact .inr h
      have hfold := lay_ws_name hpw hd
      rcases hr : dropWs rest with _ | ⟨c, r⟩
      · refine ⟨fun s' evs h => (by simp [wait] at h), fun s' evs _ => .inl ?_⟩
        rw [hr, List.append_nil] at hp
        rw [hp]
        rcases hfold with ⟨_, e⟩ | e
        · rw [e, h]; rfl
        · rw [e]; rfl
      · rw [hr] at hp
        rw [hp, List.foldl_append] at hok
        obtain ⟨hok1, hok2⟩ := fold_cons_ok hok
        simp only
        split
        · rename_i hns
          refine ⟨fun s' evs h => ?_, fun s' evs h => by cases h⟩
          cases h
          refine ⟨p, hp, hns.1, ?_, c, r, rfl, hns.2⟩
          rcases hfold with ⟨hpe, e⟩ | e
          · exfalso
            apply hok1
            rw [e, h]
            subst hpe
            have hws := isWs_nameStart hns.2
            have hgt := (nameStart_ne hns.2).2.1
            first
              | (have hnc := hhd c r (by simpa using hp)
                 simp [Lay.next, hws, hgt, hnc]; done)
              | (simp [Lay.next, hws, hgt]; done)
          · exact e
        · split
          · rename_i hc; subst hc
            have htext : (p ++ ['>']).foldl Lay.next d = .text := by
              rw [List.foldl_append]
              rcases hfold with ⟨_, e⟩ | e
              · rw [e, h]; decide
              · rw [e]; decide
            have hpp : rest = (p ++ ['>']) ++ r := by simp [hp]
            constructor
            · intro s' evs hs
              repeat' split at hs
              all_goals first | (cases hs; done) | skip
              all_goals cases hs
              all_goals refine ⟨p ++ ['>'], hpp, ?_⟩
              all_goals rw [htext]
              all_goals first | rfl | (simp only [InStep]; split <;> rfl)
            · intro s' evs hs
              left
              have hre : r = [] := by
                repeat' split at hs
                all_goals first | (cases hs; done) | assumption
              rw [hpp, hre, List.append_nil, htext]; rfl
          · exact ⟨fun s' evs h => (by cases h), fun s' evs h => by cases h⟩
  · -- completeDoc
    subst h
    simp only [step, stepCompleteDoc]
    rcases hr : dropWs rest with _ | ⟨c, r⟩
    · refine ⟨fun s' evs h => ?_, fun s' evs h => .inl ?_⟩
      · cases rest <;> simp [wait] at h
      · rw [hr, List.append_nil] at hp
        rw [hp, hpt]; rfl
    · cases rest with
      | nil => cases hr
      | cons a l => exact ⟨fun s' evs h => (by cases h), fun s' evs h => by cases h⟩
  · -- attribute
    obtain ⟨rfl, rfl, c, r, rfl, hns⟩ := h
    have hn : Lay.gap.next c = .aname := by simp [Lay.next, isWs_nameStart hns, hns]
    obtain ⟨hok1, hok2⟩ := fold_cons_ok hok
    rw [hn] at hok2
    simp only [step, stepAttribute]
    have hnm := lay_names (takeName_all r) (d := .aname) (.inr rfl)
    by_cases hdn : dropName r = []
    · simp only [hdn, if_true]
      refine ⟨fun s' evs h => (by simp [wait] at h), fun s' evs h => .inl ?_⟩
      rw [List.foldl_cons, hn, takeName_dropName r, hdn, List.append_nil, hnm]; rfl
    · simp only [hdn, if_false]
      obtain ⟨p2, hp2, hp2w⟩ := dropWs_prefix (dropName r)
      have hfw : p2.foldl Lay.next .aname = .aname ∨ p2.foldl Lay.next .aname = .aeq := by
        by_cases hpe : p2 = []
        · left; rw [hpe]; rfl
        · right
          exact lay_to_gap hpe (fun c hc => (isWs_iff c).1 (hp2w c hc)) (.inr ⟨rfl, rfl⟩)
      rcases hdw : dropWs (dropName r) with _ | ⟨x, r3⟩
      · refine ⟨fun s' evs h => (by simp [wait] at h), fun s' evs h => .inl ?_⟩
        rw [List.foldl_cons, hn, takeName_dropName r, hp2, hdw, List.append_nil, List.foldl_append, hnm]
        rcases hfw with e | e <;> rw [e] <;> rfl
      · have hsplit : r = takeName r ++ (p2 ++ x :: r3) := by
          rw [← hdw, ← hp2]; exact takeName_dropName r
        simp only
        split
        · rename_i hx; subst hx
          have heq : (c :: (takeName r ++ (p2 ++ ['=']))).foldl Lay.next .gap = .eq := by
            rw [List.foldl_cons, hn, List.foldl_append, hnm, List.foldl_append]
            rcases hfw with e | e <;> rw [e] <;> decide
          cases r3 with
          | nil =>
            refine ⟨fun s' evs h => (by simp at h), fun s' evs h => .inl ?_⟩
            have : c :: r = c :: (takeName r ++ (p2 ++ ['='])) := by rw [← hsplit]
            rw [this, heq]; rfl
          | cons q r4 =>
            have e1 : c :: r = (c :: (takeName r ++ (p2 ++ ['=']))) ++ q :: r4 := by
              conv => lhs; rw [hsplit]
              simp
            rw [e1, List.foldl_append, heq] at hok
            obtain ⟨hokq, hok4⟩ := fold_cons_ok hok
            simp only
            by_cases hq : q = '"' ∨ q = '\''
            · simp only [hq, if_true]
              have hv : Lay.eq.next q = .val q := by simp [Lay.next, hq]
              rw [hv] at hok4
              rcases hc : cdata (attrPat q) q .txt r4 with ⟨v, r5⟩ | _ | e
              · refine ⟨fun s' evs h => ?_, fun s' evs h => by cases h⟩
                cases h
                obtain ⟨p3, hp3, hf3⟩ := cdata_lay_found hq _ hc hok4
                refine ⟨(c :: (takeName r ++ (p2 ++ ['=']))) ++ q :: p3, ?_, ?_⟩
                · simp only; rw [e1, hp3]; simp
                · rw [List.foldl_append, heq, List.foldl_cons, hv]
                  exact .inr (.inl hf3)
              · refine ⟨fun s' evs h => (by simp [wait] at h), fun s' evs h => .inr ?_⟩
                obtain ⟨-, rfl, rfl⟩ := wait_pause h
                refine ⟨_, e1, ?_⟩
                rw [heq]
                refine ⟨fun q h => (by cases h), rfl, q, r4, rfl, .inl (.inr ⟨q, hq, ?_⟩)⟩
                rw [hv]; rfl
              · exact ⟨fun s' evs h => (by cases h), fun s' evs h => by cases h⟩
            · exfalso; apply hokq; simp [Lay.next, hq]
        · exact ⟨fun s' evs h => (by cases h), fun s' evs h => by cases h⟩

theorem exec_instep {s s' : PState} {evs : List Event} {d : Lay} (h : InStep s d)
    (hok : s.rest.foldl Lay.next d ≠ .bad) (hq : (s.rest.foldl Lay.next d).quote ≠ none)
    (hx : exec false s = (evs, .paused s')) :
    ∃ p, s.rest = p ++ s'.rest ∧ Astray s' (p.foldl Lay.next d) := by
  have H := exec_induct (done := false) (P := fun s _ o => ∀ d, InStep s d →
    s.rest.foldl Lay.next d ≠ .bad → (s.rest.foldl Lay.next d).quote ≠ none → ∀ s', o = .paused s' →
      ∃ p, s.rest = p ++ s'.rest ∧ Astray s' (p.foldl Lay.next d)) ?_ ?_ ?_ ?_ s d h hok hq
  · rw [hx] at H; exact H s' rfl
  · intro s s1 evs hs d h hok hq s' ho
    cases ho
    rcases (step_instep h hok).2 _ _ hs with h | h
    · exact absurd h hq
    · exact h
  · intro s e _ d _ _ _ s' h; cases h
  · intro s _ d _ _ _ s' h; cases h
  · intro s s1 evs evs' o hs ih d h hok hq s' ho
    obtain ⟨p, hp, hi⟩ := (step_instep h hok).1 _ _ hs
    rw [hp, List.foldl_append] at hok hq
    obtain ⟨p', hp', ha'⟩ := ih _ hi hok hq s' ho
    exact ⟨p ++ p', by rw [hp, hp']; simp, by rw [List.foldl_append]; exact ha'⟩

end Amara
