import Verif.Lemmas.Encode
import Verif.Lemmas.Context
/-
Helper lemmas for C17: walking through a serialised element up to the first attribute value with a
tab, newline or carriage return in it.
-/
namespace Amara

theorem looseValue_clean {v : Str} (h : LooseValue v) (hc : ¬ HasControl v) : AttrValue v := by
  intro c hm
  refine ⟨?_, fun e => hc ⟨c, hm, .inl e⟩, fun e => hc ⟨c, hm, .inr (.inl e)⟩⟩
  rcases h c hm with h | h
  · exact h
  · exact absurd ⟨c, hm, .inr (.inr h)⟩ hc

/-- The value up to its first control character. -/
theorem hasControl_split {v : Str} (h : HasControl v) :
    ∃ v1 c v2, v = v1 ++ c :: v2 ∧ ¬ HasControl v1 ∧ (c = '\t' ∨ c = '\n' ∨ c = '\r') := by
  induction v with
  | nil => obtain ⟨c, hc, _⟩ := h; cases hc
  | cons d v ih =>
    by_cases hd : d = '\t' ∨ d = '\n' ∨ d = '\r'
    · exact ⟨[], d, v, rfl, (by rintro ⟨c, hc, _⟩; cases hc), hd⟩
    · obtain ⟨c, hc, hc'⟩ := h
      have hv : HasControl v := by
        rcases List.mem_cons.1 hc with rfl | hc
        · exact absurd hc' hd
        · exact ⟨c, hc, hc'⟩
      obtain ⟨v1, c, v2, rfl, h1, h2⟩ := ih hv
      refine ⟨d :: v1, c, v2, rfl, ?_, h2⟩
      rintro ⟨x, hx, hx'⟩
      rcases List.mem_cons.1 hx with rfl | hx
      · exact hd hx'
      · exact h1 ⟨x, hx, hx'⟩

theorem escAttrChar_control {c : Char} (h : c = '\t' ∨ c = '\n' ∨ c = '\r') :
    ∃ d r, escAttrChar c = '&' :: '#' :: d :: r ∧ d ≠ 'x' ∧ '"' ∉ escAttrChar c := by
  rcases h with rfl | rfl | rfl
  · exact ⟨'9', [';'], by decide, by decide, by decide⟩
  · exact ⟨'1', "0;".toList, by decide, by decide, by decide⟩
  · exact ⟨'1', "3;".toList, by decide, by decide, by decide⟩

/-- `quoteattr` of such a value: a spelling of its beginning, then a decimal reference. -/
theorem quoteattr_control {v : Str} (hv : LooseValue v) (h : HasControl v) :
    ∃ q s raw b, (q = '"' ∨ q = '\'') ∧ quoteattr v = q :: (raw ++ b) ∧ Spells (AttrLit q) s raw ∧
      Malformed b := by
  obtain ⟨v1, c, v2, rfl, h1, h2⟩ := hasControl_split h
  have hv1 : AttrValue v1 := looseValue_clean (fun d hd => hv d (by simp [hd])) h1
  have he : escapeAttr v1 = escape v1 :=
    escapeAttr_eq_escape v1 (fun d hd => ⟨fun e => h1 ⟨d, hd, .inl e⟩, fun e => h1 ⟨d, hd, .inr (.inl e)⟩,
      fun e => h1 ⟨d, hd, .inr (.inr e)⟩⟩)
  obtain ⟨d, r, hd, hx, hq⟩ := escAttrChar_control h2
  have lit : ∀ q c, c ∈ v1 → Plain c → c ≠ q → AttrLit q c := by
    intro q c hc hp hq
    exact ⟨(hv1 c hc).1, hp.1, hp.2.1, hp.2.2, (hv1 c hc).2.1, (hv1 c hc).2.2, hq⟩
  have hesc : escapeAttr (v1 ++ c :: v2) = escape v1 ++ (escAttrChar c ++ escapeAttr v2) := by
    rw [escapeAttr_append, he, escapeAttr_cons]
  simp only [quoteattr]
  rw [hesc]
  by_cases h1 : '"' ∈ escape v1 ++ (escAttrChar c ++ escapeAttr v2)
  · rw [if_pos h1]
    by_cases h2 : '\'' ∈ escape v1 ++ (escAttrChar c ++ escapeAttr v2)
    · rw [if_pos h2, replaceChar_append, replaceChar_append, replaceChar_id hq, hd]
      refine ⟨'"', v1, _, '&' :: '#' :: d :: (r ++ (replaceChar '"' "&quot;".toList (escapeAttr v2) ++ ['"'])),
        .inl rfl, ?_, escape_quot_spells v1 (fun c hc hp hq => lit _ c hc hp hq), .number hx⟩
      simp only [List.append_assoc, List.cons_append]
    · rw [if_neg h2, hd]
      refine ⟨'\'', v1, escape v1, '&' :: '#' :: d :: (r ++ (escapeAttr v2 ++ ['\''])), .inr rfl, ?_,
        escape_spells v1 (fun c hc hp => lit _ c hc hp ?_), .number hx⟩
      · simp only [List.append_assoc, List.cons_append]
      · rintro rfl
        exact h2 (by simp [(mem_escape (.inr rfl) v1).2 hc])
  · rw [if_neg h1, hd]
    refine ⟨'"', v1, escape v1, '&' :: '#' :: d :: (r ++ (escapeAttr v2 ++ ['"'])), .inl rfl, ?_,
        escape_spells v1 (fun c hc hp => lit _ c hc hp ?_), .number hx⟩
    · simp only [List.append_assoc, List.cons_append]
    · rintro rfl
      exact h1 (by simp [(mem_escape (.inl rfl) v1).2 hc])

theorem encodeAttrs_append (as bs : Attrs) : encodeAttrs (as ++ bs) = encodeAttrs as ++ encodeAttrs bs := by
  induction as with
  | nil => rfl
  | cons p r ih => obtain ⟨k, v⟩ := p; simp [encodeAttrs, ih]

/-- The attributes up to the first with a control character in its value. -/
theorem attrs_split {as : Attrs} (h : ∃ p ∈ as, HasControl p.2) :
    ∃ as1 k v as2, as = as1 ++ (k, v) :: as2 ∧ (∀ p ∈ as1, ¬ HasControl p.2) ∧ HasControl v := by
  induction as with
  | nil => obtain ⟨p, hp, _⟩ := h; cases hp
  | cons p r ih =>
    by_cases hp : HasControl p.2
    · exact ⟨[], p.1, p.2, r, rfl, by simp, hp⟩
    · obtain ⟨p', hp', hc⟩ := h
      have : ∃ p ∈ r, HasControl p.2 := by
        rcases List.mem_cons.1 hp' with rfl | hm
        · exact absurd hc hp
        · exact ⟨p', hm, hc⟩
      obtain ⟨as1, k, v, as2, rfl, h1, h2⟩ := ih this
      refine ⟨p :: as1, k, v, as2, rfl, ?_, h2⟩
      intro q hq
      rcases List.mem_cons.1 hq with rfl | hq
      · exact hp
      · exact h1 q hq

/-- The parser does not get past a start tag with such an attribute. -/
theorem exec_control {stk evs w n as} (h : TagAt stk evs w) (hn : IsName n)
    (has : ∀ p ∈ as, IsName p.1 ∧ LooseValue p.2) (hc : ∃ p ∈ as, HasControl p.2) (t : Str) :
    ∃ s', exec false { PState.init with rest := w ++ (n ++ (encodeAttrs as ++ t)) } = (evs, .paused s') := by
  obtain ⟨as1, k, v, as2, rfl, h1, h2⟩ := attrs_split hc
  obtain ⟨q, s, raw, b, hq, hqa, hs, hb⟩ := quoteattr_control (has (k, v) (by simp)).2 h2
  have ha1 : IsAttrs as1 (encodeAttrs as1) := encodeAttrs_isAttrs (fun p hp =>
    ⟨(has p (by simp [hp])).1, looseValue_clean (has p (by simp [hp])).2 (h1 p hp)⟩)
  have hk := (has (k, v) (by simp)).1
  have r0 := reach_attrValue (done := false) (q := q) (w0 := []) (w1 := [' ']) (w2 := []) h
    (by decide) hn ha1 (by simp) (by decide) hk (raw ++ (b ++ (encodeAttrs as2 ++ t)))
  have hstep : step false ⟨.attribute, k ++ '=' :: q :: (raw ++ (b ++ (encodeAttrs as2 ++ t))), false, n,
      dictOf as1, stk⟩ =
      .pause ⟨.attribute, q :: (raw ++ (b ++ (encodeAttrs as2 ++ t))), false, n, dictOf as1, stk⟩ [] := by
    have := step_attrValue (done := false) hk (w2 := []) (by decide) hq
      (raw ++ (b ++ (encodeAttrs as2 ++ t))) n (dictOf as1) stk
    simp only [List.nil_append] at this
    rw [this, cdata_attr_pre hq hs, cdata_malformed hb (by rcases hq with rfl | rfl <;> decide)
      (by rcases hq with rfl | rfl <;> decide)]
    simp [wait]
  refine ⟨⟨.attribute, q :: (raw ++ (b ++ (encodeAttrs as2 ++ t))), false, n, dictOf as1, stk⟩, ?_⟩
  rw [encodeAttrs_append, encodeAttrs, hqa]
  simp only [List.nil_append, List.cons_append, List.append_assoc] at r0 ⊢
  rw [exec_reach r0, exec_pause hstep]
  simp

/-! ### the walk -/

theorem eventsList_consText (anc : List Str) (s : Str) (n : Str) (as : Attrs) (cs r : List Node) :
    Node.eventsList anc (consText s (.elem n as cs :: r)) =
      textEvents s ++ Node.eventsList anc (.elem n as cs :: r) := by
  by_cases h : s = []
  · simp [h, consText, textEvents]
  · simp [h, consText, textEvents, Node.eventsList, Node.events]

theorem eventsList_consText_nil (anc : List Str) (s : Str) :
    Node.eventsList anc (consText s []) = textEvents s := by
  by_cases h : s = []
  · simp [h, consText, textEvents, Node.eventsList]
  · simp [h, consText, textEvents, Node.eventsList, Node.events]

/-- The events before the first start of an element with a control character in an attribute. -/
def cleanPart (evs : List Event) : List Event := evs.takeWhile (fun ev => decide (CleanStart ev))

theorem cleanPart_append {a b : List Event} (h : ∀ ev ∈ a, CleanStart ev) :
    cleanPart (a ++ b) = a ++ cleanPart b := by
  rw [cleanPart, List.takeWhile_append_of_pos (by simpa using h)]; rfl

theorem cleanPart_all {a : List Event} (h : ∀ ev ∈ a, CleanStart ev) : cleanPart a = a := by
  have := cleanPart_append (b := []) h
  simpa [cleanPart] using this

theorem clean_textEvents (s : Str) : ∀ ev ∈ textEvents s, CleanStart ev := by
  intro ev h
  by_cases hs : s = [] <;> simp [textEvents, hs] at h
  subst h; trivial

/-- The parser is at the first such element of `ns`, coming from `w`. -/
def Blocked (evs : List Event) (w : Str) (anc : List Str) (ns : List Node) (txt : Str) : Prop :=
  ∃ stk' evs' w' n as t, TagAt stk' (evs ++ evs') w' ∧ IsName n ∧
    (∀ p ∈ as, IsName p.1 ∧ LooseValue p.2) ∧ (∃ p ∈ as, HasControl p.2) ∧
    w ++ txt = w' ++ (n ++ (encodeAttrs as ++ t)) ∧ cleanPart (Node.eventsList anc ns) = evs' ∧
    ¬ ∀ ev ∈ Node.eventsList anc ns, CleanStart ev

/-- The parser gets through all of `ns`, with the text `s` spelt `raw` still to be ended by a tag. -/
def Through (stk : List Str) (evs : List Event) (w : Str) (ns : List Node) (txt : Str) : Prop :=
  ∃ evs' w' s raw, Open stk (evs ++ evs') w' ∧ Spells TextLit s raw ∧ w ++ txt = w' ++ raw ∧
    Node.eventsList stk.reverse ns = evs' ++ textEvents s ∧ ∀ ev ∈ evs', CleanStart ev

theorem Blocked.extend {evs w anc ns txt ev1 w1} (h : Blocked (evs ++ ev1) (w ++ w1) anc ns txt)
    {anc' ns' txt' ev2 t2} (hc : ∀ ev ∈ ev1, CleanStart ev)
    (he : Node.eventsList anc' ns' = ev1 ++ (Node.eventsList anc ns ++ ev2))
    (ht : txt' = w1 ++ (txt ++ t2)) : Blocked evs w anc' ns' txt' := by
  obtain ⟨stk', evs', w', n, as, t, h1, h2, h3, h4, h5, h6, h7⟩ := h
  refine ⟨stk', ev1 ++ evs', w', n, as, t ++ t2, by simpa using h1, h2, h3, h4, ?_, ?_, ?_⟩
  · subst ht
    have := congrArg (· ++ t2) h5
    simpa using this
  · rw [he, cleanPart_append hc]
    congr 1
    -- the blocking event is inside, what follows does not matter
    rw [← h6]
    have : ∀ (a b : List Event), (¬ ∀ ev ∈ a, CleanStart ev) → cleanPart (a ++ b) = cleanPart a := by
      intro a b
      induction a with
      | nil => intro h; simp at h
      | cons x a ih =>
        intro h
        by_cases hx : CleanStart x
        · have : ¬ ∀ ev ∈ a, CleanStart ev := by
            intro hh; apply h; intro ev hev
            rcases List.mem_cons.1 hev with rfl | hev
            · exact hx
            · exact hh ev hev
          simp only [cleanPart, List.cons_append, List.takeWhile_cons, hx, decide_true, if_true]
          congr 1
          exact ih this
        · simp [cleanPart, hx]
    exact this _ _ h7
  · intro hall
    apply h7
    intro ev hev
    exact hall ev (by rw [he]; simp [hev])

theorem walk : ∀ (cs : List Node) (stk : List Str) (evs : List Event) (w s raw : Str) (d : Nat),
    Open stk evs w → Spells TextLit s raw → Node.WritableList LooseValue cs →
    Through stk evs w (consText s (Node.normList cs)) (raw ++ Node.encodeChildren [] d cs) ∨
    Blocked evs w stk.reverse (consText s (Node.normList cs)) (raw ++ Node.encodeChildren [] d cs)
  | [], stk, evs, w, s, raw, d, ho, hs, _ => by
    left
    exact ⟨[], w, s, raw, by simpa using ho, hs, by simp [Node.encodeChildren],
      by simp [Node.normList, eventsList_consText_nil], by simp⟩
  | .text t :: r, stk, evs, w, s, raw, d, ho, hs, hw => by
    simp only [Node.WritableList, Node.WritableWith] at hw
    have := walk r stk evs w (s ++ t) (raw ++ escape t) d ho (hs.append (escape_text hw.1)) hw.2
    simpa only [Node.normList, Node.encodeChildren, consText_append, List.append_assoc] using this
  | .elem n as ds :: r, stk, evs, w, s, raw, d, ho, hs, hw => by
    simp only [Node.WritableList, Node.WritableWith] at hw
    obtain ⟨⟨hn, has, hnd, hds⟩, hr⟩ := hw
    simp only [Node.normList, Node.norm, Node.encodeChildren, Node.encodeI, indentRun, if_true,
      List.nil_append]
    by_cases hc : ∃ p ∈ as, HasControl p.2
    · right
      refine ⟨stk, textEvents s, w ++ (raw ++ ['<']), n, as,
        '>' :: (Node.encodeChildren [] (d + 1) ds ++ ('<' :: '/' :: (n ++ ('>' :: Node.encodeChildren [] d r)))),
        .inside ho hs, hn, has, hc, by simp, ?_, ?_⟩
      · rw [eventsList_consText, cleanPart_append (clean_textEvents s)]
        have : ¬ CleanStart (.start n as stk.reverse) := by
          obtain ⟨p, hp, hp'⟩ := hc
          exact fun h => h p hp hp'
        simp [Node.eventsList, Node.events, cleanPart, this]
      · intro hall
        obtain ⟨p, hp, hp'⟩ := hc
        have := hall (.start n as stk.reverse) (by simp [eventsList_consText, Node.eventsList, Node.events])
        exact this p hp hp'
    · have hclean : ∀ p ∈ as, ¬ HasControl p.2 := fun p hp h => hc ⟨p, hp, h⟩
      have hattrs : IsAttrs as (encodeAttrs as) := encodeAttrs_isAttrs (fun p hp =>
        ⟨(has p hp).1, looseValue_clean (has p hp).2 (hclean p hp)⟩)
      have hcs : CleanStart (.start n as stk.reverse) := hclean
      have ho1 := Open.down (w0 := []) (w1 := []) ho hs hn hattrs (by decide) (by decide)
      rw [dictOf_nodup hnd] at ho1
      have hev1 : ∀ ev ∈ textEvents s ++ [Event.start n as stk.reverse], CleanStart ev := by
        intro ev hev
        rcases List.mem_append.1 hev with h | h
        · exact clean_textEvents s ev h
        · rw [List.mem_singleton.1 h]; exact hcs
      have hevs : ∀ x, Node.eventsList stk.reverse (consText s (.elem n as (Node.normList ds) :: x)) =
          (textEvents s ++ [Event.start n as stk.reverse]) ++
            (Node.eventsList (n :: stk).reverse (Node.normList ds) ++
              (.stop n stk.reverse :: Node.eventsList stk.reverse x)) := by
        intro x
        rw [eventsList_consText]
        simp [Node.eventsList, Node.events]
      have h1 := walk ds (n :: stk) _ _ [] [] (d + 1) ho1 .nil hds
      simp only [consText_nil, List.nil_append] at h1
      rcases h1 with ⟨evs', w', s', raw', g1, g2, g3, g4, g5⟩ | h1
      · have ho2 := Open.up (w2 := []) (w3 := []) (w4 := []) g1
          (by cases ho <;> first | assumption | simp) g2 hn (by decide) (by decide) (by decide)
        have hds : Node.eventsList stk.reverse (consText s (.elem n as (Node.normList ds) :: Node.normList r)) =
            (textEvents s ++ [Event.start n as stk.reverse] ++ (evs' ++ (textEvents s' ++ [.stop n stk.reverse])))
              ++ Node.eventsList stk.reverse (Node.normList r) := by
          rw [hevs, g4]; simp
        have hw2 : w ++ (raw ++ ('<' :: (n ++ (encodeAttrs as ++ '>' ::
            (Node.encodeChildren [] (d + 1) ds ++ '<' :: '/' :: (n ++ ['>'])))))) =
            w' ++ (raw' ++ '<' :: '/' :: (n ++ ['>'])) := by
          have := congrArg (· ++ ('<' :: '/' :: (n ++ ['>']))) g3
          simpa using this
        have hev2 : ∀ ev ∈ textEvents s ++ [Event.start n as stk.reverse] ++
            (evs' ++ (textEvents s' ++ [.stop n stk.reverse])), CleanStart ev := by
          intro ev hev
          rcases List.mem_append.1 hev with h | h
          · exact hev1 ev h
          · rcases List.mem_append.1 h with h | h
            · exact g5 ev h
            · rcases List.mem_append.1 h with h | h
              · exact clean_textEvents s' ev h
              · rw [List.mem_singleton.1 h]; trivial
        have h2 := walk r stk _ _ [] [] d ho2 .nil hr
        simp only [consText_nil, List.nil_append] at h2
        rcases h2 with ⟨evs2, w2, s2, raw2, k1, k2, k3, k4, k5⟩ | h2
        · left
          refine ⟨textEvents s ++ [Event.start n as stk.reverse] ++
            (evs' ++ (textEvents s' ++ [.stop n stk.reverse])) ++ evs2, w2, s2, raw2, ?_, k2, ?_, ?_, ?_⟩
          · simpa using k1
          · rw [← k3]
            have := congrArg (· ++ Node.encodeChildren [] d r) hw2
            simpa using this
          · rw [hds, k4]; simp
          · intro ev hev
            rcases List.mem_append.1 hev with h | h
            · exact hev2 ev h
            · exact k5 ev h
        · right
          obtain ⟨stk', evs3, w3, n3, as3, t3, l1, l2, l3, l4, l5, l6, l7⟩ := h2
          refine ⟨stk', textEvents s ++ [Event.start n as stk.reverse] ++
            (evs' ++ (textEvents s' ++ [.stop n stk.reverse])) ++ evs3, w3, n3, as3, t3, by simpa using l1,
            l2, l3, l4, ?_, ?_, ?_⟩
          · rw [← l5]
            have := congrArg (· ++ Node.encodeChildren [] d r) hw2
            simpa using this
          · rw [hds, cleanPart_append hev2, l6]
          · intro hall
            apply l7
            intro ev hev
            exact hall ev (by rw [hds]; simp [hev])
      · right
        have h1' : Blocked (evs ++ (textEvents s ++ [Event.start n as stk.reverse]))
            (w ++ (raw ++ '<' :: (n ++ (encodeAttrs as ++ ['>'])))) (n :: stk).reverse (Node.normList ds)
            (Node.encodeChildren [] (d + 1) ds) := by simpa using h1
        refine h1'.extend (ev2 := .stop n stk.reverse :: Node.eventsList stk.reverse (Node.normList r))
          (t2 := '<' :: '/' :: (n ++ ('>' :: Node.encodeChildren [] d r))) hev1 ?_ ?_
        · rw [hevs]
        · simp
termination_by cs => sizeOf cs

/-- Parsing the serialisation of an element with a control character in some attribute value stops at
the first start tag with such a value. -/
theorem exec_encode_control {e : Node} (hw : e.WritableWith LooseValue) (he : e.isText = false)
    (hc : ¬ ∀ ev ∈ e.norm.events [], CleanStart ev) :
    ∃ s', exec false { PState.init with rest := e.encode } = (cleanPart (e.norm.events []), .paused s') := by
  cases e with
  | text s => cases he
  | elem n as cs =>
    simp only [Node.WritableWith] at hw
    obtain ⟨hn, has, hnd, hcs⟩ := hw
    simp only [Node.encode, Node.encodeI, indentRun, if_true, List.nil_append]
    by_cases h : ∃ p ∈ as, HasControl p.2
    · obtain ⟨s', hs'⟩ := exec_control (TagAt.root (wb := []) (by decide)) hn has h
        ('>' :: (Node.encodeChildren [] 0 cs ++ '<' :: '/' :: (n ++ ['>'])))
      refine ⟨s', ?_⟩
      have : ¬ CleanStart (.start n as []) := by
        obtain ⟨p, hp, hp'⟩ := h
        exact fun h => h p hp hp'
      have : cleanPart ((Node.elem n as cs).norm.events []) = [] := by
        simp [cleanPart, Node.norm, Node.events, this]
      rw [this]
      simpa using hs'
    · have hclean : ∀ p ∈ as, ¬ HasControl p.2 := fun p hp h' => h ⟨p, hp, h'⟩
      have hattrs : IsAttrs as (encodeAttrs as) := encodeAttrs_isAttrs (fun p hp =>
        ⟨(has p hp).1, looseValue_clean (has p hp).2 (hclean p hp)⟩)
      have ho := Open.root (wb := []) (w0 := []) (w1 := []) (by decide) hn hattrs (by decide) (by decide)
      rw [dictOf_nodup hnd] at ho
      have hs : CleanStart (.start n as []) := hclean
      have hev : (Node.elem n as cs).norm.events [] = [.start n as []] ++
          (Node.eventsList [n] (Node.normList cs) ++ [.stop n []]) := by
        simp [Node.norm, Node.events]
      have h1 := walk cs _ _ _ [] [] 0 ho .nil hcs
      simp only [consText_nil, List.nil_append, List.reverse_cons, List.reverse_nil] at h1
      rcases h1 with ⟨evs', w', s', raw', g1, g2, g3, g4, g5⟩ | ⟨stk', evs', w', n', as', t, g1, g2, g3, g4, g5, g6, g7⟩
      · exfalso
        apply hc
        simp only [List.reverse_cons, List.reverse_nil, List.nil_append] at g4
        rw [hev, g4]
        intro ev hm
        simp only [List.mem_append, List.mem_singleton] at hm
        rcases hm with rfl | (hm | hm) | rfl
        · exact hs
        · exact g5 ev hm
        · exact clean_textEvents _ ev hm
        · trivial
      · obtain ⟨st, hst⟩ := exec_control g1 g2 g3 g4 (t ++ ('<' :: '/' :: (n ++ ['>'])))
        refine ⟨st, ?_⟩
        have e1 := congrArg (· ++ ('<' :: '/' :: (n ++ ['>']))) g5
        have e2 : cleanPart ((Node.elem n as cs).norm.events []) = [.start n as []] ++ evs' := by
          rw [hev, cleanPart_append (by intro ev hm; rw [List.mem_singleton.1 hm]; exact hs), ← g6]
          congr 1
          have : ∀ (a b : List Event), (¬ ∀ ev ∈ a, CleanStart ev) → cleanPart (a ++ b) = cleanPart a := by
            intro a b
            induction a with
            | nil => intro h; simp at h
            | cons x a ih =>
              intro h
              by_cases hx : CleanStart x
              · have : ¬ ∀ ev ∈ a, CleanStart ev := by
                  intro hh; apply h; intro ev hev
                  rcases List.mem_cons.1 hev with rfl | hev
                  · exact hx
                  · exact hh ev hev
                simp only [cleanPart, List.cons_append, List.takeWhile_cons, hx, decide_true, if_true]
                congr 1
                exact ih this
              · simp [cleanPart, hx]
          exact this _ _ g7
        rw [e2]
        rw [show ('<' :: (n ++ (encodeAttrs as ++ '>' :: (Node.encodeChildren [] 0 cs ++
          '<' :: '/' :: (n ++ ['>'])))) : Str) = w' ++ (n' ++ (encodeAttrs as' ++ (t ++ '<' :: '/' :: (n ++ ['>'])))) by
          simpa using e1]
        exact hst

end Amara
