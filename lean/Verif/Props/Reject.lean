import Verif.Spec.Reject
import Verif.Props.Parser
import Verif.Props.Writer
/-
Properties C64 and C76: what is rejected, and names.
-/
namespace Amara

/-! ### C64 -/

/-- Any character in a start tag that is neither white space nor '>' nor the start of a name, after the
name of the element and any number of attributes: RuntimeError, with the events before the tag delivered
and nothing else ever. -/
theorem junk_in_tag {stk evs w w0 n kvs wa w1 x} (h : TagAt stk evs w) (hw0 : Space w0)
    (hn : IsName n) (ha : IsAttrs kvs wa) (hw1 : Space w1) (hx : isWs x = false) (hx1 : isNameStart x = false)
    (hx2 : isNameChar x = false) (hx3 : x ≠ '>') (t : Str) (done : Bool) :
    send newParser (w ++ (w0 ++ (n ++ (wa ++ (w1 ++ x :: t))))) done = (evs, .raised .runtime, .dead) := by
  obtain ⟨pe, gi, r0⟩ := reach_tagAt (done := done) h (w0 ++ (n ++ (wa ++ (w1 ++ x :: t))))
  obtain ⟨c, r, rfl, hc, hr⟩ := isName_iff.1 hn
  obtain ⟨y, t', hy, hyn⟩ := notNameHead_attrs ha (notNameHead_space hw1 ⟨x, t, rfl, hx2⟩)
  have htd := takeName_app hr hyn t'
  rw [← hy] at htd
  have hne : wa ++ (w1 ++ x :: t) ≠ [] := by simp
  have s1 : step done ⟨.preTagGi, w0 ++ ((c :: r) ++ (wa ++ (w1 ++ x :: t))), pe, gi, [], stk⟩ =
      .cont ⟨.completeTag, wa ++ (w1 ++ x :: t), false, c :: r, [], stk⟩ [] := by
    simp only [step, stepTagGi, dropWs_space_cons hw0 (isWs_nameStart hc), List.cons_append,
      (nameStart_ne hc).1, and_false, if_false, hc, if_true]
    simp only [htd.1, htd.2, hne, if_false]
    simp
  have r2 := reach_attrs (done := done) ha (w1 ++ x :: t) (c :: r) [] stk
  have s3 : step done ⟨.completeTag, w1 ++ x :: t, false, c :: r,
      kvs.foldl (fun m p => m.set p.1 p.2) [], stk⟩ = .fail .runtime := by
    simp [step, stepCompleteTag, dropWs_space_cons hw1 hx, hx1, hx3]
  rw [send_new _ (by cases h <;> simp), exec_reach (r0.trans (.head s1 r2)), exec_fail s3]
  simp

/-- The same right after the '<'. -/
theorem junk_before_name {stk evs w w0 x} (h : TagAt stk evs w) (hw0 : Space w0)
    (hx : isWs x = false) (hx1 : isNameStart x = false) (hx2 : x ≠ '/') (hx3 : x ≠ '>') (t : Str) (done : Bool) :
    send newParser (w ++ (w0 ++ x :: t)) done = (evs, .raised .runtime, .dead) := by
  obtain ⟨pe, gi, r0⟩ := reach_tagAt (done := done) h (w0 ++ x :: t)
  have s1 : step done ⟨.preTagGi, w0 ++ x :: t, pe, gi, [], stk⟩ =
      .cont ⟨.completeTag, x :: t, false, [], [], stk⟩ [] := by
    simp [step, stepTagGi, dropWs_space_cons hw0 hx, hx1, hx2]
  have s3 : step done ⟨.completeTag, x :: t, false, [], [], stk⟩ = .fail .runtime := by
    simp [step, stepCompleteTag, dropWs, hx, hx1, hx3]
  rw [send_new _ (by cases h <;> simp), exec_reach (r0.trans (.one s1)), exec_fail s3]
  simp

/-- After an exception nothing is delivered, whatever is fed. -/
theorem silent_after {text : Str} {done : Bool} {evs e}
    (h : send newParser text done = (evs, .raised e, .dead)) (hist) :
    (sends newParser ((text, done) :: hist)).1 = evs := by
  simp only [sends, h, dead_silent, List.append_nil]

/-- C64.  An empty-element tag, anywhere in a document: the parser raises, having delivered the events
before the tag and nothing else; and it delivers nothing afterwards.  Only the beginning of the text, up to
the '/', is assumed to be well formed. -/
theorem C64_empty_element_tag_raises {stk evs w w0 n kvs wa w1} (h : TagAt stk evs w) (hw0 : Space w0)
    (hn : IsName n) (ha : IsAttrs kvs wa) (hw1 : Space w1) (t : Str) (done : Bool) :
    let text := w ++ (w0 ++ (n ++ (wa ++ (w1 ++ '/' :: t))))
    send newParser text done = (evs, .raised .runtime, .dead) ∧
    ∀ hist, (sends newParser ((text, done) :: hist)).1 = evs := by
  have H := junk_in_tag h hw0 hn ha hw1 (x := '/') (by decide) (by decide) (by decide) (by decide) t done
  exact ⟨H, silent_after H⟩

/-- C64, continued: so do a comment, a document type declaration, a marked section ('<!') and a processing
instruction ('<?'). -/
theorem C64_comment_raises {stk evs w w0 x} (h : TagAt stk evs w) (hw0 : Space w0)
    (hx : x = '!' ∨ x = '?') (t : Str) (done : Bool) :
    let text := w ++ (w0 ++ x :: t)
    send newParser text done = (evs, .raised .runtime, .dead) ∧
    ∀ hist, (sends newParser ((text, done) :: hist)).1 = evs := by
  have H : send newParser (w ++ (w0 ++ x :: t)) done = (evs, .raised .runtime, .dead) := by
    rcases hx with rfl | rfl
    · exact junk_before_name h hw0 (by decide) (by decide) (by decide) (by decide) t done
    · exact junk_before_name h hw0 (by decide) (by decide) (by decide) (by decide) t done
  exact ⟨H, silent_after H⟩

/-- `<a>x<b y='1'/></a>` and `<a><!-- b --></a>` are instances. -/
example : (send newParser "<a>x<b y='1'/></a>".toList true).1 =
    [.start ['a'] [] [], .chars ['x']] := by decide
example : TagAt [['a']] [.start ['a'] [] []] "<a><".toList :=
  .inside (w := "<a>".toList) (s := []) (raw := [])
    (.root (wb := []) (w0 := []) (w1 := []) (wa := []) (kvs := []) (n := ['a']) (by decide) (by decide)
      .nil (by decide) (by decide)) .nil

/-- What the calls that leave elements open write. -/
theorem unclosed_open {stk : List Str} {cs : List Call} (h : Unclosed stk cs) :
    (∀ m ∈ stk, IsName m) ∧
    ∃ evs w s raw, Open stk evs w ∧ Spells TextLit s raw ∧ cs.flatMap Call.plain = w ++ raw := by
  induction h with
  | @root n as hn ha =>
    refine ⟨by simpa using hn, _, _, [], [], Open.root (wb := []) (w0 := []) (w1 := []) (by decide) hn
      (encodeAttrs_isAttrs ha) (by decide) (by decide), .nil, ?_⟩
    simp [Call.plain, startTag]
  | @down stk cs n as _ hn ha ih =>
    obtain ⟨hm, evs, w, s, raw, ho, hs, hw⟩ := ih
    refine ⟨by simpa [hn] using hm, _, _, [], [], Open.down (w0 := []) (w1 := []) ho hs hn
      (encodeAttrs_isAttrs ha) (by decide) (by decide), .nil, ?_⟩
    simp [Call.plain, startTag, hw]
  | @text stk cs t _ ht ih =>
    obtain ⟨hm, evs, w, s, raw, ho, hs, hw⟩ := ih
    exact ⟨hm, evs, w, s ++ t, raw ++ escape t, ho, hs.append (escape_text ht), by simp [Call.plain, hw]⟩
  | @up n stk cs _ hne ih =>
    obtain ⟨hm, evs, w, s, raw, ho, hs, hw⟩ := ih
    refine ⟨fun m h => hm m (by simp [h]), _, _, [], [], Open.up (w2 := []) (w3 := []) (w4 := []) ho hne hs
      (hm n (by simp)) (by decide) (by decide) (by decide), .nil, ?_⟩
    simp [Call.plain, hw]

/-- C64, continued: whatever a raw writer is told to write after it was told, inside a document or at its
beginning, to write an empty element, the text is not accepted back. -/
theorem C64_writer_empty_is_rejected {stk cs} (h : cs = [] ∨ Unclosed stk cs) {n as} (hn : IsName n)
    (ha : ∀ p ∈ as, IsName p.1 ∧ AttrValue p.2) (more : List Call) (d : Int) :
    ∃ text evs, rawText [] d (cs ++ .start n as true :: more) = some text ∧
      ∀ done, send newParser text done = (evs, .raised .runtime, .dead) := by
  rw [rawText_plain]
  rcases h with rfl | h
  · refine ⟨_, [], rfl, fun done => ?_⟩
    have := (C64_empty_element_tag_raises (TagAt.root (wb := []) (by decide)) (w0 := []) (w1 := []) (by decide)
      hn (encodeAttrs_isAttrs ha) (by decide) ('>' :: more.flatMap Call.plain) done).1
    simpa [Call.plain, startTag] using this
  · obtain ⟨_, evs, w, s, raw, ho, hs, hw⟩ := unclosed_open h
    refine ⟨_, evs ++ textEvents s, rfl, fun done => ?_⟩
    have := (C64_empty_element_tag_raises (TagAt.inside ho hs) (w0 := []) (w1 := []) (by decide)
      hn (encodeAttrs_isAttrs ha) (by decide) ('>' :: more.flatMap Call.plain) done).1
    simpa [Call.plain, startTag, hw] using this

/-- A writer that was told to start `a`, write some text, start and end `b`. -/
example : Unclosed [['a']] [.start ['a'] [(['x'], ['1'])] false, .text ['<'], .start ['b'] [] false,
    .stop ['b']] :=
  .up (n := ['b']) (cs := [.start ['a'] [(['x'], ['1'])] false, .text ['<'], .start ['b'] [] false])
    (.down (cs := [.start ['a'] [(['x'], ['1'])] false, .text ['<']])
      (.text (cs := [.start ['a'] [(['x'], ['1'])] false]) (.root (by decide) (by simp only [AttrValue]; decide)) (by decide))
      (by decide) (by simp)) (by decide)

/-! ### C76 -/

theorem EqualsQuoted.suffix {p t : Str} (h : EqualsQuoted (p ++ t)) : EqualsQuoted t :=
  fun q c r e => h (p ++ q) c r (by simp [e])

theorem cdata_suffix {pat : Char → Bool} {stop} :
    ∀ (r : Str) {m : CMode} {s t : Str}, cdata pat stop m r = .found s t → ∃ p, r = p ++ t := by
  intro r
  induction r with
  | nil => intro m s t h; cases m <;> simp [cdata] at h
  | cons c r ih =>
    intro m s t h
    have key : ∀ {m s}, cdata pat stop m r = .found s t → ∃ p, c :: r = p ++ t := by
      intro m s h
      obtain ⟨p, e⟩ := ih h
      exact ⟨c :: p, by simp [← e]⟩
    have keyp : ∀ {m s d}, (cdata pat stop m r).push d = .found s t → ∃ p, c :: r = p ++ t := by
      intro m s d h
      obtain ⟨s', h', rfl⟩ := CRes.push_found h
      exact key h'
    cases m <;> simp only [cdata] at h
    all_goals repeat' split at h
    all_goals first
      | (cases h; exact ⟨[c], rfl⟩)
      | exact key h
      | exact keyp h
      | cases h

/-- The state of a parser that was fed one text in which '=' is followed by quotation marks. -/
structure NameInv (s : PState) : Prop where
  rest : EqualsQuoted s.rest
  attr : s.st = .attribute → ∀ c t, s.rest = c :: t → isNameStart c = true
  at_ : ∀ p ∈ s.attribs, IsName p.1

theorem Attrs.mem_set_key {a : Attrs} {k v : Str} {p : Str × Str} (h : p ∈ a.set k v) :
    p ∈ a ∨ p.1 = k ∨ ∃ q ∈ a, q.1 = p.1 := by
  induction a with
  | nil => simp [Attrs.set] at h; right; left; rw [h]
  | cons x a ih =>
    obtain ⟨k', v'⟩ := x
    simp only [Attrs.set] at h
    split at h
    · rcases List.mem_cons.1 h with rfl | h
      · right; right; exact ⟨(k', v'), by simp, rfl⟩
      · left; simp [h]
    · rcases List.mem_cons.1 h with rfl | h
      · left; simp
      · rcases ih h with h | h | ⟨q, hq, e⟩
        · left; simp [h]
        · right; left; exact h
        · right; right; exact ⟨q, by simp [hq], e⟩

/-- The attribute names in an event are names. -/
def Event.AttrNames : Event → Prop
  | .start _ as _ => ∀ p ∈ as, IsName p.1
  | _ => True

theorem step_names {s : PState} (h : NameInv s) :
    (∀ s' evs, step false s = .cont s' evs → NameInv s' ∧ ∀ e ∈ evs, e.AttrNames) ∧
    (∀ s' evs, step false s = .pause s' evs → ∀ e ∈ evs, e.AttrNames) := by
  obtain ⟨h1, h2, h3⟩ := h
  obtain ⟨st, rest, pe, gi, at_, stk⟩ := s
  simp only at h1 h2 h3
  have hdw : ∀ {r x : Str}, EqualsQuoted r → dropWs r = x → EqualsQuoted x := by
    intro r x hr hx
    obtain ⟨p, e, _⟩ := dropWs_prefix r
    rw [← hx]; rw [e] at hr; exact hr.suffix
  have hdn : ∀ {r : Str}, EqualsQuoted r → EqualsQuoted (dropName r) := by
    intro r hr
    have e := takeName_dropName r
    rw [e] at hr; exact hr.suffix
  have hcd : ∀ {pat stop m r v x}, EqualsQuoted r → cdata pat stop m r = .found v x → EqualsQuoted x := by
    intro pat stop m r v x hr hx
    obtain ⟨p, e⟩ := cdata_suffix r hx
    rw [e] at hr; exact hr.suffix
  have htl : ∀ {c r}, EqualsQuoted (c :: r) → EqualsQuoted r := fun {c r} h => h.suffix (p := [c])
  have hw : ∀ {x : PState} {s' evs}, wait false x = .cont s' evs → False := by
    intro x s' evs h; simp [wait] at h
  have hwp : ∀ {x : PState} {s' evs}, wait false x = .pause s' evs → evs = [] := by
    intro x s' evs h; exact (wait_pause h).2.2
  constructor <;> intro s' evs h <;> cases st <;> simp only [step] at h
  all_goals first
    | (simp only [stepPreElement] at h)
    | (simp only [stepInElement] at h)
    | (simp only [stepTagGi] at h)
    | (simp only [stepCompleteTag] at h)
    | (simp only [stepCompleteDoc] at h)
    | (simp only [stepAttribute] at h)
  all_goals repeat' split at h
  all_goals first
    | (cases h; done)
    | exact (hw h).elim
    | (rw [hwp h]; simp; done)
    | skip
  all_goals cases h
  all_goals first
    | (rename_i hd hc
       refine ⟨⟨hdw h1 hd, ?_, h3⟩, by simp⟩
       intro _ c t e; cases e; exact hc.2)
    | exact ⟨⟨htl (hdw h1 (by assumption)), by simp, h3⟩, by simp⟩
    | exact ⟨⟨hdw h1 (by assumption), by simp, h3⟩, by simp⟩
    | exact ⟨⟨hdn (htl (hdw h1 (by assumption))), by simp, h3⟩, by simp⟩
    | exact ⟨⟨hcd h1 (by assumption), by simp, h3⟩, by simp [Event.AttrNames]⟩
    | exact ⟨⟨htl (hdw h1 (by assumption)), by simp, by simp⟩, by intro e he; rw [List.mem_singleton] at he; subst he; exact h3⟩
    | exact ⟨⟨htl (hdw h1 (by assumption)), by simp, by simp⟩, by simp [Event.AttrNames]⟩
    | (rename_i hn _ _ hd hq _ _ _ hc
       refine ⟨⟨hcd (htl (htl (hdw (hdn (htl h1)) hd))) hc, by simp, ?_⟩, by simp⟩
       intro p hp
       rcases Attrs.mem_set_key hp with hp | hp | ⟨q, hq, e⟩
       · exact h3 p hp
       · rw [hp]; exact isName_iff.2 ⟨_, _, rfl, h2 rfl _ _ rfl, takeName_all _⟩
       · rw [← e]; exact h3 q hq)
    | (rename_i he _ _ _ hd hq
       subst he
       exact absurd (hdw (hdn (htl h1)) hd [] _ _ rfl) hq)
    | (intro e he; rw [List.mem_singleton] at he; subst he; exact h3)
    | (intro e he; rw [List.mem_singleton] at he; subst he; trivial)

theorem exec_names (s : PState) : NameInv s → ∀ e ∈ (exec false s).1, e.AttrNames := by
  refine exec_induct (done := false) (P := fun s evs _ => NameInv s → ∀ e ∈ evs, e.AttrNames) ?_ ?_ ?_ ?_ s
  · intro s s' evs hs h; exact (step_names h).2 _ _ hs
  · intro s e _ _; simp
  · intro s hs h; simp
  · intro s s' evs evs' o hs ih h e he
    have h1 := (step_names h).1 _ _ hs
    rcases List.mem_append.1 he with he | he
    · exact h1.2 e he
    · exact ih h1.1 e he

/-- C76 (partial).  Whatever is fed, in whatever fragments, the name of every element delivered is a name
or empty.  And if one text is fed in one piece in which every '=' is followed by a quotation mark, the names
of the attributes delivered are names too.  Missing: element names can be empty and attribute names can be
any single character followed by name characters, as the next theorem shows. -/
theorem C76_names_partial :
    (∀ hist : List (Str × Bool), ∀ ev ∈ (sends newParser hist).1, ∀ m ∈ ev.names,
      (∀ n as anc, ev = .start n as anc → m ∉ as.map (·.1) → m = [] ∨ IsName m) ∧
      (∀ n anc, ev = .stop n anc → m = [] ∨ IsName m)) ∧
    ∀ w, EqualsQuoted w → ∀ ev ∈ (send newParser w false).1, ∀ n as anc, ev = .start n as anc →
      ∀ k ∈ as.map (·.1), IsName k := by
  constructor
  · intro hist ev hev m hm
    have hl := C08_only_legal_characters hist ev hev
    constructor
    · rintro n as anc rfl hna
      simp only [Event.names, List.mem_cons, List.mem_append] at hm
      rcases hm with rfl | hm | hm
      · exact hl.1
      · exact absurd hm hna
      · exact hl.2.2 m hm
    · rintro n anc rfl
      simp only [Event.names, List.mem_cons] at hm
      rcases hm with rfl | hm
      · exact hl.1
      · exact hl.2 m hm
  · rintro w hw ev hev n as anc rfl k hk
    by_cases h0 : w = []
    · subst h0; simp [send, newParser] at hev
    have key : Event.start n as anc ∈ (exec false { PState.init with rest := w }).1 := by
      rw [send_new w h0] at hev
      split at hev <;> exact hev
    obtain ⟨p, hp, rfl⟩ := List.mem_map.1 hk
    exact exec_names _ ⟨hw, by simp [PState.init], by simp [PState.init]⟩ _ key p hp

/-- The full statement fails: `<></>` is parsed as an element without name, `<a x===''></a>` has an attribute
called '='; and a value that is never closed, when the end of the input is announced with it, or that is
divided between fragments, is read again as an attribute, whose name then begins with the quotation mark. -/
theorem C76_full_statement_is_false :
    (send newParser "<></>".toList false).1 = [.start [] [] [], .stop [] []] ∧
    (send newParser "<a x===''></a>".toList false).1 = [.start ['a'] [(['='], [])] [], .stop ['a'] []] ∧
    (send newParser "<a x=\"v='w'></a>".toList true).1 =
      [.start ['a'] [(['"', 'v'], ['w'])] [], .stop ['a'] []] ∧
    (sendAll newParser ["<a x=\"v".toList, "='w'></a>".toList]).1 =
      [.start ['a'] [(['"', 'v'], ['w'])] [], .stop ['a'] []] ∧
    (∀ r, ¬ IsName ('"' :: r)) ∧ ¬ IsName [] ∧ ¬ IsName ['='] := by
  refine ⟨by decide, by decide, by decide, by decide, ?_, by decide, by decide⟩
  rintro r ⟨c, t, e, hc, _⟩
  cases e
  exact absurd hc (by decide)

/-- The texts the second half of the theorem is about include ordinary tags with attributes. -/
example : EqualsQuoted "<a x='1' y=\"b\">c</a>".toList := by
  intro p c t h
  have : ∀ (w : Str), w = p ++ '=' :: c :: t → (∃ i, w[i]? = some '=' ∧ w[i+1]? = some c) := by
    rintro w rfl
    exact ⟨p.length, by simp, by simp⟩
  obtain ⟨i, h1, h2⟩ := this _ h
  have hi : i < 20 := by
    rcases Nat.lt_or_ge i 20 with h | h
    · exact h
    · rw [List.getElem?_eq_none (by simpa using h)] at h1; cases h1
  have : ∀ i < 20, "<a x='1' y=\"b\">c</a>".toList[i]? = some '=' →
      "<a x='1' y=\"b\">c</a>".toList[i+1]? = some '"' ∨
      "<a x='1' y=\"b\">c</a>".toList[i+1]? = some '\'' := by decide
  rcases this i hi h1 with e | e
  · rw [e] at h2; cases h2; exact .inl rfl
  · rw [e] at h2; cases h2; exact .inr rfl

end Amara
