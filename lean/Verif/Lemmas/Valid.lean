import Verif.Lemmas.Exec
import Verif.Lemmas.Chars
import Verif.Lemmas.Dict
/-
The parser on spellings of an element.
-/
namespace Amara

/-- Some steps of the inner loop and the events they deliver. -/
inductive Reach (done : Bool) : PState → List Event → PState → Prop
  | refl (s) : Reach done s [] s
  | head {s s1 s2 e1 e2} : step done s = .cont s1 e1 → Reach done s1 e2 s2 →
      Reach done s (e1 ++ e2) s2

theorem Reach.one {done s s' e} (h : step done s = .cont s' e) : Reach done s e s' := by
  simpa using Reach.head h (Reach.refl _)

theorem Reach.trans {done s s1 s2 e1 e2} (h1 : Reach done s e1 s1) (h2 : Reach done s1 e2 s2) :
    Reach done s (e1 ++ e2) s2 := by
  induction h1 with
  | refl => simpa using h2
  | head h _ ih => rw [List.append_assoc]; exact .head h (ih h2)

theorem exec_reach {done s s' e} (h : Reach done s e s') :
    exec done s = (e ++ (exec done s').1, (exec done s').2) := by
  induction h with
  | refl => simp
  | head h _ ih => rw [exec_cont h, ih]; simp

/-! ### character data -/

theorem cdata_named {pat stop} : ∀ (n acc : Str) (t : Str), (∀ c ∈ n, isNamedRefChar c = true) →
    cdata pat stop (.named acc) (n ++ ';' :: t) =
      match charName (acc.reverse ++ n) with
      | some ch => (cdata pat stop .txt t).push ch
      | none => .fail .runtime := by
  intro n
  induction n with
  | nil =>
    intro acc t _
    have : isNamedRefChar ';' = false := by decide
    simp [cdata, this]; rfl
  | cons c n ih =>
    intro acc t h
    simp only [List.cons_append, cdata, h c (by simp), if_true]
    rw [ih (c :: acc) t (fun d hd => h d (by simp [hd]))]
    simp

theorem cdata_hex {pat stop} : ∀ (n acc : Str) (t : Str), (∀ c ∈ n, isHexDigit c = true) →
    cdata pat stop (.hex acc) (n ++ ';' :: t) =
      match hexRef (acc.reverse ++ n) with
      | .ok ch => (cdata pat stop .txt t).push ch
      | .error e => .fail e := by
  intro n
  induction n with
  | nil =>
    intro acc t _
    have : isHexDigit ';' = false := by decide
    simp [cdata, this]; rfl
  | cons c n ih =>
    intro acc t h
    simp only [List.cons_append, cdata, h c (by simp), if_true]
    rw [ih (c :: acc) t (fun d hd => h d (by simp [hd]))]
    simp

theorem namedRefs_ok : ∀ p ∈ namedRefs, charName p.1.toList = some p.2 ∧
    (∀ c ∈ p.1.toList, isNamedRefChar c = true) ∧ p.1.toList ≠ [] := by decide

/-- Reading a spelling up to the stop character gives the characters spelt. -/
theorem cdata_spells {pat : Char → Bool} {lit : Char → Prop} {stop : Char} {s w : Str}
    (hs : Spells lit s w) (hp : ∀ c, lit c → pat c = true) (hamp : pat '&' = false)
    (hstop : pat stop = false) (hsa : stop ≠ '&') (t : Str) :
    cdata pat stop .txt (w ++ stop :: t) = .found s t := by
  have hsa' : ¬ '&' = stop := fun h => hsa h.symm
  induction hs with
  | nil => simp [cdata, hstop]
  | lit hc _ ih => simp [cdata, hp _ hc, ih, CRes.push]
  | @named n c s w hn _ ih =>
    obtain ⟨h1, h2, h3⟩ := namedRefs_ok _ hn
    obtain ⟨d, ds, hd⟩ : ∃ d ds, n.toList = d :: ds := by
      cases hh : n.toList with
      | nil => exact absurd hh h3
      | cons d ds => exact ⟨d, ds, rfl⟩
    have hdn : isNamedRefChar d = true := h2 d (by simp [hd])
    have hne : d ≠ '#' := by rintro rfl; revert hdn; decide
    simp only [List.cons_append, cdata, hamp, hsa', if_false, if_true, hd, hne, hdn, Bool.false_eq_true]
    rw [List.append_assoc, List.cons_append, cdata_named ds [d] _ (fun c hc => h2 c (by simp [hd, hc]))]
    simp only [List.reverse_cons, List.reverse_nil, List.nil_append, List.cons_append, ← hd, h1, ih,
      CRes.push]
  | @hex ds c s w h0 h1 h2 h3 _ ih =>
    have hr := hexRef_of h0 h1 h2 h3
    simp only [List.cons_append, cdata, hamp, hsa', if_false, if_true, Bool.false_eq_true]
    rw [List.append_assoc, List.cons_append,
      cdata_hex ds [] _ (fun d hd => (hexDigit_agree d).1.2 (h1 d hd))]
    simp only [List.reverse_nil, List.nil_append, hr, ih, CRes.push]

theorem cdata_text {s w : Str} (hs : Spells TextLit s w) (t : Str) :
    cdata isDataChar '<' .txt (w ++ '<' :: t) = .found s t :=
  cdata_spells hs (fun c h => (isDataChar_iff c).2 h) (by decide) (by decide) (by decide) t

theorem cdata_attr {q : Char} (hq : q = '"' ∨ q = '\'') {s w : Str} (hs : Spells (AttrLit q) s w)
    (t : Str) : cdata (attrPat q) q .txt (w ++ q :: t) = .found s t := by
  refine cdata_spells hs (fun c h => (attrPat_iff hq c).2 h) ?_ ?_ ?_ t <;>
    rcases hq with rfl | rfl <;> decide

/-! ### white space and names -/

theorem dropWs_space {w : Str} (h : Space w) (t : Str) : dropWs (w ++ t) = dropWs t := by
  induction w with
  | nil => rfl
  | cons c w ih =>
    have hc : isWs c = true := (isWs_iff c).2 (h c (by simp))
    simp only [List.cons_append, dropWs, hc, if_true]
    exact ih (fun d hd => h d (by simp [hd]))

theorem dropWs_space_cons {w : Str} (h : Space w) {c : Char} (hc : isWs c = false) (t : Str) :
    dropWs (w ++ c :: t) = c :: t := by
  rw [dropWs_space h, dropWs_of_notWs hc]

theorem takeName_app {n : Str} (h : ∀ c ∈ n, isNameChar c = true) {x : Char}
    (hx : isNameChar x = false) (t : Str) :
    takeName (n ++ x :: t) = n ∧ dropName (n ++ x :: t) = x :: t := by
  induction n with
  | nil => simp [takeName, dropName, hx]
  | cons c n ih =>
    have := ih (fun d hd => h d (by simp [hd]))
    simp [takeName, dropName, h c (by simp), this]

/-- Text that starts with a character that cannot continue a name. -/
def NotNameHead (t : Str) : Prop := ∃ x t', t = x :: t' ∧ isNameChar x = false

theorem notNameHead_gt (t : Str) : NotNameHead ('>' :: t) := ⟨_, _, rfl, by decide⟩
theorem notNameHead_eq (t : Str) : NotNameHead ('=' :: t) := ⟨_, _, rfl, by decide⟩

theorem notNameHead_space {w : Str} (h : Space w) {t : Str} (ht : NotNameHead t) :
    NotNameHead (w ++ t) := by
  cases w with
  | nil => exact ht
  | cons c w => exact ⟨c, w ++ t, rfl, isNameChar_ws ((isWs_iff c).2 (h c (by simp)))⟩

theorem notNameHead_attrs {kvs wa} (h : IsAttrs kvs wa) {t : Str} (ht : NotNameHead t) :
    NotNameHead (wa ++ t) := by
  cases h with
  | nil => exact ht
  | @cons k v raw w1 w2 q kvs w hne hw1 =>
    cases w1 with
    | nil => exact absurd rfl hne
    | cons c w1 =>
      exact ⟨c, _, by rw [List.append_assoc]; rfl, isNameChar_ws ((isWs_iff c).2 (hw1 c (by simp)))⟩

/-! ### tags -/

/-- The attributes of a start tag. -/
theorem reach_attrs {done : Bool} {kvs wa} (h : IsAttrs kvs wa) : ∀ (t gi : Str) (at_ : Attrs)
    (stk : List Str),
    Reach done ⟨.completeTag, wa ++ t, false, gi, at_, stk⟩ []
      ⟨.completeTag, t, false, gi, kvs.foldl (fun (a : Attrs) p => a.set p.1 p.2) at_, stk⟩ := by
  induction h with
  | nil => intro t gi at_ stk; exact .refl _
  | @cons k v raw w1 w2 q kvs w _ hw1 hk hw2 hq hs _ ih =>
    intro t gi at_ stk
    obtain ⟨c, r, rfl, hc, hr⟩ := isName_iff.1 hk
    have e1 : w1 ++ (c :: r ++ (w2 ++ '=' :: q :: (raw ++ q :: w))) ++ t =
        w1 ++ c :: (r ++ (w2 ++ '=' :: q :: (raw ++ q :: (w ++ t)))) := by simp
    rw [e1]
    have s1 : step done ⟨.completeTag, w1 ++ c :: (r ++ (w2 ++ '=' :: q :: (raw ++ q :: (w ++ t)))),
        false, gi, at_, stk⟩ =
        .cont ⟨.attribute, c :: (r ++ (w2 ++ '=' :: q :: (raw ++ q :: (w ++ t)))), false, gi, at_, stk⟩
          [] := by
      simp [step, stepCompleteTag, dropWs_space_cons hw1 (isWs_nameStart hc), hc]
    obtain ⟨x, t', hx, hxn⟩ := notNameHead_space hw2
      (notNameHead_eq (q :: (raw ++ q :: (w ++ t))))
    have htd := takeName_app hr hxn t'
    rw [← hx] at htd
    have hdw : dropWs (w2 ++ '=' :: q :: (raw ++ q :: (w ++ t))) =
        '=' :: q :: (raw ++ q :: (w ++ t)) := dropWs_space_cons hw2 (by decide) _
    have hne : w2 ++ '=' :: q :: (raw ++ q :: (w ++ t)) ≠ [] := by simp
    have s2 : step done ⟨.attribute, c :: (r ++ (w2 ++ '=' :: q :: (raw ++ q :: (w ++ t)))), false,
        gi, at_, stk⟩ =
        .cont ⟨.completeTag, w ++ t, false, gi, at_.set (c :: r) v, stk⟩ [] := by
      simp only [step, stepAttribute, htd.1, htd.2, hne, if_false, hdw, if_true, hq,
        cdata_attr hq hs]
    exact .head s1 (.head s2 (ih _ _ _ _))

/-- A start tag, from just after its '<'. -/
theorem reach_startTag {done : Bool} {n wa w0 w1 kvs} (hn : IsName n) (ha : IsAttrs kvs wa)
    (hw0 : Space w0) (hw1 : Space w1) {x : Char} {t : Str} {pe gi stk} :
    Reach done ⟨.preTagGi, w0 ++ (n ++ (wa ++ (w1 ++ '>' :: (x :: t)))), pe, gi, [], stk⟩
      [.start n (dictOf kvs) stk.reverse]
      ⟨.inElement, x :: t, false, n, [], n :: stk⟩ := by
  obtain ⟨c, r, rfl, hc, hr⟩ := isName_iff.1 hn
  obtain ⟨y, t', hy, hyn⟩ := notNameHead_attrs ha (notNameHead_space hw1
    (notNameHead_gt (x :: t)))
  have htd := takeName_app hr hyn t'
  rw [← hy] at htd
  have hne : wa ++ (w1 ++ '>' :: (x :: t)) ≠ [] := by simp
  have s1 : step done ⟨.preTagGi, w0 ++ ((c :: r) ++ (wa ++ (w1 ++ '>' :: (x :: t)))), pe, gi, [],
      stk⟩ = .cont ⟨.completeTag, wa ++ (w1 ++ '>' :: (x :: t)), false, c :: r, [], stk⟩ [] := by
    simp only [step, stepTagGi, List.cons_append, dropWs_space_cons hw0 (isWs_nameStart hc),
      (nameStart_ne hc).1, and_false, if_false, hc, if_true, htd.1, htd.2, hne]
    simp
  have s2 : step done ⟨.completeTag, w1 ++ '>' :: (x :: t), false, c :: r, dictOf kvs, stk⟩ =
      .cont ⟨.inElement, x :: t, false, c :: r, [], (c :: r) :: stk⟩
        [.start (c :: r) (dictOf kvs) stk.reverse] := by
    have h1 : isNameStart '>' = false := by decide
    simp [step, stepCompleteTag, dropWs_space_cons hw1 (c := '>') (by decide), h1]
  have := reach_attrs (done := done) ha (w1 ++ '>' :: (x :: t)) (c :: r) [] stk
  rw [foldl_set_dictOf] at this
  exact .head s1 (this.trans (.one s2))

/-- The state after the end tag of an element. -/
def afterEnd (stk : List Str) : St := if stk = [] then .completeDoc else .inElement

/-- An end tag, from just after its '<', up to its '>'. -/
theorem reach_endTag {done : Bool} {n w2 w3 w4} (hn : IsName n) (hw2 : Space w2)
    (hw3 : Space w3) (hw4 : Space w4) {t : Str} {pe gi stk} :
    Reach done ⟨.preTagGi, w2 ++ '/' :: (w3 ++ (n ++ (w4 ++ '>' :: t))), pe, gi, [], n :: stk⟩ []
      ⟨.completeTag, w4 ++ '>' :: t, true, n, [], n :: stk⟩ := by
  obtain ⟨c, r, rfl, hc, hr⟩ := isName_iff.1 hn
  obtain ⟨y, t', hy, hyn⟩ := notNameHead_space hw4 (notNameHead_gt t)
  have htd := takeName_app hr hyn t'
  rw [← hy] at htd
  have hne : w4 ++ '>' :: t ≠ [] := by simp
  have s1 : step done ⟨.preTagGi, w2 ++ '/' :: (w3 ++ ((c :: r) ++ (w4 ++ '>' :: t))), pe, gi, [],
      (c :: r) :: stk⟩ = .cont ⟨.preCompleteTagGi, w3 ++ ((c :: r) ++ (w4 ++ '>' :: t)), true, gi, [],
        (c :: r) :: stk⟩ [] := by
    simp [step, stepTagGi, dropWs_space_cons hw2 (c := '/') (by decide)]
  have s2 : step done ⟨.preCompleteTagGi, w3 ++ ((c :: r) ++ (w4 ++ '>' :: t)), true, gi, [],
        (c :: r) :: stk⟩ = .cont ⟨.completeTag, w4 ++ '>' :: t, true, c :: r, [], (c :: r) :: stk⟩ [] := by
    simp only [step, stepTagGi, List.cons_append, dropWs_space_cons hw3 (isWs_nameStart hc),
      reduceCtorEq, false_and, if_false, hc, if_true, htd.1, htd.2, hne]
    simp
  exact .head s1 (.one s2)

theorem step_endTag_cont {done : Bool} {n w4} (hw4 : Space w4) {x : Char} {t : Str} {stk} :
    step done ⟨.completeTag, w4 ++ '>' :: (x :: t), true, n, [], n :: stk⟩ =
      .cont ⟨afterEnd stk, x :: t, true, n, [], stk⟩ [.stop n stk.reverse] := by
  simp [step, stepCompleteTag, dropWs_space_cons hw4 (c := '>') (by decide), afterEnd]

theorem step_endTag_pause {done : Bool} {n w4} (hw4 : Space w4) {stk} :
    step done ⟨.completeTag, w4 ++ ['>'], true, n, [], n :: stk⟩ =
      .pause ⟨afterEnd stk, [], true, n, [], stk⟩ [.stop n stk.reverse] := by
  simp [step, stepCompleteTag, dropWs_space_cons hw4 (c := '>') (by decide), afterEnd]

/-! ### content -/

theorem spells_head {s w : Str} (h : Spells TextLit s w) (hs : s ≠ []) :
    ∃ c r, w = c :: r ∧ c ≠ '<' := by
  cases h with
  | nil => exact absurd rfl hs
  | lit hc _ => exact ⟨_, _, rfl, hc.2.2.1⟩
  | named _ _ => exact ⟨_, _, rfl, by decide⟩
  | hex _ _ _ _ _ => exact ⟨_, _, rfl, by decide⟩

/-- Content and the '<' after it. -/
theorem reach_content {done : Bool} {ns w} (h : IsContent ns w) :
    (∀ (t : Str) pe gi stk, stk ≠ [] → ∃ pe' gi',
      Reach done ⟨.inElement, w ++ '<' :: t, pe, gi, [], stk⟩ (Node.eventsList stk.reverse ns)
        ⟨.preTagGi, t, pe', gi', [], stk⟩) ∧
    (∀ w' (t : Str) pe gi stk, w = '<' :: w' → stk ≠ [] → ∃ pe' gi',
      Reach done ⟨.preTagGi, w' ++ '<' :: t, pe, gi, [], stk⟩ (Node.eventsList stk.reverse ns)
        ⟨.preTagGi, t, pe', gi', [], stk⟩) := by
  induction h with
  | nil =>
    refine ⟨?_, by simp⟩
    intro t pe gi stk _
    refine ⟨pe, gi, .one ?_⟩
    have : isDataChar '<' = false := by decide
    simp [step, stepInElement, cdata, this, Node.eventsList]
  | @text s raw ns w hs0 hs hc hns ih =>
    obtain ⟨c, r, hw, hc'⟩ := spells_head hs hs0
    refine ⟨?_, ?_⟩
    · intro t pe gi stk hstk
      -- what follows the text starts with '<'
      have : ∃ w' t', w ++ '<' :: t = '<' :: t' ∧ (∃ pe' gi', Reach done
          ⟨.preTagGi, t', pe, gi, [], stk⟩ (Node.eventsList stk.reverse ns)
          ⟨.preTagGi, t, pe', gi', [], stk⟩) ∧ w' = w := by
        cases hc with
        | nil => exact ⟨_, t, rfl, ⟨pe, gi, .refl _⟩, rfl⟩
        | text => simp [Node.isText] at hns
        | elem => exact ⟨_, _, rfl, ih.2 _ t pe gi stk rfl hstk, rfl⟩
      obtain ⟨w', t', ht', ⟨pe', gi', hr⟩, rfl⟩ := this
      refine ⟨pe', gi', ?_⟩
      rw [List.append_assoc, ht']
      have s1 : step done ⟨.inElement, raw ++ '<' :: t', pe, gi, [], stk⟩ =
          .cont ⟨.preTagGi, t', pe, gi, [], stk⟩ [.chars s] := by
        simp [step, stepInElement, cdata_text hs, hs0]
      exact .head s1 hr
    · intro w' t pe gi stk hw'
      rw [hw] at hw'; cases hw'; exact absurd rfl hc'
  | @elem n kvs wa cs wc ns w w0 w1 w2 w3 w4 hn ha hcs hcns hw0 hw1 hw2 hw3 hw4 ih1 ih2 =>
    have B : ∀ (t : Str) pe gi stk, stk ≠ [] → ∃ pe' gi',
        Reach done ⟨.preTagGi, (w0 ++ (n ++ (wa ++ (w1 ++ '>' :: (wc ++
          ('<' :: (w2 ++ '/' :: (w3 ++ (n ++ (w4 ++ '>' :: w)))))))))) ++ '<' :: t, pe, gi, [], stk⟩
          (Node.eventsList stk.reverse (.elem n (dictOf kvs) cs :: ns))
          ⟨.preTagGi, t, pe', gi', [], stk⟩ := by
      intro t pe gi stk hstk
      obtain ⟨x, tl, hx⟩ : ∃ x tl, wc ++ ('<' :: (w2 ++ '/' :: (w3 ++ (n ++ (w4 ++ '>' ::
          (w ++ '<' :: t)))))) = x :: tl := by cases wc <;> exact ⟨_, _, rfl⟩
      have e1 : (w0 ++ (n ++ (wa ++ (w1 ++ '>' :: (wc ++
          ('<' :: (w2 ++ '/' :: (w3 ++ (n ++ (w4 ++ '>' :: w)))))))))) ++ '<' :: t =
          w0 ++ (n ++ (wa ++ (w1 ++ '>' :: (x :: tl)))) := by
        rw [← hx]; simp
      have r1 := reach_startTag (done := done) hn ha hw0 hw1 (x := x) (t := tl) (pe := pe) (gi := gi)
        (stk := stk)
      rw [← hx] at r1
      obtain ⟨pe1, gi1, r2⟩ := ih1.1 (w2 ++ '/' :: (w3 ++ (n ++ (w4 ++ '>' :: (w ++ '<' :: t))))) false n
        (n :: stk) (by simp)
      have r3 := reach_endTag (done := done) hn hw2 hw3 hw4 (t := w ++ '<' :: t) (pe := pe1)
        (gi := gi1) (stk := stk)
      obtain ⟨y, tl2, hy⟩ : ∃ y tl2, w ++ '<' :: t = y :: tl2 := by cases w <;> exact ⟨_, _, rfl⟩
      have s4 := step_endTag_cont (done := done) hw4 (n := n) (x := y) (t := tl2) (stk := stk)
      rw [← hy] at s4
      have hae : afterEnd stk = .inElement := by simp [afterEnd, hstk]
      rw [hae] at s4
      obtain ⟨pe2, gi2, r5⟩ := ih2.1 t true n stk hstk
      refine ⟨pe2, gi2, ?_⟩
      rw [e1, ← hx]
      have := r1.trans (r2.trans (r3.trans (.head s4 r5)))
      simpa [Node.eventsList, Node.events] using this
    refine ⟨?_, ?_⟩
    · intro t pe gi stk hstk
      obtain ⟨pe', gi', hr⟩ := B t pe gi stk hstk
      refine ⟨pe', gi', ?_⟩
      refine Reach.head (e1 := []) ?_ hr
      have : isDataChar '<' = false := by decide
      simp [step, stepInElement, cdata, this]
    · intro w' t pe gi stk hw' hstk
      cases hw'
      exact B t pe gi stk hstk

/-- A whole document from the initial state: the events, and the parser is at `complete_doc` with
nothing left to read. -/
theorem exec_doc {done : Bool} {e : Node} {w : Str} (h : IsDoc e w) :
    ∃ gi, exec done { PState.init with rest := w } =
      (e.events [], .paused ⟨.completeDoc, [], true, gi, [], []⟩) := by
  obtain ⟨het, wb, w1, wz, hwb, hwz, hc, rfl⟩ := h
  cases hc with
  | text => simp [Node.isText] at het
  | @elem n kvs wa cs wc ns w w0 w1 w2 w3 w4 hn ha hcs hcns hw0 hw1 hw2 hw3 hw4 =>
  cases hcns
  refine ⟨n, ?_⟩
  obtain ⟨x, tl, hx⟩ : ∃ x tl, wc ++ ('<' :: (w2 ++ '/' :: (w3 ++ (n ++ (w4 ++ '>' :: wz))))) =
      x :: tl := by cases wc <;> exact ⟨_, _, rfl⟩
  have e1 : wb ++ (('<' :: (w0 ++ (n ++ (wa ++ (w1 ++ '>' :: (wc ++
      ('<' :: (w2 ++ '/' :: (w3 ++ (n ++ (w4 ++ ['>']))))))))))) ++ wz) =
      wb ++ '<' :: (w0 ++ (n ++ (wa ++ (w1 ++ '>' :: (x :: tl))))) := by
    rw [← hx]; simp
  have s0 : step done { PState.init with rest := wb ++ '<' ::
      (w0 ++ (n ++ (wa ++ (w1 ++ '>' :: (x :: tl))))) } =
      .cont ⟨.preTagGi, w0 ++ (n ++ (wa ++ (w1 ++ '>' :: (x :: tl)))), false, [], [], []⟩ [] := by
    simp [step, stepPreElement, PState.init, dropWs_space_cons hwb (c := '<') (by decide)]
  have r1 := reach_startTag (done := done) hn ha hw0 hw1 (x := x) (t := tl) (pe := false) (gi := [])
    (stk := [])
  rw [← hx] at r1 s0
  obtain ⟨pe1, gi1, r2⟩ := (reach_content (done := done) hcs).1
    (w2 ++ '/' :: (w3 ++ (n ++ (w4 ++ '>' :: wz)))) false n [n] (by simp)
  have r3 := reach_endTag (done := done) hn hw2 hw3 hw4 (t := wz) (pe := pe1) (gi := gi1) (stk := [])
  have R := Reach.head s0 (r1.trans (r2.trans r3))
  rw [e1, ← hx, exec_reach R]
  have fin : exec done ⟨.completeTag, w4 ++ '>' :: wz, true, n, [], [n]⟩ =
      ([.stop n []], .paused ⟨.completeDoc, [], true, n, [], []⟩) := by
    cases wz with
    | nil => rw [exec_pause (step_endTag_pause hw4)]; simp [afterEnd]
    | cons y wz =>
      rw [exec_cont (step_endTag_cont hw4)]
      have hdw : dropWs (y :: wz) = [] := by
        have := dropWs_space hwz []
        simpa [dropWs] using this
      have : exec done ⟨.completeDoc, y :: wz, true, n, [], []⟩ =
          ([], .paused ⟨.completeDoc, [], true, n, [], []⟩) := by
        cases done with
        | false => rw [exec_pause]; simp [step, stepCompleteDoc, hdw, wait]
        | true =>
          have s1 : step true ⟨.completeDoc, y :: wz, true, n, [], []⟩ =
              .cont ⟨.completeDoc, [], true, n, [], []⟩ [] := by
            simp [step, stepCompleteDoc, hdw, wait]
          have s2 : step true ⟨.completeDoc, [], true, n, [], []⟩ =
              .pause ⟨.completeDoc, [], true, n, [], []⟩ [] := by
            simp [step, stepCompleteDoc]
          rw [exec_cont s1, exec_pause s2]; rfl
      simp [afterEnd, this]
  rw [fin]
  simp [Node.events]

end Amara
