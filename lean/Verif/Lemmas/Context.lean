import Verif.Lemmas.Live
import Verif.Spec.Context
/-
Runs of the parser over beginnings of documents.
-/
namespace Amara

/-- A prefix of decoded characters in front of a result. -/
def CRes.pushAll (s : Str) (x : CRes) : CRes := s.foldr CRes.push x

@[simp] theorem CRes.pushAll_more (s : Str) : CRes.pushAll s .more = .more := by
  induction s with
  | nil => rfl
  | cons c s ih => simp [CRes.pushAll] at ih ⊢; rw [ih]; rfl

@[simp] theorem CRes.pushAll_fail (s : Str) (e) : CRes.pushAll s (.fail e) = .fail e := by
  induction s with
  | nil => rfl
  | cons c s ih => simp [CRes.pushAll] at ih ⊢; rw [ih]; rfl

@[simp] theorem CRes.pushAll_found (s v r : Str) : CRes.pushAll s (.found v r) = .found (s ++ v) r := by
  induction s with
  | nil => rfl
  | cons c s ih => simp [CRes.pushAll] at ih ⊢; rw [ih]; rfl

/-- Reading over a spelling. -/
theorem cdata_prefix {pat : Char → Bool} {lit : Char → Prop} {stop : Char} {s w : Str}
    (hs : Spells lit s w) (hp : ∀ c, lit c → pat c = true) (hamp : pat '&' = false)
    (hsa : stop ≠ '&') (t : Str) :
    cdata pat stop .txt (w ++ t) = CRes.pushAll s (cdata pat stop .txt t) := by
  have hsa' : ¬ '&' = stop := fun h => hsa h.symm
  induction hs with
  | nil => rfl
  | lit hc _ ih => simp [cdata, hp _ hc, ih, CRes.pushAll]
  | @named n c s w hn _ ih =>
    obtain ⟨h1, h2, h3⟩ := namedRefs_ok _ hn
    obtain ⟨d, ds, hd⟩ : ∃ d ds, n.toList = d :: ds := by
      cases hh : n.toList with
      | nil => exact absurd hh h3
      | cons d ds => exact ⟨d, ds, rfl⟩
    have hdn : isNamedRefChar d = true := h2 d (by simp [hd])
    have hne : d ≠ '#' := by rintro rfl; revert hdn; decide
    simp only [List.cons_append, cdata, hamp, hsa', if_false, if_true, hd, hne, hdn, Bool.false_eq_true]
    rw [List.append_assoc, List.cons_append, cdata_named ds [d] _ (fun c hc => h2 c (by simp [hd, hc]))]
    simp only [List.reverse_cons, List.reverse_nil, List.nil_append, List.cons_append, ← hd, h1, ih,
      CRes.pushAll, List.foldr_cons]
  | @hex ds c s w h0 h1 h2 h3 _ ih =>
    have hr := hexRef_of h0 h1 h2 h3
    simp only [List.cons_append, cdata, hamp, hsa', if_false, if_true, Bool.false_eq_true]
    rw [List.append_assoc, List.cons_append,
      cdata_hex ds [] _ (fun d hd => (hexDigit_agree d).1.2 (h1 d hd))]
    simp only [List.reverse_nil, List.nil_append, hr, ih, CRes.pushAll, List.foldr_cons]

theorem cdata_text_pre {s w : Str} (hs : Spells TextLit s w) (t : Str) :
    cdata isDataChar '<' .txt (w ++ t) = CRes.pushAll s (cdata isDataChar '<' .txt t) :=
  cdata_prefix hs (fun c h => (isDataChar_iff c).2 h) (by decide) (by decide) t

theorem cdata_attr_pre {q : Char} (hq : q = '"' ∨ q = '\'') {s w : Str} (hs : Spells (AttrLit q) s w)
    (t : Str) : cdata (attrPat q) q .txt (w ++ t) = CRes.pushAll s (cdata (attrPat q) q .txt t) := by
  refine cdata_prefix hs (fun c h => (attrPat_iff hq c).2 h) ?_ ?_ t <;>
    rcases hq with rfl | rfl <;> decide

theorem charName_none {n : Str} (h : ∀ p ∈ namedRefs, p.1.toList ≠ n) : charName n = none := by
  simp only [namedRefs, List.forall_mem_cons] at h
  obtain ⟨h1, h2, h3, h4, h5, _⟩ := h
  simp only [charName]
  rw [if_neg (fun e => h1 (by rw [e]; rfl)), if_neg (fun e => h2 (by rw [e]; rfl)),
    if_neg (fun e => h3 (by rw [e]; rfl)), if_neg (fun e => h4 (by rw [e]; rfl)),
    if_neg (fun e => h5 (by rw [e]; rfl))]

theorem alnum_ne_hash {c : Char} (h : c.isAlphanum = true) : c ≠ '#' := by
  rintro rfl; revert h; decide

theorem cdata_badRef {pat : Char → Bool} {stop : Char} {b : Str} (hb : BadRef b)
    (hamp : pat '&' = false) (hsa : stop ≠ '&') :
    ∃ e, cdata pat stop .txt b = .fail e := by
  have hsa' : ¬ '&' = stop := fun h => hsa h.symm
  cases hb with
  | @name n t hn hu =>
    simp only [cdata, hamp, hsa', if_false, if_true, Bool.false_eq_true]
    cases n with
    | nil => exact ⟨.runtime, by simp [cdata, show isNamedRefChar ';' = false by decide]⟩
    | cons d n =>
      have hd : isNamedRefChar d = true := by rw [isNamedRefChar_eq]; exact hn d (by simp)
      refine ⟨.runtime, ?_⟩
      simp only [List.cons_append, cdata, alnum_ne_hash (hn d (by simp)), if_false, hd, if_true]
      rw [cdata_named n [d] _ (fun c hc => by rw [isNamedRefChar_eq]; exact hn c (by simp [hc]))]
      simp [charName_none hu]
  | @number ds t hd hbad =>
    simp only [cdata, hamp, hsa', if_false, if_true, Bool.false_eq_true]
    have hh : ∀ d ∈ ds, isHexDigit d = true := fun d h => (hexDigit_agree d).1.2 (hd d h)
    rw [cdata_hex ds [] _ hh]
    simp only [List.reverse_nil, List.nil_append]
    cases hx : hexRef ds with
    | error e => exact ⟨e, rfl⟩
    | ok c =>
      exfalso
      obtain ⟨h1, h2, h3⟩ := hexRef_ok hx
      rcases hbad with rfl | hbad
      · exact h1 rfl
      · rw [hexNum_eq ds hh] at h2
        apply hbad; rw [h2]; exact h3
  | @digit ds c t hd hc hsemi =>
    simp only [cdata, hamp, hsa', if_false, if_true, Bool.false_eq_true]
    have hc' : isHexDigit c = false := by
      cases hh : isHexDigit c with
      | false => rfl
      | true => have := (hexDigit_agree c).1.1 hh; rw [hc] at this; cases this
    refine ⟨.runtime, ?_⟩
    have : ∀ acc, cdata pat stop (.hex acc) (ds ++ c :: t) = .fail .runtime := by
      induction ds with
      | nil => intro acc; simp [cdata, hc', hsemi]
      | cons d ds ih =>
        intro acc
        simp only [List.cons_append, cdata, (hexDigit_agree d).1.2 (hd d (by simp)), if_true]
        exact ih (fun x hx => hd x (by simp [hx])) _
    exact this []

theorem cdata_malformed {pat : Char → Bool} {stop : Char} {b : Str} (hb : Malformed b)
    (hamp : pat '&' = false) (hsa : stop ≠ '&') (t : Str) :
    cdata pat stop .txt (b ++ t) = .more := by
  have hsa' : ¬ '&' = stop := fun h => hsa h.symm
  cases hb with
  | @name n c t' hn hc hsemi hh =>
    have hc' : isNamedRefChar c = false := by rw [isNamedRefChar_eq]; exact hc
    simp only [List.cons_append, cdata, hamp, hsa', if_false, if_true, Bool.false_eq_true]
    cases n with
    | nil => simp [cdata, hh rfl, hc', hsemi]
    | cons d n =>
      have hd : isNamedRefChar d = true := by rw [isNamedRefChar_eq]; exact hn d (by simp)
      simp only [List.cons_append, cdata, alnum_ne_hash (hn d (by simp)), if_false, hd, if_true]
      have : ∀ acc, cdata pat stop (.named acc) (n ++ c :: t' ++ t) = .more := by
        have hn' : ∀ x ∈ n, x.isAlphanum = true := fun x hx => hn x (by simp [hx])
        clear hn hh
        induction n with
        | nil => intro acc; simp [cdata, hc', hsemi]
        | cons d n ih =>
          intro acc
          have hd : isNamedRefChar d = true := by rw [isNamedRefChar_eq]; exact hn' d (by simp)
          simp only [List.cons_append, cdata, hd, if_true]
          exact ih (fun x hx => hn' x (by simp [hx])) _
      exact this [d]
  | @number c t' hc =>
    simp [cdata, hamp, hsa', hc]

theorem cdata_partialRef {pat : Char → Bool} {stop : Char} {b : Str} (hb : PartialRef b)
    (hamp : pat '&' = false) (hsa : stop ≠ '&') :
    cdata pat stop .txt b = .more := by
  have hsa' : ¬ '&' = stop := fun h => hsa h.symm
  cases hb with
  | @name n hn =>
    simp only [cdata, hamp, hsa', if_false, if_true, Bool.false_eq_true]
    cases n with
    | nil => rfl
    | cons d n =>
      have hd : isNamedRefChar d = true := by rw [isNamedRefChar_eq]; exact hn d (by simp)
      simp only [cdata, alnum_ne_hash (hn d (by simp)), if_false, hd, if_true]
      have : ∀ acc, cdata pat stop (.named acc) n = .more := by
        have hn' : ∀ x ∈ n, x.isAlphanum = true := fun x hx => hn x (by simp [hx])
        clear hn
        induction n with
        | nil => intro acc; rfl
        | cons d n ih =>
          intro acc
          have hd : isNamedRefChar d = true := by rw [isNamedRefChar_eq]; exact hn' d (by simp)
          simp only [cdata, hd, if_true]
          exact ih (fun x hx => hn' x (by simp [hx])) _
      exact this [d]
  | hash => simp [cdata, hamp, hsa']
  | @number ds hd =>
    simp only [cdata, hamp, hsa', if_false, if_true, Bool.false_eq_true]
    have : ∀ acc, cdata pat stop (.hex acc) ds = .more := by
      induction ds with
      | nil => intro acc; rfl
      | cons d ds ih =>
        intro acc
        simp only [cdata, (hexDigit_agree d).1.2 (hd d (by simp)), if_true]
        exact ih (fun x hx => hd x (by simp [hx])) _
    exact this []

/-- A run without '&' and without the stop character: what is not allowed is dropped. -/
theorem cdata_filter {pat : Char → Bool} {stop : Char} (hstop : pat stop = false) :
    ∀ (u : Str), (∀ c ∈ u, c ≠ '&' ∧ c ≠ stop) → ∀ t,
    cdata pat stop .txt (u ++ stop :: t) = .found (u.filter pat) t := by
  intro u
  induction u with
  | nil => intro _ t; simp [cdata, hstop]
  | cons c u ih =>
    intro h t
    have hc := h c (by simp)
    have := ih (fun x hx => h x (by simp [hx])) t
    simp only [List.cons_append, cdata, this]
    by_cases hp : pat c = true
    · simp [hp, CRes.push]
    · simp [hp, hc.1, hc.2]

/-! ### contexts -/

theorem Open.ne_nil {stk evs w} (h : Open stk evs w) : stk ≠ [] ∧ w ≠ [] := by
  cases h <;> simp_all

theorem textEvents_step {done : Bool} {s raw : Str} (hs : Spells TextLit s raw) (t pe gi at_ stk) :
    step done ⟨.inElement, raw ++ '<' :: t, pe, gi, at_, stk⟩ =
      .cont ⟨.preTagGi, t, pe, gi, at_, stk⟩ (textEvents s) := by
  simp [step, stepInElement, cdata_text hs, textEvents]

theorem reach_open {done : Bool} {stk evs w} (h : Open stk evs w) : ∀ (x : Char) (t : Str),
    ∃ pe gi, Reach done { PState.init with rest := w ++ x :: t } evs
      ⟨.inElement, x :: t, pe, gi, [], stk⟩ := by
  induction h with
  | @root n kvs wa wb w0 w1 hwb hn ha hw0 hw1 =>
    intro x t
    refine ⟨false, n, ?_⟩
    have s0 : step done { PState.init with rest := wb ++ '<' ::
        (w0 ++ (n ++ (wa ++ (w1 ++ '>' :: (x :: t))))) } =
        .cont ⟨.preTagGi, w0 ++ (n ++ (wa ++ (w1 ++ '>' :: (x :: t)))), false, [], [], []⟩ [] := by
      simp [step, stepPreElement, PState.init, dropWs_space_cons hwb (c := '<') (by decide)]
    have r1 := reach_startTag (done := done) hn ha hw0 hw1 (x := x) (t := t) (pe := false) (gi := [])
      (stk := [])
    have := Reach.head s0 r1
    simpa using this
  | @down stk evs w s raw n kvs wa w0 w1 _ hs hn ha hw0 hw1 ih =>
    intro x t
    refine ⟨false, n, ?_⟩
    obtain ⟨y, t', hy⟩ : ∃ y t', raw ++ '<' :: (w0 ++ (n ++ (wa ++ (w1 ++ '>' :: (x :: t))))) = y :: t' := by
      cases raw <;> exact ⟨_, _, rfl⟩
    obtain ⟨pe, gi, r0⟩ := ih y t'
    rw [← hy] at r0
    have r1 := reach_startTag (done := done) hn ha hw0 hw1 (x := x) (t := t) (pe := pe) (gi := gi)
      (stk := stk)
    have := r0.trans (Reach.head (textEvents_step hs _ _ _ _ _) r1)
    simpa using this
  | @up n stk evs w s raw w2 w3 w4 _ hstk hs hn hw2 hw3 hw4 ih =>
    intro x t
    refine ⟨true, n, ?_⟩
    obtain ⟨y, t', hy⟩ : ∃ y t', raw ++ '<' :: (w2 ++ '/' :: (w3 ++ (n ++ (w4 ++ '>' :: (x :: t))))) =
        y :: t' := by
      cases raw <;> exact ⟨_, _, rfl⟩
    obtain ⟨pe, gi, r0⟩ := ih y t'
    rw [← hy] at r0
    have r1 := reach_endTag (done := done) hn hw2 hw3 hw4 (t := x :: t) (pe := pe) (gi := gi)
      (stk := stk)
    have s2 := step_endTag_cont (done := done) hw4 (n := n) (x := x) (t := t) (stk := stk)
    simp only [afterEnd, hstk, if_false] at s2
    have := r0.trans (Reach.head (textEvents_step hs _ _ _ _ _) (r1.trans (.one s2)))
    simpa using this

/-- The text up to the tag: the parser waits at the start of content. -/
theorem exec_open {done : Bool} {stk evs w} (h : Open stk evs w) :
    ∃ pe gi, exec done { PState.init with rest := w } =
      (evs, .paused ⟨.inElement, [], pe, gi, [], stk⟩) := by
  cases h with
  | @root n kvs wa wb w0 w1 hwb hn ha hw0 hw1 =>
    refine ⟨false, n, ?_⟩
    -- run up to the '>' with something after it, then redo the last step
    obtain ⟨c, r, rfl, hc, hr⟩ := isName_iff.1 hn
    obtain ⟨y, t', hy, hyn⟩ := notNameHead_attrs ha (notNameHead_space hw1 (notNameHead_gt []))
    have htd := takeName_app hr hyn t'
    rw [← hy] at htd
    have hne : wa ++ (w1 ++ ['>']) ≠ [] := by simp
    have s0 : step done { PState.init with rest := wb ++ '<' ::
        (w0 ++ ((c :: r) ++ (wa ++ (w1 ++ ['>'])))) } =
        .cont ⟨.preTagGi, w0 ++ ((c :: r) ++ (wa ++ (w1 ++ ['>']))), false, [], [], []⟩ [] := by
      simp [step, stepPreElement, PState.init, dropWs_space_cons hwb (c := '<') (by decide)]
    have s1 : step done ⟨.preTagGi, w0 ++ ((c :: r) ++ (wa ++ (w1 ++ ['>']))), false, [], [],
        []⟩ = .cont ⟨.completeTag, wa ++ (w1 ++ ['>']), false, c :: r, [], []⟩ [] := by
      simp only [step, stepTagGi, List.cons_append, dropWs_space_cons hw0 (isWs_nameStart hc),
        (nameStart_ne hc).1, and_false, if_false, hc, if_true, htd.1, htd.2, hne]
      simp
    have r2 := reach_attrs (done := done) ha (w1 ++ ['>']) (c :: r) [] []
    rw [foldl_set_dictOf] at r2
    have R := Reach.head s0 (Reach.head s1 r2)
    rw [exec_reach R]
    have s3 : step done ⟨.completeTag, w1 ++ ['>'], false, c :: r, dictOf kvs, []⟩ =
        .pause ⟨.inElement, [], false, c :: r, [], [c :: r]⟩
          [.start (c :: r) (dictOf kvs) []] := by
      have h1 : isNameStart '>' = false := by decide
      simp [step, stepCompleteTag, dropWs_space_cons hw1 (c := '>') (by decide), h1]
    rw [exec_pause s3]; simp
  | @down stk evs w s raw n kvs wa w0 w1 ho hs hn ha hw0 hw1 =>
    refine ⟨false, n, ?_⟩
    obtain ⟨c, r, rfl, hc, hr⟩ := isName_iff.1 hn
    obtain ⟨y, t', hy, hyn⟩ := notNameHead_attrs ha (notNameHead_space hw1 (notNameHead_gt []))
    have htd := takeName_app hr hyn t'
    rw [← hy] at htd
    have hne : wa ++ (w1 ++ ['>']) ≠ [] := by simp
    obtain ⟨z, tz, hz⟩ : ∃ y t', raw ++ '<' :: (w0 ++ ((c :: r) ++ (wa ++ (w1 ++ ['>'])))) = y :: t' := by
      cases raw <;> exact ⟨_, _, rfl⟩
    obtain ⟨pe, gi, r0⟩ := reach_open (done := done) ho z tz
    rw [← hz] at r0
    have s1 : step done ⟨.preTagGi, w0 ++ ((c :: r) ++ (wa ++ (w1 ++ ['>']))), pe, gi, [],
        stk⟩ = .cont ⟨.completeTag, wa ++ (w1 ++ ['>']), false, c :: r, [], stk⟩ [] := by
      simp only [step, stepTagGi, List.cons_append, dropWs_space_cons hw0 (isWs_nameStart hc),
        (nameStart_ne hc).1, and_false, if_false, hc, if_true, htd.1, htd.2, hne]
      simp
    have r2 := reach_attrs (done := done) ha (w1 ++ ['>']) (c :: r) [] stk
    rw [foldl_set_dictOf] at r2
    have R := r0.trans (Reach.head (textEvents_step hs _ _ _ _ _) (Reach.head s1 r2))
    rw [exec_reach R]
    have s3 : step done ⟨.completeTag, w1 ++ ['>'], false, c :: r, dictOf kvs, stk⟩ =
        .pause ⟨.inElement, [], false, c :: r, [], (c :: r) :: stk⟩
          [.start (c :: r) (dictOf kvs) stk.reverse] := by
      have h1 : isNameStart '>' = false := by decide
      simp [step, stepCompleteTag, dropWs_space_cons hw1 (c := '>') (by decide), h1]
    rw [exec_pause s3]; simp
  | @up n stk evs w s raw w2 w3 w4 ho hstk hs hn hw2 hw3 hw4 =>
    refine ⟨true, n, ?_⟩
    obtain ⟨y, t', hy⟩ : ∃ y t', raw ++ '<' :: (w2 ++ '/' :: (w3 ++ (n ++ (w4 ++ ['>'])))) =
        y :: t' := by
      cases raw <;> exact ⟨_, _, rfl⟩
    obtain ⟨pe, gi, r0⟩ := reach_open (done := done) ho y t'
    rw [← hy] at r0
    have r1 := reach_endTag (done := done) hn hw2 hw3 hw4 (t := []) (pe := pe) (gi := gi)
      (stk := stk)
    have s2 := step_endTag_pause (done := done) hw4 (n := n) (stk := stk)
    simp only [afterEnd, hstk, if_false] at s2
    have R := r0.trans (Reach.head (textEvents_step hs _ _ _ _ _) r1)
    rw [exec_reach R, exec_pause s2]; simp

/-- Up to the '<' of a tag. -/
theorem reach_tagAt {done : Bool} {stk evs w} (h : TagAt stk evs w) (t : Str) :
    ∃ pe gi, Reach done { PState.init with rest := w ++ t } evs ⟨.preTagGi, t, pe, gi, [], stk⟩ := by
  cases h with
  | @root wb hwb =>
    refine ⟨false, [], .one ?_⟩
    simp [step, stepPreElement, PState.init, dropWs_space_cons hwb (c := '<') (by decide)]
  | @inside stk evs w s raw ho hs =>
    obtain ⟨y, t', hy⟩ : ∃ y t', raw ++ '<' :: t = y :: t' := by cases raw <;> exact ⟨_, _, rfl⟩
    obtain ⟨pe, gi, r0⟩ := reach_open (done := done) ho y t'
    rw [← hy] at r0
    refine ⟨pe, gi, ?_⟩
    have := r0.trans (Reach.one (textEvents_step hs _ _ _ _ _))
    simpa using this

theorem send_new (w : Str) (hw : w ≠ []) (done : Bool) :
    send newParser w done =
      match (exec done { PState.init with rest := w }).2 with
      | .paused s' => ((exec done { PState.init with rest := w }).1, .returned,
          if done then .finished else .awaiting s')
      | .raised e => ((exec done { PState.init with rest := w }).1, .raised e, .dead)
      | .running s' => ((exec done { PState.init with rest := w }).1, .never, .hung s') := by
  have := send_awaiting PState.init hw done
  simp only [PState.app, PState.init, List.nil_append] at this
  exact this

/-- Up to the quote of an attribute value in a start tag, and the value. -/
theorem reach_attrValue {done : Bool} {stk evs w n kvs wa w0 w1 k w2 q} (h : TagAt stk evs w)
    (hw0 : Space w0) (hn : IsName n) (ha : IsAttrs kvs wa) (hw1 : w1 ≠ []) (hw1' : Space w1)
    (hk : IsName k) (t : Str) :
    Reach done { PState.init with rest := w ++ (w0 ++ (n ++ (wa ++ (w1 ++ (k ++ (w2 ++ '=' :: q :: t)))))) }
      evs ⟨.attribute, k ++ (w2 ++ '=' :: q :: t), false, n, dictOf kvs, stk⟩ := by
  obtain ⟨pe, gi, r0⟩ := reach_tagAt (done := done) h
    (w0 ++ (n ++ (wa ++ (w1 ++ (k ++ (w2 ++ '=' :: q :: t))))))
  obtain ⟨c, r, rfl, hc, hr⟩ := isName_iff.1 hn
  obtain ⟨ck, rk, rfl, hck, hrk⟩ := isName_iff.1 hk
  have hsp : NotNameHead (w1 ++ (ck :: rk ++ (w2 ++ '=' :: q :: t))) := by
    cases w1 with
    | nil => exact absurd rfl hw1
    | cons x w1 => exact ⟨x, _, rfl, isNameChar_ws ((isWs_iff x).2 (hw1' x (by simp)))⟩
  obtain ⟨y, t', hy, hyn⟩ := notNameHead_attrs ha hsp
  have htd := takeName_app hr hyn t'
  rw [← hy] at htd
  have hne : wa ++ (w1 ++ (ck :: rk ++ (w2 ++ '=' :: q :: t))) ≠ [] := by simp
  have s1 : step done ⟨.preTagGi, w0 ++ ((c :: r) ++ (wa ++ (w1 ++ (ck :: rk ++ (w2 ++ '=' :: q :: t))))),
      pe, gi, [], stk⟩ = .cont ⟨.completeTag, wa ++ (w1 ++ (ck :: rk ++ (w2 ++ '=' :: q :: t))), false,
        c :: r, [], stk⟩ [] := by
    simp only [step, stepTagGi, dropWs_space_cons hw0 (isWs_nameStart hc), List.cons_append,
      (nameStart_ne hc).1, and_false, if_false, hc, if_true]
    simp only [List.cons_append] at htd hne
    simp only [htd.1, htd.2, hne, if_false]
    simp
  have r2 := reach_attrs (done := done) ha (w1 ++ (ck :: rk ++ (w2 ++ '=' :: q :: t))) (c :: r) [] stk
  rw [foldl_set_dictOf] at r2
  have s3 : step done ⟨.completeTag, w1 ++ (ck :: rk ++ (w2 ++ '=' :: q :: t)), false, c :: r,
      dictOf kvs, stk⟩ = .cont ⟨.attribute, ck :: rk ++ (w2 ++ '=' :: q :: t), false, c :: r,
        dictOf kvs, stk⟩ [] := by
    simp [step, stepCompleteTag, dropWs_space_cons hw1' (isWs_nameStart hck), hck]
  have := r0.trans (Reach.head s1 (r2.trans (.one s3)))
  simpa using this

theorem step_attrValue {done : Bool} {k w2 q} (hk : IsName k) (hw2 : Space w2)
    (hq : q = '"' ∨ q = '\'') (t n at_ stk) :
    step done ⟨.attribute, k ++ (w2 ++ '=' :: q :: t), false, n, at_, stk⟩ =
      match cdata (attrPat q) q .txt t with
      | .found v r5 => .cont ⟨.completeTag, r5, false, n, at_.set k v, stk⟩ []
      | .more => wait done ⟨.attribute, q :: t, false, n, at_, stk⟩
      | .fail e => .fail e := by
  obtain ⟨c, r, rfl, hc, hr⟩ := isName_iff.1 hk
  obtain ⟨y, t', hy, hyn⟩ := notNameHead_space hw2 (notNameHead_eq (q :: t))
  have htd := takeName_app hr hyn t'
  rw [← hy] at htd
  have hdw : dropWs (w2 ++ '=' :: q :: t) = '=' :: q :: t := dropWs_space_cons hw2 (by decide) _
  have hne : w2 ++ '=' :: q :: t ≠ [] := by simp
  simp only [step, stepAttribute, List.cons_append, htd.1, htd.2, hne, if_false, hdw, if_true, hq]
  rfl

end Amara
