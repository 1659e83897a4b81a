import Verif.Lemmas.Live
import Verif.Lemmas.Valid
import Verif.Lemmas.Context
import Verif.Spec.Prompt
/-
Counting angle brackets against events.
-/
namespace Amara

/-- 1 between a '<' and its '>', 0 elsewhere. -/
def inTag : St → Nat
  | .preElement => 0
  | .inElement => 0
  | .completeDoc => 0
  | .preTagGi => 1
  | .preCompleteTagGi => 1
  | .completeTag => 1
  | .attribute => 1

def inTagO : Status → Nat
  | .paused s => inTag s.st
  | _ => 0

abbrev tags (l : List Event) : Nat := l.countP Event.isTag

theorem tags_append (a b : List Event) : tags (a ++ b) = tags a + tags b := List.countP_append

theorem suffix_count {a b : Str} (h : a <:+ b) (c : Char) : a.count c ≤ b.count c :=
  h.sublist.count_le c

theorem dropWs_suffix : ∀ w : Str, dropWs w <:+ w
  | [] => List.suffix_refl _
  | c :: r => by
    simp only [dropWs]
    split
    · exact (dropWs_suffix r).trans (List.suffix_cons _ _)
    · exact List.suffix_refl _

theorem dropName_suffix : ∀ w : Str, dropName w <:+ w
  | [] => List.suffix_refl _
  | c :: r => by
    simp only [dropName]
    split
    · exact (dropName_suffix r).trans (List.suffix_cons _ _)
    · exact List.suffix_refl _

theorem dropWs_count {w r : Str} {c k : Char} (h : dropWs w = c :: r) :
    r.count k + (if c = k then 1 else 0) ≤ w.count k := by
  have := suffix_count (dropWs_suffix w) k
  rw [h, List.count_cons] at this
  simpa using this

theorem dropName_nil_count {r : Str} {k : Char} (h : dropName r = []) (hk : isNameChar k = false) :
    r.count k = 0 := by
  induction r with
  | nil => rfl
  | cons c r ih =>
    simp only [dropName] at h
    split at h
    · rename_i hc
      rw [List.count_cons, ih h]
      have : (c == k) = false := by
        apply beq_false_of_ne; rintro rfl; rw [hk] at hc; cases hc
      simp [this]
    · cases h

theorem cdata_stop_suffix {pat stop} : ∀ (x : Str) (m : CMode) {t r},
    cdata pat stop m x = .found t r → (stop :: r) <:+ x := by
  intro x
  induction x with
  | nil => intro m t r h; simp [cdata] at h
  | cons c x ih =>
    have push : ∀ {m k t r}, (cdata pat stop m x).push k = .found t r → (stop :: r) <:+ c :: x := by
      intro m k t r h
      cases hx : cdata pat stop m x with
      | found a b =>
        rw [hx] at h; simp only [CRes.push, CRes.found.injEq] at h
        obtain ⟨-, rfl⟩ := h
        exact (ih m hx).trans (List.suffix_cons _ _)
      | more => rw [hx] at h; cases h
      | fail => rw [hx] at h; cases h
    intro m t r h
    cases m <;> simp only [cdata] at h
    all_goals repeat' split at h
    all_goals first
      | (cases h; done)
      | exact push h
      | exact (ih _ h).trans (List.suffix_cons _ _)
      | (rename_i hs; cases h; rw [hs]; exact List.suffix_refl _)

theorem cdata_more_suffix {pat stop} : ∀ (x y : Str) (m : CMode) {t r},
    cdata pat stop m x = .more → cdata pat stop m (x ++ y) = .found t r → (stop :: r) <:+ y := by
  intro x y
  induction x with
  | nil => intro m t r _ h; exact cdata_stop_suffix y m h
  | cons c x ih =>
    have push : ∀ {m k t r}, (cdata pat stop m x).push k = .more →
        (cdata pat stop m (x ++ y)).push k = .found t r → (stop :: r) <:+ y := by
      intro m k t r h h'
      have h1 : cdata pat stop m x = .more := by
        cases hx : cdata pat stop m x <;> rw [hx] at h <;> first | rfl | cases h
      cases hx : cdata pat stop m (x ++ y) with
      | found a b =>
        rw [hx] at h'; simp only [CRes.push, CRes.found.injEq] at h'
        obtain ⟨-, rfl⟩ := h'
        exact ih m h1 hx
      | more => rw [hx] at h'; cases h'
      | fail => rw [hx] at h'; cases h'
    intro m t r h h'
    cases m <;> simp only [cdata, List.cons_append] at h h'
    all_goals repeat' split at h
    all_goals first
      | (cases h; done)
      | (rename_i h1 h2 h3; rw [if_neg h1, if_neg h2, if_pos h3] at h'; exact ih _ h h')
      | skip
    all_goals try simp only [*, if_true, if_false, Bool.false_eq_true] at h'
    all_goals first
      | (cases h'; done)
      | exact push h h'
      | exact ih _ h h'
      | skip

/-! ### single steps -/

theorem step_count_gi {s s' : PState} {evs}
    (hw : ∀ {s0 : PState}, (wait false s0 = .cont s' evs ∨ wait false s0 = .pause s' evs) →
      s' = s0 ∧ evs = [])
    (h : stepTagGi false s = .cont s' evs ∨ stepTagGi false s = .pause s' evs) (hi : inTag s.st = 1) :
    tags evs + s'.rest.count '>' ≤ s.rest.count '>' ∧
    tags evs + inTag s'.st + s'.rest.count '<' ≤ inTag s.st + s.rest.count '<' := by
  simp only [stepTagGi] at h
  split at h
  · obtain ⟨rfl, rfl⟩ := hw h; simp [tags]
  · rename_i c r heq
    have h1 := dropWs_count (k := '>') heq
    have h2 := dropWs_count (k := '<') heq
    split at h
    · rcases h with h | h <;> cases h
      simp [tags, inTag] at *; omega
    · split at h
      · split at h
        · obtain ⟨rfl, rfl⟩ := hw h; simp [tags, hi, List.count_cons] at *; omega
        · have h3 := suffix_count (dropName_suffix r) '>'
          have h4 := suffix_count (dropName_suffix r) '<'
          rcases h with h | h <;> cases h
          simp [tags, inTag] at *; omega
      · rcases h with h | h <;> cases h
        simp [tags, inTag, List.count_cons] at *; omega

/-- A step that goes on never makes up a bracket. -/
theorem step_count {s s' : PState} {evs} (h : step false s = .cont s' evs ∨ step false s = .pause s' evs) :
    tags evs + s'.rest.count '>' ≤ s.rest.count '>' ∧
    tags evs + inTag s'.st + s'.rest.count '<' ≤ inTag s.st + s.rest.count '<' := by
  have hw : ∀ {s0 : PState}, (wait false s0 = .cont s' evs ∨ wait false s0 = .pause s' evs) →
      s' = s0 ∧ evs = [] := by
    intro s0 h; simp only [wait, Bool.false_eq_true, if_false] at h
    rcases h with h | h <;> cases h; exact ⟨rfl, rfl⟩
  obtain ⟨st, rest, pe, gi, at_, stk⟩ := s
  cases st <;> simp only [step] at h
  · simp only [stepPreElement] at h
    split at h
    · obtain ⟨rfl, rfl⟩ := hw h; simp [tags]
    · rename_i c r heq
      have h1 := dropWs_count (k := '>') heq
      have h2 := dropWs_count (k := '<') heq
      split at h
      · rename_i hc; rcases h with h | h <;> cases h
        subst hc; simp [tags, inTag] at *; omega
      · rename_i hc; rcases h with h | h <;> cases h
        simp [tags, inTag, List.count_cons] at *; omega
  · simp only [stepInElement] at h
    split at h
    · rename_i t r heq
      have h1 := suffix_count (cdata_stop_suffix _ _ heq) '>'
      have h2 := suffix_count (cdata_stop_suffix _ _ heq) '<'
      have h3 : tags (if t = [] then [] else [Event.chars t]) = 0 := by split <;> rfl
      simp only [List.count_cons] at h1 h2
      rcases h with h | h <;> cases h
      rw [h3]; simp [inTag] at *; omega
    · obtain ⟨rfl, rfl⟩ := hw h; simp [tags]
    · rcases h with h | h <;> cases h
  · exact step_count_gi hw h (by simp [inTag]) 
  · exact step_count_gi hw h (by simp [inTag])
  · simp only [stepCompleteTag] at h
    split at h
    · obtain ⟨rfl, rfl⟩ := hw h; simp [tags]
    · rename_i c r heq
      have h1 := dropWs_count (k := '>') heq
      have h2 := dropWs_count (k := '<') heq
      split at h
      · rcases h with h | h <;> cases h
        simp [tags, inTag, List.count_cons] at *; omega
      · split at h
        · rename_i hc; subst hc
          simp only [reduceIte, Char.reduceEq] at h1 h2
          split at h
          · split at h <;> rcases h with h | h <;> cases h <;>
              (simp [tags, inTag, Event.isTag] at *; omega)
          · split at h
            · rcases h with h | h <;> cases h
            · split at h
              · rcases h with h | h <;> cases h
              · have hst : ∀ stk' : List Str, inTag (if stk' = [] then St.completeDoc else St.inElement) = 0 := by
                  intro stk'; split <;> rfl
                have hit : inTag .completeTag = 1 := rfl
                split at h <;> rcases h with h | h <;> cases h <;>
                  (simp only [tags, Event.isTag, hst, List.countP_cons, List.countP_nil, hit, if_true]; omega)
        · rcases h with h | h <;> cases h
  · simp only [stepCompleteDoc] at h
    split at h
    · rcases h with h | h <;> cases h; simp [tags]
    · split at h
      · obtain ⟨rfl, rfl⟩ := hw h; simp [tags]
      · rcases h with h | h <;> cases h
  · simp only [stepAttribute] at h
    split at h
    · obtain ⟨rfl, rfl⟩ := hw h; simp [tags]
    · rename_i _ c r
      split at h
      · obtain ⟨rfl, rfl⟩ := hw h; simp [tags]
      · have hsuf : dropWs (dropName r) <:+ c :: r :=
          ((dropWs_suffix _).trans (dropName_suffix _)).trans (List.suffix_cons _ _)
        split at h
        · obtain ⟨rfl, rfl⟩ := hw h; simp [tags]
        · rename_i d r3 hd
          rw [hd] at hsuf
          have hs3 := (List.suffix_cons d r3).trans hsuf
          split at h
          · split at h
            · rcases h with h | h <;> cases h; simp [tags]
            · rename_i q r4
              split at h
              · split at h
                · rename_i v r5 hv
                  rcases h with h | h <;> cases h
                  have hs5 := (((List.suffix_cons _ _).trans (cdata_stop_suffix _ _ hv)).trans
                    (List.suffix_cons _ _)).trans hs3
                  have h1 := suffix_count hs5 '>'
                  have h2 := suffix_count hs5 '<'
                  simp [tags, inTag]; omega
                · obtain ⟨rfl, rfl⟩ := hw h
                  have h1 := suffix_count hs3 '>'
                  have h2 := suffix_count hs3 '<'
                  simp [tags, inTag] at *; omega
                · rcases h with h | h <;> cases h
              · rcases h with h | h <;> cases h
                have h1 := suffix_count hs3 '>'
                have h2 := suffix_count hs3 '<'
                simp [tags, inTag] at *; omega
          · rcases h with h | h <;> cases h

theorem attr_pause {rest pe gi at_ stk s' evs}
    (h : stepAttribute false ⟨.attribute, rest, pe, gi, at_, stk⟩ = .pause s' evs) :
    evs = [] ∧ s'.st = .attribute := by
  simp only [stepAttribute] at h
  repeat' split at h
  all_goals first
    | (cases h; done)
    | (obtain ⟨-, rfl, rfl⟩ := wait_pause h; exact ⟨rfl, rfl⟩)
    | (cases h; exact ⟨rfl, rfl⟩)

theorem dropName_app_cons {x d r : _} (y : Str) (h : dropName x = d :: r) :
    dropName (x ++ y) = d :: (r ++ y) := by
  induction x with
  | nil => cases h
  | cons c x ih =>
    simp only [dropName, List.cons_append] at h ⊢
    split at h
    · rename_i hc; rw [if_pos hc]; exact ih h
    · rename_i hc; rw [if_neg hc]; cases h; rfl

theorem dropName_app_nil {x : Str} (y : Str) (h : dropName x = []) : dropName (x ++ y) = dropName y := by
  induction x with
  | nil => rfl
  | cons c x ih =>
    simp only [dropName, List.cons_append] at h ⊢
    split at h
    · rename_i hc; rw [if_pos hc]; exact ih h
    · cases h

theorem attr_cont {rest pe gi at_ stk s1 evs1}
    (h : stepAttribute false ⟨.attribute, rest, pe, gi, at_, stk⟩ = .cont s1 evs1) :
    evs1 = [] ∧ inTag s1.st = 1 := by
  simp only [stepAttribute] at h
  repeat' split at h
  all_goals first
    | (cases h; done)
    | (simp [wait] at h; done)
    | (cases h; exact ⟨rfl, rfl⟩)

/-- What remains after the name, the space and the '=' of an attribute, and what remains after its value. -/
theorem attr_rest {rest pe gi at_ stk s1 evs1}
    (h : stepAttribute false ⟨.attribute, rest, pe, gi, at_, stk⟩ = .cont s1 evs1) :
    ∃ c r q r4, rest = c :: r ∧ dropWs (dropName r) = '=' :: q :: r4 ∧
      ((q = '"' ∨ q = '\'') ∧ (∃ v, cdata (attrPat q) q .txt r4 = .found v s1.rest) ∨
       ¬ (q = '"' ∨ q = '\'') ∧ s1.rest = q :: r4) := by
  simp only [stepAttribute] at h
  split at h
  · simp [wait] at h
  · rename_i _ c r
    split at h
    · simp [wait] at h
    · split at h
      · simp [wait] at h
      · rename_i d r3 hd
        split at h
        · rename_i hde
          subst hde
          split at h
          · cases h
          · rename_i q r4
            split at h
            · rename_i hq
              split at h
              · rename_i v r5 hv
                cases h; exact ⟨c, r, q, r4, rfl, hd, .inl ⟨hq, v, hv⟩⟩
              · simp [wait] at h
              · cases h
            · rename_i hq
              cases h; exact ⟨c, r, q, r4, rfl, hd, .inr ⟨hq, rfl⟩⟩
        · cases h

theorem attr_resume {rest y pe gi at_ stk s' evs s1 evs1}
    (h : stepAttribute false ⟨.attribute, rest, pe, gi, at_, stk⟩ = .pause s' evs)
    (h1 : stepAttribute false ⟨.attribute, rest ++ y, pe, gi, at_, stk⟩ = .cont s1 evs1) :
    evs1 = [] ∧ inTag s1.st = 1 ∧ s1.rest <:+ y := by
  obtain ⟨h2, h3⟩ := attr_cont h1
  refine ⟨h2, h3, ?_⟩
  obtain ⟨c, r, q, r4, hr, hd, hend⟩ := attr_rest h1
  -- what remains is at most what follows the `=`
  have hle : s1.rest <:+ q :: r4 := by
    rcases hend with ⟨_, v, hv⟩ | ⟨_, h⟩
    · exact ((List.suffix_cons _ _).trans (cdata_stop_suffix _ _ hv)).trans (List.suffix_cons _ _)
    · rw [h]; exact List.suffix_refl _
  cases rest with
  | nil =>
    simp only [List.nil_append] at hr
    subst hr
    have : dropWs (dropName r) <:+ c :: r :=
      ((dropWs_suffix _).trans (dropName_suffix _)).trans (List.suffix_cons _ _)
    rw [hd] at this
    exact (hle.trans (List.suffix_cons _ _)).trans this
  | cons c0 r0 =>
    simp only [List.cons_append, List.cons.injEq] at hr
    obtain ⟨rfl, rfl⟩ := hr
    simp only [stepAttribute] at h
    split at h
    · rename_i h0
      rw [dropName_app_nil y h0] at hd
      have : dropWs (dropName y) <:+ y := (dropWs_suffix _).trans (dropName_suffix _)
      rw [hd] at this
      exact (hle.trans (List.suffix_cons _ _)).trans this
    · rename_i h0
      cases hn : dropName r0 with
      | nil => exact absurd hn h0
      | cons a b =>
        rw [dropName_app_cons y hn] at hd
        rw [hn] at h
        split at h
        · rename_i hw
          rw [← List.cons_append, dropWs_app_nil y hw] at hd
          have := dropWs_suffix y
          rw [hd] at this
          exact (hle.trans (List.suffix_cons _ _)).trans this
        · rename_i d r3 hw
          rw [← List.cons_append, dropWs_app_cons y hw] at hd
          simp only [List.cons.injEq] at hd
          obtain ⟨rfl, hd⟩ := hd
          rw [if_pos rfl] at h
          cases r3 with
          | nil =>
            simp only [List.nil_append] at hd
            rw [hd]; exact hle
          | cons q0 r40 =>
            simp only [List.cons_append, List.cons.injEq] at hd
            obtain ⟨rfl, rfl⟩ := hd
            simp only [] at h
            split at h
            · rename_i hq
              split at h
              · cases h
              · rename_i hm
                rcases hend with ⟨_, v, hv⟩ | ⟨hend, _⟩
                · exact (List.suffix_cons _ _).trans (cdata_more_suffix _ _ _ hm hv)
                · exact absurd hq hend
              · cases h
            · cases h

/-- What the state where a step pauses says: either nothing in the unread text is a bracket, or it is all going to
be passed over. -/
theorem pause_cases {s s' : PState} {evs} (h : step false s = .pause s' evs) :
    (¬ s'.midValue ∧ s'.rest.count '>' = 0 ∧ s'.rest.count '<' = 0) ∨
    (evs = [] ∧ inTag s'.st = inTag s.st ∧
      (∀ y s1 evs1, step false (s.app y) = .cont s1 evs1 → tags evs1 = 0 ∧
        s1.rest.count '>' ≤ y.count '>' ∧ inTag s1.st + s1.rest.count '<' ≤ inTag s.st + y.count '<') ∧
      (∀ y s1 evs1, step false (s.app y) = .pause s1 evs1 → evs1 = [] ∧ inTag s1.st = inTag s.st)) := by
  obtain ⟨st, rest, pe, gi, at_, stk⟩ := s
  have gi_case : ∀ st', (st' = St.preTagGi ∨ st' = St.preCompleteTagGi) →
      stepTagGi false ⟨st', rest, pe, gi, at_, stk⟩ = .pause s' evs →
      ¬ s'.midValue ∧ s'.rest.count '>' = 0 ∧ s'.rest.count '<' = 0 := by
    intro st' hst h
    simp only [stepTagGi] at h
    have hne : st' ≠ St.attribute := by rcases hst with rfl | rfl <;> decide
    split at h
    · obtain ⟨-, rfl, rfl⟩ := wait_pause h
      exact ⟨fun hm => hne hm.1, rfl, rfl⟩
    · split at h
      · cases h
      · split at h
        · rename_i hc
          split at h
          · rename_i hd
            obtain ⟨-, rfl, rfl⟩ := wait_pause h
            refine ⟨fun hm => hne hm.1, ?_, ?_⟩
            · rw [List.count_cons, dropName_nil_count hd (by decide)]
              rw [if_neg]; rw [beq_iff_eq]; rintro rfl; revert hc; decide
            · rw [List.count_cons, dropName_nil_count hd (by decide)]
              rw [if_neg]; rw [beq_iff_eq]; rintro rfl; revert hc; decide
          · cases h
        · cases h
  cases st <;> simp only [step] at h
  · left
    simp only [stepPreElement] at h
    split at h
    · obtain ⟨-, rfl, rfl⟩ := wait_pause h
      exact ⟨fun hm => (by cases hm.1), rfl, rfl⟩
    · split at h <;> cases h
  · right
    simp only [stepInElement] at h
    split at h
    · cases h
    · rename_i heq
      obtain ⟨-, rfl, rfl⟩ := wait_pause h
      refine ⟨rfl, rfl, ?_, ?_⟩
      · intro y s1 evs1 h1
        simp only [step, PState.app, stepInElement] at h1
        split at h1
        · rename_i t r hy
          have hsuf := cdata_more_suffix _ _ _ heq hy
          cases h1
          have h3 : tags (if t = [] then [] else [Event.chars t]) = 0 := by split <;> rfl
          have h4 := suffix_count hsuf '>'
          have h5 := suffix_count hsuf '<'
          simp only [List.count_cons] at h4 h5
          refine ⟨h3, ?_, ?_⟩
          · simpa using h4
          · simp [inTag] at *; omega
        · cases h1
        · cases h1
      · intro y s1 evs1 h1
        simp only [step, PState.app, stepInElement] at h1
        split at h1
        · cases h1
        · obtain ⟨-, rfl, rfl⟩ := wait_pause h1; exact ⟨rfl, rfl⟩
        · cases h1
    · cases h
  · exact .inl (gi_case _ (.inl rfl) h)
  · exact .inl (gi_case _ (.inr rfl) h)
  · left
    simp only [stepCompleteTag] at h
    split at h
    · obtain ⟨-, rfl, rfl⟩ := wait_pause h
      exact ⟨fun hm => (by cases hm.1), rfl, rfl⟩
    · split at h
      · cases h
      · split at h
        · split at h
          · split at h
            · rename_i hr; subst hr; cases h; exact ⟨fun hm => (by cases hm.1), rfl, rfl⟩
            · cases h
          · split at h
            · cases h
            · split at h
              · cases h
              · split at h
                · rename_i hr; subst hr; cases h
                  exact ⟨fun hm => (by have := hm.1; revert this; simp only []; split <;> decide), rfl, rfl⟩
                · cases h
        · cases h
  · left
    simp only [stepCompleteDoc] at h
    split at h
    · cases h; exact ⟨fun hm => (by cases hm.1), rfl, rfl⟩
    · split at h
      · obtain ⟨-, rfl, rfl⟩ := wait_pause h
        exact ⟨fun hm => (by cases hm.1), rfl, rfl⟩
      · cases h
  · right
    have hout : evs = [] ∧ s'.st = .attribute := attr_pause h
    refine ⟨hout.1, by rw [hout.2], ?_, ?_⟩
    · intro y s1 evs1 h1
      simp only [step, PState.app] at h1
      obtain ⟨h2, h3, h4⟩ := attr_resume h h1
      have h5 := suffix_count h4 '>'
      have h6 := suffix_count h4 '<'
      refine ⟨by rw [h2]; rfl, h5, ?_⟩
      rw [h3]; simp only [inTag]; omega
    · intro y s1 evs1 h1
      simp only [step, PState.app] at h1
      have := attr_pause h1
      exact ⟨this.1, by rw [this.2]⟩

/-! ### whole runs -/

theorem exec_tags_le (s : PState) : tags (exec false s).1 ≤ s.rest.count '>' := by
  refine exec_induct (done := false) (P := fun s evs _ => tags evs ≤ s.rest.count '>') ?_ ?_ ?_ ?_ s
  · intro s s' evs h; have := (step_count (.inr h)).1; omega
  · intro s e _; simp [tags]
  · intro s _; simp [tags]
  · intro s s' evs evs' o h ih
    have := (step_count (.inl h)).1
    rw [tags_append]; omega

theorem exec_opened_le (s : PState) :
    tags (exec false s).1 + inTagO (exec false s).2 ≤ inTag s.st + s.rest.count '<' := by
  refine exec_induct (done := false)
    (P := fun s evs o => tags evs + inTagO o ≤ inTag s.st + s.rest.count '<') ?_ ?_ ?_ ?_ s
  · intro s s' evs h; have := (step_count (.inr h)).2; simp only [inTagO]; omega
  · intro s e _; simp [tags, inTagO]
  · intro s _; simp [tags, inTagO]
  · intro s s' evs evs' o h ih
    have := (step_count (.inl h)).2
    rw [tags_append]; omega

/-- Each further '>' completes at most one more tag. -/
theorem exec_app_tags_le (s : PState) (y : Str) :
    tags (exec false (s.app y)).1 ≤ tags (exec false s).1 + y.count '>' := by
  by_cases hy : y = []
  · subst hy; simp
  refine exec_induct (done := false)
    (P := fun s evs _ => tags (exec false (s.app y)).1 ≤ tags evs + y.count '>') ?_ ?_ ?_ ?_ s
  · intro s s' evs h
    rcases pause_cases h with ⟨hm, h1, _⟩ | ⟨rfl, _, hc, hp⟩
    · rw [step_app_pause hy h hm, tags_append]
      have := exec_tags_le (s'.app y)
      simp only [PState.app, List.count_append] at this
      simp only [PState.app]; omega
    · cases hs : step false (s.app y) with
      | cont s1 evs1 =>
        rw [exec_cont hs, tags_append]
        obtain ⟨h1, h2, _⟩ := hc y s1 evs1 hs
        have := exec_tags_le s1
        omega
      | pause s1 evs1 => rw [exec_pause hs, (hp y s1 evs1 hs).1]; simp [tags]
      | fail e => rw [exec_fail hs]; simp [tags]
  · intro s e h; rw [exec_fail (step_app_fail y h)]; simp [tags]
  · intro s h
    have h1 := step_app_cont y h
    have : exec false (s.app y) = ([], .running (s.app y)) := by rw [exec, run_fix h1]
    rw [this]; simp [tags]
  · intro s s' evs evs' o h ih
    rw [exec_cont (step_app_cont y h), tags_append, tags_append]; omega

/-- Each further '<' opens at most one more tag. -/
theorem exec_app_opened_le (s : PState) (y : Str) :
    tags (exec false (s.app y)).1 + inTagO (exec false (s.app y)).2 ≤
      tags (exec false s).1 + inTagO (exec false s).2 + y.count '<' := by
  by_cases hy : y = []
  · subst hy; simp
  refine exec_induct (done := false)
    (P := fun s evs o => tags (exec false (s.app y)).1 + inTagO (exec false (s.app y)).2 ≤
      tags evs + inTagO o + y.count '<') ?_ ?_ ?_ ?_ s
  · intro s s' evs h
    rcases pause_cases h with ⟨hm, _, h1⟩ | ⟨rfl, hi, hc, hp⟩
    · rw [step_app_pause hy h hm, tags_append]
      have := exec_opened_le (s'.app y)
      simp only [PState.app, List.count_append] at this
      simp only [PState.app]
      have : inTagO (.paused s') = inTag s'.st := rfl
      omega
    · cases hs : step false (s.app y) with
      | cont s1 evs1 =>
        rw [exec_cont hs, tags_append]
        obtain ⟨h1, _, h2⟩ := hc y s1 evs1 hs
        have := exec_opened_le s1
        simp only [inTagO, hi] at this ⊢
        omega
      | pause s1 evs1 =>
        rw [exec_pause hs, (hp y s1 evs1 hs).1]
        simp only [inTagO, (hp y s1 evs1 hs).2, hi]; omega
      | fail e => rw [exec_fail hs]; simp [tags, inTagO]
  · intro s e h; rw [exec_fail (step_app_fail y h)]; simp [tags, inTagO]
  · intro s h
    have h1 := step_app_cont y h
    have : exec false (s.app y) = ([], .running (s.app y)) := by rw [exec, run_fix h1]
    rw [this]; simp [tags, inTagO]
  · intro s s' evs evs' o h ih
    rw [exec_cont (step_app_cont y h), tags_append, tags_append]
    simp only at ih ⊢; omega

/-! ### what the last and the next event are -/

theorem step_last {s s' : PState} {evs}
    (h : step false s = .cont s' evs ∨ step false s = .pause s' evs) :
    (inTag s'.st = 0 → (evs = [] ∧ inTag s.st = 0) ∨ ∃ ev, evs = [ev] ∧ ev.isTag = true) ∧
    (inTag s.st = 1 → (evs = [] ∧ inTag s'.st = 1) ∨ ∃ ev, evs = [ev] ∧ ev.isTag = true) := by
  have hw : ∀ {s0 : PState}, (wait false s0 = .cont s' evs ∨ wait false s0 = .pause s' evs) →
      s' = s0 ∧ evs = [] := by
    intro s0 h; simp only [wait, Bool.false_eq_true, if_false] at h
    rcases h with h | h <;> cases h; exact ⟨rfl, rfl⟩
  obtain ⟨st, rest, pe, gi, at_, stk⟩ := s
  cases st <;> simp only [step] at h
  all_goals first
    | (simp only [stepPreElement] at h)
    | (simp only [stepInElement] at h)
    | (simp only [stepTagGi] at h)
    | (simp only [stepCompleteTag] at h)
    | (simp only [stepCompleteDoc] at h)
    | (simp only [stepAttribute] at h)
  all_goals repeat' split at h
  all_goals first
    | (obtain ⟨rfl, rfl⟩ := hw h; simp [inTag]; done)
    | (rcases h with h | h <;> cases h <;> simp [inTag, Event.isTag]; done)

theorem pause_in {s s' : PState} {evs} (h : step false s = .pause s' evs) :
    (evs = [] ∧ inTag s.st = 1) ∨ inTag s'.st = 0 := by
  obtain ⟨st, rest, pe, gi, at_, stk⟩ := s
  cases st <;> simp only [step] at h
  all_goals first
    | (simp only [stepPreElement] at h)
    | (simp only [stepInElement] at h)
    | (simp only [stepTagGi] at h)
    | (simp only [stepCompleteTag] at h)
    | (simp only [stepCompleteDoc] at h)
    | (simp only [stepAttribute] at h)
  all_goals repeat' split at h
  all_goals first
    | (obtain ⟨-, rfl, rfl⟩ := wait_pause h; simp [inTag]; done)
    | (cases h; done)
    | (cases h; simp [inTag]; done)
    | (cases h; right; simp only []; split <;> rfl)

/-- Outside tags the last event delivered, if any, is that of a tag. -/
theorem exec_last {s s' : PState} {E} (h : exec false s = (E, .paused s')) (hi : inTag s'.st = 0) :
    (E = [] ∧ inTag s.st = 0) ∨ ∃ ev, E.getLast? = some ev ∧ ev.isTag = true := by
  have H := exec_induct (done := false)
    (P := fun s E o => ∀ s', o = .paused s' → inTag s'.st = 0 →
      (E = [] ∧ inTag s.st = 0) ∨ ∃ ev, E.getLast? = some ev ∧ ev.isTag = true) ?_ ?_ ?_ ?_ s
  · rw [h] at H; exact H s' rfl hi
  · intro s s1 evs hs s' h hi
    cases h
    rcases (step_last (.inr hs)).1 hi with h | ⟨ev, rfl, h⟩
    · exact .inl h
    · exact .inr ⟨ev, rfl, h⟩
  · intro s e _ s' h; cases h
  · intro s _ s' h; cases h
  · intro s s1 evs evs' o hs ih s' ho hi
    rcases ih s' ho hi with ⟨rfl, h1⟩ | ⟨ev, h1, h2⟩
    · rw [List.append_nil]
      rcases (step_last (.inl hs)).1 h1 with h | ⟨ev, rfl, h⟩
      · exact .inl h
      · exact .inr ⟨ev, rfl, h⟩
    · exact .inr ⟨ev, by rw [List.getLast?_append, h1]; rfl, h2⟩

/-- Inside a tag the first event to come is that of a tag. -/
theorem exec_first {s : PState} (hi : inTag s.st = 1) :
    ∀ ev ∈ (exec false s).1.head?, ev.isTag = true := by
  have H := exec_induct (done := false)
    (P := fun s E _ => inTag s.st = 1 → ∀ ev ∈ E.head?, ev.isTag = true) ?_ ?_ ?_ ?_ s
  · exact H hi
  · intro s s1 evs hs hi ev hev
    rcases (step_last (.inr hs)).2 hi with ⟨rfl, _⟩ | ⟨ev', rfl, h⟩
    · cases hev
    · cases hev; exact h
  · intro s e _ _ ev h; cases h
  · intro s _ _ ev h; cases h
  · intro s s1 evs evs' o hs ih hi ev hev
    rcases (step_last (.inl hs)).2 hi with ⟨rfl, h1⟩ | ⟨ev', rfl, h⟩
    · exact ih h1 ev hev
    · cases hev; exact h

/-- So once a tag has been opened all text before it has been delivered. -/
theorem exec_next {s s' : PState} {E} (y : Str) (h : exec false s = (E, .paused s'))
    (hi : inTag s'.st = 1) :
    ∃ R, (exec false (s.app y)).1 = E ++ R ∧ ∀ ev ∈ R.head?, ev.isTag = true := by
  have H := exec_induct (done := false)
    (P := fun s E o => ∀ s', o = .paused s' → inTag s'.st = 1 →
      ∃ R, (exec false (s.app y)).1 = E ++ R ∧ ∀ ev ∈ R.head?, ev.isTag = true) ?_ ?_ ?_ ?_ s
  · rw [h] at H; exact H s' rfl hi
  · intro s s1 evs hs s' h hi
    cases h
    have hz : evs = [] ∧ inTag s.st = 1 := by
      rcases pause_in hs with h | h
      · exact h
      · rw [h] at hi; cases hi
    exact ⟨(exec false (s.app y)).1, by rw [hz.1]; rfl, exec_first (s := s.app y) hz.2⟩
  · intro s e _ s' h; cases h
  · intro s _ s' h; cases h
  · intro s s1 evs evs' o hs ih s' ho hi
    obtain ⟨R, h1, h2⟩ := ih s' ho hi
    exact ⟨R, by rw [exec_cont (step_app_cont y hs), h1, List.append_assoc], h2⟩

/-! ### brackets in documents -/

theorem count_zero_of_ne {w : Str} {k : Char} (h : ∀ c ∈ w, c ≠ k) : w.count k = 0 :=
  List.count_eq_zero.2 fun hk => h k hk rfl

/-- Neither bracket occurs. -/
def NoBr (w : Str) : Prop := ∀ k, (k = '<' ∨ k = '>') → w.count k = 0

theorem noBr_of {w : Str} (h : ∀ c ∈ w, c ≠ '<' ∧ c ≠ '>') : NoBr w := by
  rintro k (rfl | rfl)
  · exact count_zero_of_ne fun c hc => (h c hc).1
  · exact count_zero_of_ne fun c hc => (h c hc).2

theorem noBr_append {a b : Str} (ha : NoBr a) (hb : NoBr b) : NoBr (a ++ b) := by
  intro k hk; rw [List.count_append, ha k hk, hb k hk]

theorem noBr_cons {c : Char} {b : Str} (hc : c ≠ '<' ∧ c ≠ '>') (hb : NoBr b) : NoBr (c :: b) := by
  intro k hk
  rw [List.count_cons, hb k hk, if_neg]
  rw [beq_iff_eq]; rintro rfl
  rcases hk with rfl | rfl
  · exact hc.1 rfl
  · exact hc.2 rfl

theorem noBr_space {w : Str} (h : Space w) : NoBr w :=
  noBr_of fun c hc => by rcases h c hc with rfl | rfl | rfl | rfl <;> decide

theorem noBr_name {n : Str} (h : IsName n) : NoBr n := by
  obtain ⟨c, r, rfl, h1, h2⟩ := h
  have hs : ∀ c : Char, NameStartCode c.toNat → c ≠ '<' ∧ c ≠ '>' := by
    intro c h; constructor <;> (rintro rfl; revert h; decide)
  have hn : ∀ c : Char, NameCode c.toNat → c ≠ '<' ∧ c ≠ '>' := by
    intro c h; constructor <;> (rintro rfl; revert h; decide)
  exact noBr_cons (hs c h1) (noBr_of fun d hd => hn d (h2 d hd))

theorem noBr_spells {lit : Char → Prop} (hl : ∀ c, lit c → c ≠ '<' ∧ c ≠ '>') {s w : Str}
    (h : Spells lit s w) : NoBr w := by
  induction h with
  | nil => intro k _; rfl
  | lit hc _ ih => exact noBr_cons (hl _ hc) ih
  | named hn _ ih =>
    refine noBr_cons (by decide) (noBr_append ?_ (noBr_cons (by decide) ih))
    simp only [namedRefs, List.mem_cons, Prod.mk.injEq, List.not_mem_nil, or_false] at hn
    rcases hn with ⟨rfl, -⟩ | ⟨rfl, -⟩ | ⟨rfl, -⟩ | ⟨rfl, -⟩ | ⟨rfl, -⟩ <;>
      exact noBr_of (by decide)
  | hex _ hd _ _ _ ih =>
    refine noBr_cons (by decide) (noBr_cons (by decide) (noBr_cons (by decide)
      (noBr_append (noBr_of ?_) (noBr_cons (by decide) ih))))
    intro c hc
    have := hd c hc
    constructor <;> (rintro rfl; revert this; decide)

theorem noBr_attrs {kvs wa} (h : IsAttrs kvs wa) : NoBr wa := by
  induction h with
  | nil => intro k _; rfl
  | cons _ h1 hk h2 hq hv _ ih =>
    have hqb : ∀ q : Char, (q = '"' ∨ q = '\'') → q ≠ '<' ∧ q ≠ '>' := by
      rintro q (rfl | rfl) <;> decide
    exact noBr_append (noBr_space h1) (noBr_append (noBr_name hk) (noBr_append (noBr_space h2)
      (noBr_cons (by decide) (noBr_cons (hqb _ hq) (noBr_append
        (noBr_spells (fun c hc => ⟨hc.2.2.1, hc.2.2.2.1⟩) hv) (noBr_cons (hqb _ hq) ih))))))

/-- A document has as many '<' and as many '>' as tags. -/
theorem content_brackets {ns w} (h : IsContent ns w) : ∀ anc k, (k = '<' ∨ k = '>') →
    w.count k = tags (Node.eventsList anc ns) := by
  induction h with
  | nil => intro anc k _; rfl
  | text _ hs _ _ ih =>
    intro anc k hk
    rw [List.count_append, noBr_spells (fun c hc => ⟨hc.2.2.1, hc.2.2.2⟩) hs k hk, ih anc k hk]
    simp [Node.eventsList, Node.events, tags, Event.isTag]
  | @elem n kvs wa cs wc ns w w0 w1 w2 w3 w4 hn ha _ _ h0 h1 h2 h3 h4 ihc ihn =>
    intro anc k hk
    have e1 := ihc (anc ++ [n]) k hk
    have e2 := ihn anc k hk
    have z0 := noBr_space h0 k hk
    have z1 := noBr_space h1 k hk
    have z2 := noBr_space h2 k hk
    have z3 := noBr_space h3 k hk
    have z4 := noBr_space h4 k hk
    have zn := noBr_name hn k hk
    have za := noBr_attrs ha k hk
    simp only [Node.eventsList, Node.events, tags_append]
    simp only [tags, List.countP_cons, List.countP_append, List.countP_nil, Event.isTag, if_true] at *
    rcases hk with rfl | rfl <;>
      simp [List.count_append, z0, z1, z2, z3, z4, zn, za, e1, e2] <;> omega

theorem doc_brackets {e w} (h : IsDoc e w) (k : Char) (hk : k = '<' ∨ k = '>') :
    w.count k = tags (e.events []) := by
  obtain ⟨_, w0, w1, w2, h0, h2, hc, rfl⟩ := h
  rw [List.count_append, List.count_append, noBr_space h0 k hk, noBr_space h2 k hk,
    content_brackets hc [] k hk]
  simp [Node.eventsList]

/-! ### prefixes of documents -/

theorem prompt_core {e : Node} {x y : Str} (h : IsDoc e (x ++ y)) {E s'}
    (hx : exec false { PState.init with rest := x } = (E, .paused s')) :
    tags E = x.count '>' ∧ tags E + inTag s'.st = x.count '<' := by
  obtain ⟨gi, hd⟩ := exec_doc (done := false) h
  have happ : ({ PState.init with rest := x } : PState).app y = { PState.init with rest := x ++ y } := rfl
  have a1 := exec_tags_le { PState.init with rest := x }
  have a2 := exec_app_tags_le { PState.init with rest := x } y
  have b1 := exec_opened_le { PState.init with rest := x }
  have b2 := exec_app_opened_le { PState.init with rest := x } y
  have c1 := doc_brackets h '>' (.inr rfl)
  have c2 := doc_brackets h '<' (.inl rfl)
  rw [happ, hd, hx] at a2 b2
  rw [hx] at a1 b1
  simp only [List.count_append, inTagO, inTag, PState.init] at *
  constructor <;> omega

/-- No two texts in a row. -/
def NoAdj (l : List Event) : Prop :=
  ∀ a u v b, l = a ++ u :: v :: b → u.isTag = true ∨ v.isTag = true

theorem NoAdj.cons {u : Event} {l : List Event} (hl : NoAdj l)
    (hu : u.isTag = true ∨ ∀ v ∈ l.head?, v.isTag = true) : NoAdj (u :: l) := by
  intro a u' v b h
  cases a with
  | nil =>
    simp only [List.nil_append, List.cons.injEq] at h
    obtain ⟨rfl, rfl⟩ := h
    rcases hu with h | h
    · exact .inl h
    · exact .inr (h v rfl)
  | cons w a =>
    simp only [List.cons_append, List.cons.injEq] at h
    exact hl a u' v b h.2

theorem step_single {s s' : PState} {evs} (h : step false s = .cont s' evs ∨ step false s = .pause s' evs) :
    evs = [] ∨ ∃ ev, evs = [ev] ∧ (ev.isTag = true ∨ inTag s'.st = 1) := by
  have hw : ∀ {s0 : PState}, (wait false s0 = .cont s' evs ∨ wait false s0 = .pause s' evs) →
      s' = s0 ∧ evs = [] := by
    intro s0 h; simp only [wait, Bool.false_eq_true, if_false] at h
    rcases h with h | h <;> cases h; exact ⟨rfl, rfl⟩
  obtain ⟨st, rest, pe, gi, at_, stk⟩ := s
  cases st <;> simp only [step] at h
  all_goals first
    | (simp only [stepPreElement] at h)
    | (simp only [stepInElement] at h)
    | (simp only [stepTagGi] at h)
    | (simp only [stepCompleteTag] at h)
    | (simp only [stepCompleteDoc] at h)
    | (simp only [stepAttribute] at h)
  all_goals repeat' split at h
  all_goals first
    | (obtain ⟨rfl, rfl⟩ := hw h; simp [inTag]; done)
    | (rcases h with h | h <;> cases h <;> simp [inTag, Event.isTag]; done)
    | (rcases h with h | h <;> cases h <;> split <;> simp [inTag, Event.isTag]; done)

theorem exec_noAdj (s : PState) : NoAdj (exec false s).1 := by
  have H := exec_induct (done := false)
    (P := fun s E _ => NoAdj E ∧ (inTag s.st = 1 → ∀ ev ∈ E.head?, ev.isTag = true)) ?_ ?_ ?_ ?_ s
  · exact H.1
  · intro s s1 evs hs
    refine ⟨?_, ?_⟩
    · rcases step_single (.inr hs) with rfl | ⟨ev, rfl, _⟩
      · intro a u v b h; cases a <;> cases h
      · intro a u v b h
        have := congrArg List.length h
        simp at this
        omega
    · intro hi ev hev
      rcases (step_last (.inr hs)).2 hi with ⟨rfl, _⟩ | ⟨ev', rfl, h⟩
      · cases hev
      · cases hev; exact h
  · intro s e _; exact ⟨(by intro a u v b h; cases a <;> cases h), fun _ ev h => nomatch h⟩
  · intro s _; exact ⟨(by intro a u v b h; cases a <;> cases h), fun _ ev h => nomatch h⟩
  · intro s s1 evs evs' o hs ih
    refine ⟨?_, ?_⟩
    · rcases step_single (.inl hs) with rfl | ⟨ev, rfl, h⟩
      · exact ih.1
      · exact NoAdj.cons ih.1 (h.imp id ih.2)
    · intro hi ev hev
      rcases (step_last (.inl hs)).2 hi with ⟨rfl, h1⟩ | ⟨ev', rfl, h⟩
      · exact ih.2 h1 ev hev
      · cases hev; exact h

theorem send_prefix (x z : Str) : (send newParser x false).1 <+: (send newParser (x ++ z) false).1 := by
  by_cases hx : x = []
  · subst hx; exact List.nil_prefix
  have e1 : ∀ w : Str, w ≠ [] → (send newParser w false).1 = (exec false { PState.init with rest := w }).1 := by
    intro w hw
    rw [send_new w hw false]
    split <;> rfl
  rw [e1 x hx, e1 (x ++ z) (by simp [hx])]
  exact exec_prefix { PState.init with rest := x } z

theorem send_noAdj (x : Str) : NoAdj (send newParser x false).1 := by
  by_cases hx : x = []
  · subst hx; intro a u v b h; cases a <;> cases h
  · have : (send newParser x false).1 = (exec false { PState.init with rest := x }).1 := by
      rw [send_new x hx false]
      split <;> rfl
    rw [this]; exact exec_noAdj _

/-- What a prefix of a document leaves the parser with. -/
theorem prefix_paused {e : Node} {x y : Str} (h : IsDoc e (x ++ y)) :
    ∃ E s', exec false { PState.init with rest := x } = (E, .paused s') := by
  obtain ⟨gi, hd⟩ := exec_doc (done := false) h
  have happ : ({ PState.init with rest := x } : PState).app y = { PState.init with rest := x ++ y } := rfl
  cases hx' : exec false { PState.init with rest := x } with
  | mk E o =>
  cases o with
  | paused s' => exact ⟨E, s', rfl⟩
  | raised er =>
    have := exec_app_raised y hx'
    rw [happ, hd] at this; cases this
  | running s1 =>
    have := exec_app_running y hx'
    rw [happ, hd] at this; cases this

theorem bracket_balance {e : Node} {x y : Str} (h : IsDoc e (x ++ y)) :
    x.count '<' = x.count '>' ∨ x.count '<' = x.count '>' + 1 := by
  obtain ⟨E, s', hx⟩ := prefix_paused h
  obtain ⟨h1, h2⟩ := prompt_core h hx
  have hle : inTag s'.st = 0 ∨ inTag s'.st = 1 := by cases s'.st <;> simp [inTag]
  omega

end Amara
