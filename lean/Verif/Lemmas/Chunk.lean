import Verif.Lemmas.Exec
/-
What happens when more input is appended: the basis of fragment independence.
-/
namespace Amara

/-- The state with more unread input. -/
def PState.app (s : PState) (y : Str) : PState := { s with rest := s.rest ++ y }

@[simp] theorem PState.app_nil (s : PState) : s.app [] = s := by simp [PState.app]

@[simp] theorem PState.app_app (s : PState) (x y : Str) : (s.app x).app y = s.app (x ++ y) := by
  simp [PState.app]

/-- Waiting for more input inside a quoted attribute value (the position at which the parser loses
track, `uxml/parser.py` 287-291). -/
def PState.midValue (s : PState) : Prop :=
  s.st = .attribute ∧ ∃ q r, s.rest = q :: r ∧ (q = '"' ∨ q = '\'')

instance (s : PState) : Decidable s.midValue := by
  unfold PState.midValue
  obtain ⟨st, rest, pe, gi, at_, stk⟩ := s
  cases rest with
  | nil => exact isFalse (by simp)
  | cons c r =>
    exact decidable_of_iff (st = .attribute ∧ (c = '"' ∨ c = '\'')) (by simp)

theorem dropWs_app_nil {x : Str} (y : Str) (h : dropWs x = []) : dropWs (x ++ y) = dropWs y := by
  induction x with
  | nil => rfl
  | cons c r ih =>
    simp only [dropWs] at h
    split at h
    · simp [dropWs, *]
    · cases h

theorem dropWs_app_cons {x : Str} (y : Str) {c r} (h : dropWs x = c :: r) :
    dropWs (x ++ y) = c :: (r ++ y) := by
  induction x with
  | nil => simp [dropWs] at h
  | cons d x ih =>
    simp only [dropWs] at h
    split at h
    · simp [dropWs, *]
    · cases h; simp [dropWs, *]

theorem dropName_app {x : Str} (y : Str) (h : dropName x ≠ []) :
    dropName (x ++ y) = dropName x ++ y ∧ takeName (x ++ y) = takeName x := by
  induction x with
  | nil => simp [dropName] at h
  | cons c r ih =>
    simp only [dropName] at h
    split at h
    · have := ih h; simp [dropName, takeName, *]
    · simp [dropName, takeName, *]

theorem cdata_app {pat stop} : ∀ (x : Str) (y : Str) (m : CMode),
    (∀ s t, cdata pat stop m x = .found s t → cdata pat stop m (x ++ y) = .found s (t ++ y)) ∧
    (∀ e, cdata pat stop m x = .fail e → cdata pat stop m (x ++ y) = .fail e) := by
  intro x y
  induction x with
  | nil => intro m; cases m <;> simp [cdata]
  | cons c r ih =>
    have ihf : ∀ m s t, cdata pat stop m r = .found s t →
        cdata pat stop m (r ++ y) = .found s (t ++ y) := fun m => (ih m).1
    have ihe : ∀ m e, cdata pat stop m r = .fail e → cdata pat stop m (r ++ y) = .fail e :=
      fun m => (ih m).2
    have pf : ∀ m d s t, (cdata pat stop m r).push d = .found s t →
        (cdata pat stop m (r ++ y)).push d = .found s (t ++ y) := by
      intro m d s t h
      obtain ⟨s', h', rfl⟩ := CRes.push_found h
      simp [ihf _ _ _ h', CRes.push]
    have pe : ∀ m d e, (cdata pat stop m r).push d = .fail e →
        (cdata pat stop m (r ++ y)).push d = .fail e := by
      intro m d e h
      have : cdata pat stop m r = .fail e := by
        cases hc : cdata pat stop m r <;> simp_all [CRes.push]
      simp [ihe _ _ this, CRes.push]
    intro m
    constructor
    · intro s t h
      cases m <;> simp only [cdata, List.cons_append] at h ⊢
      all_goals repeat' split at h
      all_goals first
        | (simp only [*, if_true, if_false]; first | exact ihf _ _ _ h | exact pf _ _ _ _ h)
        | (simp_all; done)
        | (simp_all; first | exact ihf _ _ _ h | exact pf _ _ _ _ h)
    · intro e h
      cases m <;> simp only [cdata, List.cons_append] at h ⊢
      all_goals repeat' split at h
      all_goals first
        | (simp only [*, if_true, if_false]; first | exact ihe _ _ h | exact pe _ _ _ h)
        | (simp_all; done)
        | (simp_all; first | exact ihe _ _ h | exact pe _ _ _ h)

theorem step_app_cont {s s' : PState} {evs} (y : Str) (h : step false s = .cont s' evs) :
    step false (s.app y) = .cont (s'.app y) evs := by
  obtain ⟨st, rest, pe, gi, at_, stk⟩ := s
  cases st <;> simp only [step, PState.app] at h ⊢
  · simp only [stepPreElement] at h ⊢
    split at h
    · simp [wait] at h
    · rename_i heq
      simp only [dropWs_app_cons y heq]
      split at h <;> cases h <;> simp [*]
  · simp only [stepInElement] at h ⊢
    split at h
    · rename_i heq
      simp only [(cdata_app _ y _).1 _ _ heq]
      cases h; simp
    · simp [wait] at h
    · cases h
  · simp only [stepTagGi] at h ⊢
    split at h
    · simp [wait] at h
    · rename_i c r heq
      simp only [dropWs_app_cons y heq]
      split at h
      · cases h; simp [*]
      · split at h
        · split at h
          · simp [wait] at h
          · rename_i hd
            have := dropName_app y hd
            cases h; simp [*]
        · cases h; simp [*]
  · simp only [stepTagGi] at h ⊢
    split at h
    · simp [wait] at h
    · rename_i c r heq
      simp only [dropWs_app_cons y heq]
      split at h
      · cases h; simp [*]
      · split at h
        · split at h
          · simp [wait] at h
          · rename_i hd
            have := dropName_app y hd
            cases h; simp [*]
        · cases h; simp [*]
  · simp only [stepCompleteTag] at h ⊢
    split at h
    · simp [wait] at h
    · rename_i c r heq
      simp only [dropWs_app_cons y heq]
      repeat' split at h
      all_goals first | (cases h; done) | skip
      all_goals cases h
      all_goals simp_all
  · simp only [stepCompleteDoc] at h ⊢
    split at h
    · cases h
    · split at h
      · simp [wait] at h
      · cases h
  · simp only [stepAttribute] at h ⊢
    split at h
    · simp [wait] at h
    · rename_i c r
      split at h
      · simp [wait] at h
      · rename_i hd
        have hda := dropName_app y hd
        simp only [List.cons_append, hda]
        split at h
        · simp [wait] at h
        · rename_i d r3 heq
          simp only [dropWs_app_cons y heq]
          split at h
          · split at h
            · simp at h
            · rename_i q r4
              split at h
              · split at h
                · rename_i hc
                  have := (cdata_app _ y _).1 _ _ hc
                  cases h; simp_all
                · simp [wait] at h
                · cases h
              · cases h; simp_all
          · cases h

theorem step_app_fail {s : PState} {e} (y : Str) (h : step false s = .fail e) :
    step false (s.app y) = .fail e := by
  obtain ⟨st, rest, pe, gi, at_, stk⟩ := s
  cases st <;> simp only [step, PState.app] at h ⊢
  · simp only [stepPreElement] at h
    repeat' split at h
    all_goals simp [wait] at h
  · simp only [stepInElement] at h ⊢
    split at h
    · cases h
    · simp [wait] at h
    · rename_i heq
      simp only [(cdata_app _ y _).2 _ heq]
      exact h
  · simp only [stepTagGi] at h
    repeat' split at h
    all_goals simp [wait] at h
  · simp only [stepTagGi] at h
    repeat' split at h
    all_goals simp [wait] at h
  · simp only [stepCompleteTag] at h ⊢
    split at h
    · simp [wait] at h
    · rename_i c r heq
      simp only [dropWs_app_cons y heq]
      repeat' split at h
      all_goals simp_all
  · simp only [stepCompleteDoc] at h ⊢
    split at h
    · cases h
    · split at h
      · simp [wait] at h
      · rename_i heq
        simp only [List.cons_append] at heq ⊢
        have := dropWs_app_cons y heq
        simp only [List.cons_append] at this
        simp [this]; simpa using h
  · simp only [stepAttribute] at h ⊢
    split at h
    · simp [wait] at h
    · rename_i c r
      split at h
      · simp [wait] at h
      · rename_i hd
        have hda := dropName_app y hd
        simp only [List.cons_append, hda]
        split at h
        · simp [wait] at h
        · rename_i d r3 heq
          simp only [dropWs_app_cons y heq]
          split at h
          · split at h
            · simp at h
            · rename_i q r4
              split at h
              · split at h
                · cases h
                · simp [wait] at h
                · rename_i hc
                  have := (cdata_app _ y _).2 _ hc
                  cases h; simp_all
              · cases h
          · simp_all

/-- A pause that is not inside an attribute value loses nothing: going on with more input from the
paused state is the same as having had that input from the start. -/
theorem step_app_pause {s s' : PState} {evs} {y : Str} (hy : y ≠ [])
    (h : step false s = .pause s' evs) (hm : ¬ s'.midValue) :
    exec false (s.app y) = (evs ++ (exec false (s'.app y)).1, (exec false (s'.app y)).2) := by
  have same : ∀ {s s' : PState}, step false s = step false s' → exec false s = exec false s' := by
    intro s s' h
    cases hs : step false s' with
    | cont s1 evs => rw [exec_cont hs, exec_cont (h.trans hs)]
    | pause s1 evs => rw [exec_pause hs, exec_pause (h.trans hs)]
    | fail e => rw [exec_fail hs, exec_fail (h.trans hs)]
  obtain ⟨y0, y1, rfl⟩ : ∃ a b, y = a :: b := by
    cases y with
    | nil => exact absurd rfl hy
    | cons a b => exact ⟨a, b, rfl⟩
  obtain ⟨st, rest, pe, gi, at_, stk⟩ := s
  cases st <;> simp only [step] at h
  · simp only [stepPreElement] at h
    split at h
    · rename_i heq
      obtain ⟨-, rfl, rfl⟩ := wait_pause h
      simp only [List.nil_append]
      apply same
      simp [step, stepPreElement, PState.app, dropWs_app_nil _ heq]
    · split at h <;> cases h
  · simp only [stepInElement] at h
    split at h
    · cases h
    · obtain ⟨-, rfl, rfl⟩ := wait_pause h
      simp
    · cases h
  · simp only [stepTagGi] at h
    split at h
    · rename_i heq
      obtain ⟨-, rfl, rfl⟩ := wait_pause h
      simp only [List.nil_append]
      apply same
      simp [step, stepTagGi, PState.app, dropWs_app_nil _ heq]
    · rename_i c r heq
      have hw := dropWs_of_notWs (r := r ++ (y0 :: y1)) (dropWs_cons_notWs heq)
      split at h
      · cases h
      · split at h
        · split at h
          · obtain ⟨-, rfl, rfl⟩ := wait_pause h
            simp only [List.nil_append]
            apply same
            simp [step, stepTagGi, PState.app, dropWs_app_cons _ heq, hw]
          · cases h
        · cases h
  · simp only [stepTagGi] at h
    split at h
    · rename_i heq
      obtain ⟨-, rfl, rfl⟩ := wait_pause h
      simp only [List.nil_append]
      apply same
      simp [step, stepTagGi, PState.app, dropWs_app_nil _ heq]
    · rename_i c r heq
      have hw := dropWs_of_notWs (r := r ++ (y0 :: y1)) (dropWs_cons_notWs heq)
      split at h
      · cases h
      · split at h
        · split at h
          · obtain ⟨-, rfl, rfl⟩ := wait_pause h
            simp only [List.nil_append]
            apply same
            simp [step, stepTagGi, PState.app, dropWs_app_cons _ heq, hw]
          · cases h
        · cases h
  · simp only [stepCompleteTag] at h
    split at h
    · rename_i heq
      obtain ⟨-, rfl, rfl⟩ := wait_pause h
      simp only [List.nil_append]
      apply same
      simp [step, stepCompleteTag, PState.app, dropWs_app_nil _ heq]; rfl
    · rename_i c r heq
      repeat' split at h
      all_goals first | (cases h; done) | skip
      all_goals cases h
      all_goals apply exec_cont
      all_goals simp_all [step, stepCompleteTag, PState.app, dropWs_app_cons _ heq]
  · simp only [stepCompleteDoc] at h
    split at h
    · cases h; simp
    · split at h
      · rename_i heq
        obtain ⟨-, rfl, rfl⟩ := wait_pause h
        simp only [List.nil_append]
        apply same
        have := dropWs_app_nil (y0 :: y1) heq
        simp [step, stepCompleteDoc, PState.app] at this ⊢
        simp [this]
      · cases h
  · simp only [stepAttribute] at h
    split at h
    · obtain ⟨-, rfl, rfl⟩ := wait_pause h
      simp
    · split at h
      · obtain ⟨-, rfl, rfl⟩ := wait_pause h
        simp
      · split at h
        · obtain ⟨-, rfl, rfl⟩ := wait_pause h
          simp
        · split at h
          · split at h
            · simp at h; obtain ⟨rfl, rfl⟩ := h; simp
            · split at h
              · split at h
                · cases h
                · rename_i q r4 hq _ hc
                  obtain ⟨-, rfl, rfl⟩ := wait_pause h
                  exact absurd ⟨rfl, _, _, rfl, hq⟩ hm
                · cases h
              · cases h
          · cases h

/-- Induction over a whole run that ends. -/
theorem exec_induct {done : Bool} {P : PState → List Event → Status → Prop}
    (hp : ∀ s s' evs, step done s = .pause s' evs → P s evs (.paused s'))
    (hf : ∀ s e, step done s = .fail e → P s [] (.raised e))
    (hr : ∀ s, step done s = .cont s [] → P s [] (.running s))
    (hc : ∀ s s' evs evs' o, step done s = .cont s' evs → P s' evs' o → P s (evs ++ evs') o)
    (s : PState) : P s (exec done s).1 (exec done s).2 := by
  suffices H : ∀ n (s : PState), s.meas < n → P s (exec done s).1 (exec done s).2 from
    H _ s (Nat.lt_succ_self _)
  intro n
  induction n with
  | zero => intro s h; omega
  | succ n ih =>
    intro s hm
    cases hs : step done s with
    | pause s' evs => rw [exec_pause hs]; exact hp _ _ _ hs
    | fail e => rw [exec_fail hs]; exact hf _ _ hs
    | cont s' evs =>
      rw [exec_cont hs]
      rcases step_progress hs with h | ⟨rfl, h⟩
      · exact hc _ _ _ _ _ hs (ih s' (by omega))
      · have hx : exec done s' = ([], .running s') := by rw [exec, run_fix h]
        rw [hx]
        exact hc _ _ _ _ _ hs (hr _ h)

/-- More input after a run that paused outside attribute values. -/
theorem exec_app_paused {s s' : PState} {evs} {y : Str} (hy : y ≠ [])
    (h : exec false s = (evs, .paused s')) (hm : ¬ s'.midValue) :
    exec false (s.app y) = (evs ++ (exec false (s'.app y)).1, (exec false (s'.app y)).2) := by
  have H := exec_induct (done := false)
    (P := fun s evs o => ∀ s', o = .paused s' → ¬ s'.midValue →
      exec false (s.app y) = (evs ++ (exec false (s'.app y)).1, (exec false (s'.app y)).2))
    ?_ ?_ ?_ ?_ s
  · rw [h] at H; exact H s' rfl hm
  · intro s s1 evs hs s' h hm; cases h; exact step_app_pause hy hs hm
  · intro s e _ s' h; cases h
  · intro s _ s' h; cases h
  · intro s s1 evs evs' o hs ih s' ho hm
    rw [exec_cont (step_app_cont y hs), ih s' ho hm]
    simp

/-- More input after a run that raised changes nothing. -/
theorem exec_app_raised {s : PState} {evs e} (y : Str) (h : exec false s = (evs, .raised e)) :
    exec false (s.app y) = (evs, .raised e) := by
  have H := exec_induct (done := false)
    (P := fun s evs o => ∀ e, o = .raised e → exec false (s.app y) = (evs, .raised e))
    ?_ ?_ ?_ ?_ s
  · rw [h] at H; exact H e rfl
  · intro s s1 evs hs e h; cases h
  · intro s e hs e' h; cases h; exact exec_fail (step_app_fail y hs)
  · intro s _ s' h; cases h
  · intro s s1 evs evs' o hs ih e ho
    rw [exec_cont (step_app_cont y hs), ih e ho]

/-- More input after a run that does not end changes nothing. -/
theorem exec_app_running {s s' : PState} {evs} (y : Str) (h : exec false s = (evs, .running s')) :
    exec false (s.app y) = (evs, .running (s'.app y)) := by
  have H := exec_induct (done := false)
    (P := fun s evs o => ∀ s', o = .running s' →
      exec false (s.app y) = (evs, .running (s'.app y)))
    ?_ ?_ ?_ ?_ s
  · rw [h] at H; exact H s' rfl
  · intro s s1 evs hs e h; cases h
  · intro s e hs e' h; cases h
  · intro s hs s' h; cases h
    rw [exec, run_fix (step_app_cont y hs)]
  · intro s s1 evs evs' o hs ih e ho
    rw [exec_cont (step_app_cont y hs), ih e ho]

end Amara
