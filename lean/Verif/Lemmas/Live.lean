import Verif.Lemmas.Scan
/-
When the inner loop is left, with a non-final and with a final fragment.
-/
namespace Amara

/-- The text has a first character that is not white space, and it is not '<'. -/
def StartsBadly (w : Str) : Prop :=
  ∃ w0 c r, w = w0 ++ c :: r ∧ Space w0 ∧ ¬ Space [c] ∧ c ≠ '<'

theorem space_iff (w : Str) : Space w ↔ ∀ c ∈ w, isWs c = true := by
  simp only [Space, isWs_iff]

theorem startsBadly_iff (w : Str) : StartsBadly w ↔ ∃ c r, dropWs w = c :: r ∧ c ≠ '<' := by
  constructor
  · rintro ⟨w0, c, r, rfl, h1, h2, h3⟩
    refine ⟨c, r, ?_, h3⟩
    apply dropWs_space_cons h1
    cases hc : isWs c with
    | false => rfl
    | true => exact absurd (by rw [space_iff]; simpa using hc) h2
  · rintro ⟨c, r, h1, h2⟩
    obtain ⟨p, hp, hw⟩ := dropWs_prefix w
    refine ⟨p, c, r, by rw [← h1]; exact hp, (space_iff p).2 hw, ?_, h2⟩
    rw [space_iff]
    have := dropWs_cons_notWs h1
    simp [this]

theorem step_fix {s : PState} (h : step false s = .cont s []) :
    s.st = .preElement ∧ ∃ c r, dropWs s.rest = c :: r ∧ c ≠ '<' := by
  obtain ⟨st, rest, pe, gi, at_, stk⟩ := s
  cases st <;> simp only [step] at h
  · simp only [stepPreElement] at h
    split at h
    · simp [wait] at h
    · rename_i c r heq
      split at h
      · simp at h
      · exact ⟨rfl, c, r, heq, by assumption⟩
  · simp only [stepInElement] at h
    repeat' split at h
    all_goals simp [wait] at h
  · simp only [stepTagGi] at h
    repeat' split at h
    all_goals simp_all [wait]
  · simp only [stepTagGi] at h
    repeat' split at h
    all_goals simp_all [wait]
  · simp only [stepCompleteTag] at h
    repeat' split at h
    all_goals simp [wait] at h
  · simp only [stepCompleteDoc] at h
    repeat' split at h
    all_goals simp [wait] at h
  · simp only [stepAttribute] at h
    repeat' split at h
    all_goals simp [wait] at h
    rename_i c r hd _ d r3 heq _ q r4 hq
    have h1 := dropName_length r
    have h2 := dropWs_length (dropName r)
    obtain ⟨rfl, rfl⟩ := h
    simp_all
    omega

theorem step_pre {done : Bool} {s s' : PState} {evs} (h : step done s = .cont s' evs)
    (hp : s'.st = .preElement) :
    s.st = .preElement ∧ s'.rest = dropWs s.rest := by
  obtain ⟨st, rest, pe, gi, at_, stk⟩ := s
  cases st <;> simp only [step] at h
  · simp only [stepPreElement] at h
    split at h
    · rename_i heq
      obtain ⟨-, rfl, rfl⟩ := wait_cont h; exact ⟨rfl, by rw [heq]⟩
    · rename_i heq
      split at h
      · cases h; cases hp
      · cases h; exact ⟨rfl, by rw [heq]⟩
  · simp only [stepInElement] at h
    repeat' split at h
    all_goals first
      | (cases h; done)
      | (obtain ⟨-, rfl, rfl⟩ := wait_cont h; cases hp; done)
      | (cases h; cases hp)
  · simp only [stepTagGi] at h
    repeat' split at h
    all_goals first
      | (cases h; done)
      | (obtain ⟨-, rfl, rfl⟩ := wait_cont h; cases hp; done)
      | (cases h; cases hp)
  · simp only [stepTagGi] at h
    repeat' split at h
    all_goals first
      | (cases h; done)
      | (obtain ⟨-, rfl, rfl⟩ := wait_cont h; cases hp; done)
      | (cases h; cases hp)
  · simp only [stepCompleteTag] at h
    repeat' split at h
    all_goals first
      | (cases h; done)
      | (obtain ⟨-, rfl, rfl⟩ := wait_cont h; cases hp; done)
      | (cases h; cases hp; done)
  · simp only [stepCompleteDoc] at h
    repeat' split at h
    all_goals first
      | (cases h; done)
      | (obtain ⟨-, rfl, rfl⟩ := wait_cont h; cases hp; done)
  · simp only [stepAttribute] at h
    repeat' split at h
    all_goals first
      | (cases h; done)
      | (obtain ⟨-, rfl, rfl⟩ := wait_cont h; cases hp; done)
      | (cases h; cases hp)

theorem step_pause_pre {done : Bool} {s s' : PState} {evs} (h : step done s = .pause s' evs)
    (hp : s'.st = .preElement) :
    s.st = .preElement ∧ s'.rest = [] ∧ dropWs s.rest = [] := by
  obtain ⟨st, rest, pe, gi, at_, stk⟩ := s
  cases st <;> simp only [step] at h
  · simp only [stepPreElement] at h
    split at h
    · rename_i heq
      obtain ⟨-, rfl, rfl⟩ := wait_pause h; exact ⟨rfl, rfl, heq⟩
    · split at h <;> cases h
  · simp only [stepInElement] at h
    repeat' split at h
    all_goals first
      | (cases h; done)
      | (obtain ⟨-, rfl, rfl⟩ := wait_pause h; cases hp; done)
      | (cases h; cases hp)
  · simp only [stepTagGi] at h
    repeat' split at h
    all_goals first
      | (cases h; done)
      | (obtain ⟨-, rfl, rfl⟩ := wait_pause h; cases hp; done)
      | (cases h; cases hp)
  · simp only [stepTagGi] at h
    repeat' split at h
    all_goals first
      | (cases h; done)
      | (obtain ⟨-, rfl, rfl⟩ := wait_pause h; cases hp; done)
      | (cases h; cases hp)
  · simp only [stepCompleteTag] at h
    repeat' split at h
    all_goals first
      | (cases h; done)
      | (obtain ⟨-, rfl, rfl⟩ := wait_pause h; cases hp; done)
      | (cases h; cases hp; done)
  · simp only [stepCompleteDoc] at h
    repeat' split at h
    all_goals first
      | (cases h; done)
      | (obtain ⟨-, rfl, rfl⟩ := wait_pause h; cases hp; done)
      | (cases h; cases hp; done)
  · simp only [stepAttribute] at h
    repeat' split at h
    all_goals first
      | (cases h; done)
      | (obtain ⟨-, rfl, rfl⟩ := wait_pause h; cases hp; done)
      | (cases h; cases hp)

/-- A non-final run never ends exactly when it starts before the document element with a first
non-space character other than '<'. -/
theorem exec_running_iff (s : PState) :
    (∃ s', (exec false s).2 = .running s') ↔
      s.st = .preElement ∧ ∃ c r, dropWs s.rest = c :: r ∧ c ≠ '<' := by
  constructor
  · have H := exec_induct (done := false)
      (P := fun s _ o => ∀ s', o = .running s' → s.st = .preElement ∧
        ∃ c r, dropWs s.rest = c :: r ∧ c ≠ '<') ?_ ?_ ?_ ?_ s
    · rintro ⟨s', h⟩; exact H s' h
    · intro s s1 evs _ s' h; cases h
    · intro s e _ s' h; cases h
    · intro s hs s' _; exact step_fix hs
    · intro s s1 evs evs' o hs ih s' ho
      obtain ⟨h1, c, r, h2, h3⟩ := ih s' ho
      obtain ⟨h4, h5⟩ := step_pre hs h1
      refine ⟨h4, c, r, ?_, h3⟩
      rw [h5] at h2
      rcases dropWs_nil_or s.rest with h' | ⟨c', r', h', hc⟩
      · rw [h'] at h2; simp [dropWs] at h2
      · rw [h', dropWs_of_notWs hc] at h2; rw [h', h2]
  · rintro ⟨h1, c, r, h2, h3⟩
    have s1 : step false s = .cont { s with rest := c :: r } [] := by
      simp [step, h1, stepPreElement, h2, h3]
    have s2 : step false { s with rest := c :: r } = .cont { s with rest := c :: r } [] := by
      simp [step, h1, stepPreElement, dropWs_of_notWs (dropWs_cons_notWs h2), h3]
    refine ⟨{ s with rest := c :: r }, ?_⟩
    rw [exec_cont s1, exec, run_fix s2]

theorem exec_paused_pre {s s' : PState} {evs} (h : exec false s = (evs, .paused s'))
    (hp : s'.st = .preElement) : s.st = .preElement ∧ s'.rest = [] ∧ dropWs s.rest = [] := by
  have H := exec_induct (done := false)
    (P := fun s _ o => ∀ s', o = .paused s' → s'.st = .preElement →
      s.st = .preElement ∧ s'.rest = [] ∧ dropWs s.rest = []) ?_ ?_ ?_ ?_ s
  · rw [h] at H; exact H s' rfl hp
  · intro s s1 evs hs s' h hp; cases h; exact step_pause_pre hs hp
  · intro s e _ s' h; cases h
  · intro s _ s' h; cases h
  · intro s s1 evs evs' o hs ih s' ho hp
    obtain ⟨h1, h2, h3⟩ := ih s' ho hp
    obtain ⟨h4, h5⟩ := step_pre hs h1
    refine ⟨h4, h2, ?_⟩
    rw [h5] at h3
    rcases dropWs_nil_or s.rest with h' | ⟨c', r', h', hc⟩
    · exact h'
    · rw [h', dropWs_of_notWs hc] at h3; cases h3

/-- What a waiting parser says about the text fed so far. -/
def PreInv (s : PState) (X : Str) : Prop :=
  (s.st = .preElement ∧ s.rest = [] ∧ dropWs X = []) ∨
  (s.st ≠ .preElement ∧ ∃ r, dropWs X = '<' :: r)

theorem sendAll_never_iff : ∀ (frags : List Str) (s : PState) (X : Str), PreInv s X →
    ((sendAll (.awaiting s) frags).2.1 = .never ↔
      ∃ c r, dropWs (X ++ frags.flatten) = c :: r ∧ c ≠ '<') := by
  intro frags
  induction frags with
  | nil =>
    intro s X h
    simp only [sendAll, List.flatten_nil, List.append_nil]
    constructor
    · intro h'; simp at h'
    · rintro ⟨c, r, h1, h2⟩
      rcases h with ⟨_, _, h⟩ | ⟨_, r', h⟩
      · rw [h] at h1; cases h1
      · rw [h] at h1; cases h1; exact absurd rfl h2
  | cons f fs ih =>
    intro s X h
    by_cases hf : f = []
    · subst hf
      simpa [sendAll, send] using ih s X h
    have hsa := send_awaiting s hf false
    cases hx : exec false (s.app f) with
    | mk E o =>
    rw [hx] at hsa
    have hrun := exec_running_iff (s.app f)
    rw [hx] at hrun
    have hXf : X ++ (f :: fs).flatten = (X ++ f) ++ fs.flatten := by simp
    rw [hXf]
    cases o with
    | running s1 =>
      simp only [sendAll, hsa]
      simp only [reduceCtorEq, if_false, true_iff]
      obtain ⟨h1, c, r, h2, h3⟩ := hrun.1 ⟨s1, rfl⟩
      rcases h with ⟨_, h', h⟩ | ⟨h, _⟩
      · simp only [PState.app, h', List.nil_append] at h2
        refine ⟨c, r ++ fs.flatten, ?_, h3⟩
        apply dropWs_app_cons
        rw [dropWs_app_nil _ h, h2]
      · exact absurd h1 h
    | raised e =>
      simp only [sendAll, hsa]
      simp only [reduceCtorEq, if_false, false_iff]
      rintro ⟨c, r, h1, h2⟩
      have hlt : ∃ r, dropWs (X ++ f) = '<' :: r := by
        rcases h with ⟨hp, h', h⟩ | ⟨_, r', h⟩
        · rcases dropWs_nil_or f with h0 | ⟨c', r', h0, _⟩
          · exfalso
            have : step false (s.app f) = .pause { s with rest := [] } [] := by
              simp [step, PState.app, hp, h', stepPreElement, h0, wait]
            rw [exec_pause this] at hx; cases hx
          · by_cases hc : c' = '<'
            · exact ⟨r', by rw [dropWs_app_nil _ h, h0, hc]⟩
            · have := hrun.2 ⟨hp, c', r', by simp [PState.app, h', h0], hc⟩
              obtain ⟨_, h⟩ := this; cases h
        · exact ⟨r' ++ f, dropWs_app_cons _ h⟩
      obtain ⟨r', h3⟩ := hlt
      rw [dropWs_app_cons _ h3] at h1
      cases h1; exact h2 rfl
    | paused s1 =>
      simp only [sendAll, hsa]
      simp only [if_true, Bool.false_eq_true, if_false]
      apply ih
      by_cases hp1 : s1.st = .preElement
      · left
        obtain ⟨h1, h2, h3⟩ := exec_paused_pre hx hp1
        rcases h with ⟨_, h', h⟩ | ⟨h, _⟩
        · refine ⟨hp1, h2, ?_⟩
          simp only [PState.app, h', List.nil_append] at h3
          rw [dropWs_app_nil _ h, h3]
        · exact absurd h1 h
      · right
        refine ⟨hp1, ?_⟩
        rcases h with ⟨hp, h', h⟩ | ⟨_, r', h⟩
        · rcases dropWs_nil_or f with h0 | ⟨c', r', h0, _⟩
          · exfalso
            have : step false (s.app f) = .pause { s with rest := [] } [] := by
              simp [step, PState.app, hp, h', stepPreElement, h0, wait]
            rw [exec_pause this] at hx; cases hx
            exact hp1 hp
          · by_cases hc : c' = '<'
            · exact ⟨r', by rw [dropWs_app_nil _ h, h0, hc]⟩
            · have := hrun.2 ⟨hp, c', r', by simp [PState.app, h', h0], hc⟩
              obtain ⟨_, h⟩ := this; cases h
        · exact ⟨r' ++ f, dropWs_app_cons _ h⟩

/-! ### prefixes -/

/-- The events delivered for a text are a prefix of those delivered for a longer text. -/
theorem exec_prefix (s : PState) (y : Str) :
    (exec false s).1 <+: (exec false (s.app y)).1 := by
  refine exec_induct (done := false)
    (P := fun s evs _ => evs <+: (exec false (s.app y)).1) ?_ ?_ ?_ ?_ s
  · intro s s' evs hs
    by_cases hy : y = []
    · subst hy; rw [PState.app_nil, exec_pause hs]; exact List.prefix_rfl
    by_cases hm : s'.midValue
    · have : evs = [] := by
        obtain ⟨st, rest, pe, gi, at_, stk⟩ := s
        obtain ⟨hm1, q, r4, hm2, hm3⟩ := hm
        cases st <;> simp only [step] at hs
        all_goals first
          | (simp only [stepPreElement] at hs)
          | (simp only [stepInElement] at hs)
          | (simp only [stepTagGi] at hs)
          | (simp only [stepCompleteTag] at hs)
          | (simp only [stepCompleteDoc] at hs)
          | (simp only [stepAttribute] at hs)
        all_goals repeat' split at hs
        all_goals first
          | (cases hs; done)
          | exact (wait_pause hs).2.2
          | (cases hs; simp at hm1; done)
          | (cases hs; simp at hm1; split at hm1 <;> simp at hm1; done)
          | (cases hs; rfl)
      rw [this]; exact List.nil_prefix
    · rw [step_app_pause hy hs hm]; exact List.prefix_append _ _
  · intro s e _; exact List.nil_prefix
  · intro s _; exact List.nil_prefix
  · intro s s' evs evs' o hs ih
    rw [exec_cont (step_app_cont y hs)]
    exact (List.prefix_append_right_inj _).2 ih

end Amara
