import Verif.Model.Parser
/-
Adequacy of the fuel: after `enough s` steps the inner loop of the parser has left, or is at a
state that steps to itself.  `exec` is the run with that fuel; it satisfies fuel-free equations.
-/
namespace Amara

/-! ### lengths -/

theorem dropWs_length (s : Str) : (dropWs s).length ≤ s.length := by
  induction s with
  | nil => simp [dropWs]
  | cons c r ih => simp only [dropWs]; split <;> simp <;> omega

theorem dropName_length (s : Str) : (dropName s).length ≤ s.length := by
  induction s with
  | nil => simp [dropName]
  | cons c r ih => simp only [dropName]; split <;> simp <;> omega

theorem dropWs_nil_or (s : Str) : dropWs s = [] ∨ ∃ c r, dropWs s = c :: r ∧ isWs c = false := by
  induction s with
  | nil => simp [dropWs]
  | cons c r ih =>
    simp only [dropWs]; split
    · exact ih
    · rename_i h; right; exact ⟨c, r, rfl, by simpa using h⟩

theorem dropWs_cons_notWs {s : Str} {c : Char} {r : Str} (h : dropWs s = c :: r) :
    isWs c = false := by
  rcases dropWs_nil_or s with h' | ⟨c', r', h', hc⟩
  · simp [h'] at h
  · rw [h'] at h; cases h; exact hc

theorem dropWs_of_notWs {c : Char} {r : Str} (h : isWs c = false) : dropWs (c :: r) = c :: r := by
  simp [dropWs, h]

theorem CRes.push_found {c : Char} {x : CRes} {s r : Str} (h : x.push c = .found s r) :
    ∃ s', x = .found s' r ∧ s = c :: s' := by
  cases x <;> simp [CRes.push] at h
  · obtain ⟨rfl, rfl⟩ := h; exact ⟨_, rfl, rfl⟩

theorem cdata_length {pat stop} : ∀ (r : Str) {m : CMode} {s t : Str},
    cdata pat stop m r = .found s t → t.length < r.length := by
  intro r
  induction r with
  | nil => intro m s t h; cases m <;> simp [cdata] at h
  | cons c r ih =>
    intro m s t h
    have key : ∀ {m s}, cdata pat stop m r = .found s t → t.length < (c :: r).length := by
      intro m s h; have := ih h; simp; omega
    have keyp : ∀ {m s d}, (cdata pat stop m r).push d = .found s t →
        t.length < (c :: r).length := by
      intro m s d h
      obtain ⟨s', h', _⟩ := CRes.push_found h
      exact key h'
    cases m <;> simp only [cdata] at h
    · split at h
      · exact keyp h
      · split at h
        · cases h; simp
        · split at h <;> exact key h
    · repeat' split at h
      all_goals first | exact key h | cases h
    · repeat' split at h
      all_goals first | exact key h | cases h
    · repeat' split at h
      all_goals first | exact key h | exact keyp h | cases h
    · repeat' split at h
      all_goals first | exact key h | exact keyp h | cases h

/-! ### progress -/

/-- Order of the blocks that can follow one another without reading a character. -/
def St.rank : St → Nat
  | .preTagGi => 2
  | .preCompleteTagGi => 2
  | .completeTag => 1
  | _ => 0

/-- Decreases at every step that is not a step of a state to itself. -/
def PState.meas (s : PState) : Nat := 3 * s.rest.length + s.st.rank

theorem St.rank_le (s : St) : s.rank ≤ 2 := by cases s <;> simp [St.rank]

theorem meas_lt_enough (s : PState) : s.meas < enough s := by
  have := St.rank_le s.st
  simp only [PState.meas, enough]; omega

theorem wait_cont {done : Bool} {s s' : PState} {evs} (h : wait done s = .cont s' evs) :
    done = true ∧ s' = s ∧ evs = [] := by
  cases done <;> simp [wait] at h
  exact ⟨rfl, h.1.symm, h.2⟩

theorem wait_pause {done : Bool} {s s' : PState} {evs} (h : wait done s = .pause s' evs) :
    done = false ∧ s' = s ∧ evs = [] := by
  cases done <;> simp [wait] at h
  exact ⟨rfl, h.1.symm, h.2⟩

theorem wait_not_fail {done : Bool} {s : PState} {e} : wait done s ≠ .fail e := by
  cases done <;> simp [wait]

/-- Every step that continues reads something, or moves to a later block, or reaches a state that
steps to itself without delivering anything. -/
theorem step_progress {done : Bool} {s s' : PState} {evs : List Event}
    (h : step done s = .cont s' evs) :
    s'.meas < s.meas ∨ (evs = [] ∧ step done s' = .cont s' []) := by
  obtain ⟨st, rest, pe, gi, at_, stk⟩ := s
  cases st <;> simp only [step] at h
  · -- preElement
    simp only [stepPreElement] at h
    split at h
    · obtain ⟨rfl, rfl, rfl⟩ := wait_cont h
      right; simp [step, stepPreElement, dropWs, wait]
    · rename_i c r heq
      have hl := dropWs_length rest
      split at h <;> cases h
      · left; simp [PState.meas, St.rank, heq] at *; omega
      · right; simp [step, stepPreElement, dropWs_of_notWs (dropWs_cons_notWs heq), *]
  · -- inElement
    simp only [stepInElement] at h
    split at h
    · rename_i t r heq
      have hl := cdata_length _ heq
      cases h; left; simp [PState.meas, St.rank] at *; omega
    · rename_i heq
      obtain ⟨rfl, rfl, rfl⟩ := wait_cont h
      right; simp [step, stepInElement, heq, wait]
    · cases h
  · -- preTagGi
    simp only [stepTagGi] at h
    split at h
    · obtain ⟨rfl, rfl, rfl⟩ := wait_cont h
      right; simp [step, stepTagGi, dropWs, wait]
    · rename_i c r heq
      have hl := dropWs_length rest
      have hl' := dropName_length r
      have hw := dropWs_of_notWs (r := r) (dropWs_cons_notWs heq)
      split at h
      · cases h; left; simp [PState.meas, St.rank, heq] at *; omega
      · split at h
        · split at h
          · obtain ⟨rfl, rfl, rfl⟩ := wait_cont h
            right; simp_all [step, stepTagGi, wait]
          · cases h; left; simp [PState.meas, St.rank, heq] at *; omega
        · cases h; left; simp [PState.meas, St.rank, heq] at *; omega
  · -- preCompleteTagGi
    simp only [stepTagGi] at h
    split at h
    · obtain ⟨rfl, rfl, rfl⟩ := wait_cont h
      right; simp [step, stepTagGi, dropWs, wait]
    · rename_i c r heq
      have hl := dropWs_length rest
      have hl' := dropName_length r
      have hw := dropWs_of_notWs (r := r) (dropWs_cons_notWs heq)
      split at h
      · simp_all
      · split at h
        · split at h
          · obtain ⟨rfl, rfl, rfl⟩ := wait_cont h
            right; simp_all [step, stepTagGi, wait]
          · cases h; left; simp [PState.meas, St.rank, heq] at *; omega
        · cases h; left; simp [PState.meas, St.rank, heq] at *; omega
  · -- completeTag
    simp only [stepCompleteTag] at h
    split at h
    · obtain ⟨rfl, rfl, rfl⟩ := wait_cont h
      right; simp [step, stepCompleteTag, dropWs, wait]
    · rename_i c r heq
      have hl := dropWs_length rest
      have hk : ∀ st, St.rank st ≤ 2 := St.rank_le
      repeat' split at h
      all_goals first
        | (cases h; done)
        | (cases h; left; simp [PState.meas, St.rank, heq] at *; omega)
        | skip
      all_goals cases h
      all_goals left
      all_goals simp [PState.meas, heq] at *
      all_goals split <;> simp [St.rank] <;> omega
  · -- completeDoc
    simp only [stepCompleteDoc] at h
    split at h
    · cases h
    · split at h
      · obtain ⟨rfl, rfl, rfl⟩ := wait_cont h
        left; simp [PState.meas, St.rank]
      · cases h
  · -- attribute
    simp only [stepAttribute] at h
    split at h
    · obtain ⟨rfl, rfl, rfl⟩ := wait_cont h
      right; simp [step, stepAttribute, wait]
    · rename_i c r
      have hl := dropName_length r
      split at h
      · obtain ⟨rfl, rfl, rfl⟩ := wait_cont h
        right; simp [step, stepAttribute, wait, *]
      · have hl' := dropWs_length (dropName r)
        split at h
        · obtain ⟨rfl, rfl, rfl⟩ := wait_cont h
          right; simp [step, stepAttribute, wait, *]
        · rename_i d r3 heq
          split at h
          · split at h
            · split at h <;> cases h
            · rename_i q r4
              split at h
              · split at h
                · rename_i v r5 hc
                  have := cdata_length _ hc
                  cases h; left; simp [PState.meas, St.rank, heq] at *; omega
                · obtain ⟨rfl, rfl, rfl⟩ := wait_cont h
                  left; simp [PState.meas, St.rank, heq] at *; omega
                · cases h
              · cases h; left; simp [PState.meas, St.rank, heq] at *; omega
          · cases h

theorem run_fix {done : Bool} {s : PState} (h : step done s = .cont s []) :
    ∀ n, run done n s = ([], .running s)
  | 0 => rfl
  | n + 1 => by simp [run, h, run_fix h n]

/-- Running longer than the measure changes nothing. -/
theorem run_stable {done : Bool} : ∀ (m : Nat) (s : PState), s.meas < m → ∀ n, s.meas < n →
    run done m s = run done n s := by
  intro m
  induction m with
  | zero => intro s h; omega
  | succ m ih =>
    intro s hm n hn
    obtain ⟨n, rfl⟩ : ∃ k, n = k + 1 := ⟨n - 1, by omega⟩
    simp only [run]
    cases hs : step done s with
    | pause s' evs => rfl
    | fail e => rfl
    | cont s' evs =>
      have : run done m s' = run done n s' := by
        rcases step_progress hs with h | ⟨_, h⟩
        · exact ih s' (by omega) n (by omega)
        · rw [run_fix h, run_fix h]
      simp [this]

/-- The whole run of the inner loop. -/
def exec (done : Bool) (s : PState) : List Event × Status := run done (enough s) s

/-- Adequacy: no longer run delivers more events or stops otherwise. -/
theorem run_eq_exec {done : Bool} {s : PState} {n : Nat} (h : enough s ≤ n) :
    run done n s = exec done s := by
  have := meas_lt_enough s
  exact run_stable _ _ (by omega) _ (by omega)

theorem exec_cont {done : Bool} {s s' : PState} {evs} (h : step done s = .cont s' evs) :
    exec done s = (evs ++ (exec done s').1, (exec done s').2) := by
  have key : run done (enough s - 1) s' = exec done s' := by
    rcases step_progress h with h | ⟨_, h⟩
    · have := meas_lt_enough s
      have := meas_lt_enough s'
      exact run_stable _ _ (by omega) _ (by omega)
    · rw [exec, run_fix h, run_fix h]
  have : enough s = (enough s - 1) + 1 := by simp [enough]
  rw [exec, this]; simp [run, h, key]

theorem exec_pause {done : Bool} {s s' : PState} {evs} (h : step done s = .pause s' evs) :
    exec done s = (evs, .paused s') := by
  simp [exec, enough, run, h]

theorem exec_fail {done : Bool} {s : PState} {e} (h : step done s = .fail e) :
    exec done s = ([], .raised e) := by
  simp [exec, enough, run, h]

/-- If the loop is still running after the whole run it is at a state that steps to itself. -/
theorem exec_running {done : Bool} {s s' : PState} (h : (exec done s).2 = .running s') :
    step done s' = .cont s' [] := by
  suffices H : ∀ n (s : PState), s.meas < n → (run done n s).2 = .running s' →
      step done s' = .cont s' [] from H _ s (meas_lt_enough s) h
  intro n
  induction n with
  | zero => intro s h; omega
  | succ n ih =>
    intro s hm h
    simp only [run] at h
    cases hs : step done s with
    | pause s' evs => simp [hs] at h
    | fail e => simp [hs] at h
    | cont s1 evs =>
      simp only [hs] at h
      rcases step_progress hs with h' | ⟨_, h'⟩
      · exact ih s1 (by omega) h
      · rw [run_fix h'] at h; cases h; exact h'

end Amara
