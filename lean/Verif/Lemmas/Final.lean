import Verif.Lemmas.Context
/-
Final fragments, complete documents, and the tree behind a well-nested stream.
-/
namespace Amara

theorem step_done (s : PState) :
    (∃ s' evs, step false s = .pause s' evs) ∨ step true s = step false s := by
  obtain ⟨st, rest, pe, gi, at_, stk⟩ := s
  cases st <;> simp only [step]
  all_goals first
    | (simp only [stepPreElement, wait])
    | (simp only [stepInElement, wait])
    | (simp only [stepTagGi, wait])
    | (simp only [stepCompleteTag, wait])
    | (simp only [stepCompleteDoc, wait])
    | (simp only [stepAttribute, wait])
  all_goals repeat' split
  all_goals simp_all

theorem step_final_cont {s s' : PState} {evs} (h : step false s = .cont s' evs) :
    step true s = .cont s' evs := by
  rcases step_done s with ⟨_, _, h'⟩ | h'
  · rw [h'] at h; cases h
  · rw [h', h]

theorem step_final_fail {s : PState} {e} (h : step false s = .fail e) :
    step true s = .fail e := by
  rcases step_done s with ⟨_, _, h'⟩ | h'
  · rw [h'] at h; cases h
  · rw [h', h]

/-- Where a run of the inner loop with a final fragment may end normally. -/
def PState.closed (s : PState) : Prop := s.st = .completeDoc ∨ (s.st = .inElement ∧ s.rest = [])

instance (s : PState) : Decidable s.closed := by unfold PState.closed; infer_instance

theorem step_final_pause {s s' : PState} {evs} (h : step false s = .pause s' evs)
    (hs : s.st = .inElement → s.rest ≠ []) (ha : s'.st ≠ .attribute) :
    (s'.closed ∧ (step true s = .pause s' evs ∨
      (evs = [] ∧ step true s = .cont s' [] ∧ step true s' = .pause s' []))) ∨
    (¬ s'.closed ∧ evs = [] ∧ step true s = .cont s' [] ∧ step true s' = .cont s' []) := by
  obtain ⟨st, rest, pe, gi, at_, stk⟩ := s
  cases st <;> simp only [step] at h
  · simp only [stepPreElement] at h
    split at h
    · rename_i heq
      obtain ⟨-, rfl, rfl⟩ := wait_pause h
      right
      refine ⟨by simp [PState.closed], rfl, ?_, ?_⟩
      · simp [step, stepPreElement, heq, wait]
      · simp [step, stepPreElement, dropWs, wait]
    · split at h <;> cases h
  · simp only [stepInElement] at h
    split at h
    · cases h
    · rename_i heq
      obtain ⟨-, rfl, rfl⟩ := wait_pause h
      right
      have := hs rfl
      simp only at this
      refine ⟨by simp [PState.closed, this], rfl, ?_, ?_⟩ <;>
        simp only [step, stepInElement, heq, wait, if_true]
    · cases h
  · have hne : ¬ PState.closed ⟨.preTagGi, rest, pe, gi, at_, stk⟩ := by simp [PState.closed]
    simp only [stepTagGi] at h
    split at h
    · rename_i heq
      obtain ⟨-, rfl, rfl⟩ := wait_pause h
      right
      refine ⟨by simp [PState.closed], rfl, ?_, ?_⟩
      · simp [step, stepTagGi, heq, wait]
      · simp [step, stepTagGi, dropWs, wait]
    · rename_i c r heq
      have hnw := dropWs_of_notWs (r := r) (dropWs_cons_notWs heq)
      split at h
      · cases h
      · rename_i h1
        split at h
        · split at h
          · obtain ⟨-, rfl, rfl⟩ := wait_pause h
            right
            refine ⟨by simp [PState.closed], rfl, ?_, ?_⟩
            · simp only [step, stepTagGi, if_false, *, if_true, wait]
            · simp only [step, stepTagGi, if_false, *, if_true, wait]
          · cases h
        · cases h
  · simp only [stepTagGi] at h
    split at h
    · rename_i heq
      obtain ⟨-, rfl, rfl⟩ := wait_pause h
      right
      refine ⟨by simp [PState.closed], rfl, ?_, ?_⟩
      · simp [step, stepTagGi, heq, wait]
      · simp [step, stepTagGi, dropWs, wait]
    · rename_i c r heq
      have hnw := dropWs_of_notWs (r := r) (dropWs_cons_notWs heq)
      split at h
      · cases h
      · rename_i h1
        split at h
        · split at h
          · obtain ⟨-, rfl, rfl⟩ := wait_pause h
            right
            refine ⟨by simp [PState.closed], rfl, ?_, ?_⟩
            · simp only [step, stepTagGi, if_false, *, if_true, wait]
            · simp only [step, stepTagGi, if_false, *, if_true, wait]
          · cases h
        · cases h
  · simp only [stepCompleteTag] at h
    split at h
    · rename_i heq
      obtain ⟨-, rfl, rfl⟩ := wait_pause h
      right
      refine ⟨by simp [PState.closed], rfl, ?_, ?_⟩
      · simp [step, stepCompleteTag, heq, wait]
      · simp [step, stepCompleteTag, dropWs, wait]
    · rename_i c r heq
      left
      split at h
      · cases h
      · rename_i h1
        split at h
        · rename_i h2
          split at h
          · rename_i h3
            split at h
            · rename_i h4
              cases h
              exact ⟨by simp [PState.closed, h4], .inl (by
                subst h4 h2; simp_all [step, stepCompleteTag])⟩
            · cases h
          · rename_i h3
            split at h
            · cases h
            · 
              split at h
              · cases h
              · rename_i h5
                split at h
                · rename_i h4
                  cases h
                  refine ⟨?_, .inl ?_⟩
                  · simp only [PState.closed, h4]; split <;> simp
                  · subst h4 h2
                    simp_all [step, stepCompleteTag]
                · cases h
        · cases h
  · simp only [stepCompleteDoc] at h
    left
    split at h
    · cases h
      refine ⟨by simp [PState.closed], .inl ?_⟩
      simp [step, stepCompleteDoc]
    · 
      split at h
      · rename_i h0
        obtain ⟨-, rfl, rfl⟩ := wait_pause h
        refine ⟨by simp [PState.closed], .inr ⟨rfl, ?_, ?_⟩⟩
        · simp [step, stepCompleteDoc, h0, wait]
        · simp [step, stepCompleteDoc]
      · cases h
  · exfalso
    simp only [stepAttribute] at h
    repeat' split at h
    all_goals first
      | (cases h; done)
      | (obtain ⟨-, rfl, rfl⟩ := wait_pause h; exact ha rfl)
      | (cases h; exact ha rfl)

theorem step_inElement_rest {done : Bool} {s s' : PState} {evs} (h : step done s = .cont s' evs)
    (hs : s.st = .inElement → s.rest ≠ []) : s'.st = .inElement → s'.rest ≠ [] := by
  obtain ⟨st, rest, pe, gi, at_, stk⟩ := s
  intro hi
  cases st <;> simp only [step] at h
  all_goals first
    | (simp only [stepPreElement] at h)
    | (simp only [stepInElement] at h)
    | (simp only [stepTagGi] at h)
    | (simp only [stepCompleteTag] at h)
    | (simp only [stepCompleteDoc] at h)
    | (simp only [stepAttribute] at h)
  all_goals repeat' split at h
  all_goals first
    | (cases h; done)
    | (cases h; cases hi; done)
    | (obtain ⟨-, rfl, rfl⟩ := wait_cont h; cases hi; done)
    | (obtain ⟨-, rfl, rfl⟩ := wait_cont h; exact hs rfl)
    | (cases h; assumption)

/-- What a final fragment does, in terms of what the same non-final fragment does. -/
theorem exec_final (s : PState) (hs : s.st = .inElement → s.rest ≠ []) :
    (∀ evs e, exec false s = (evs, .raised e) → exec true s = (evs, .raised e)) ∧
    (∀ evs s', exec false s = (evs, .running s') → exec true s = (evs, .running s')) ∧
    (∀ evs s', exec false s = (evs, .paused s') → s'.st ≠ .attribute →
      exec true s = (evs, if s'.closed then .paused s' else .running s')) := by
  have H := exec_induct (done := false) (P := fun s evs o => (s.st = .inElement → s.rest ≠ []) →
      (∀ e, o = .raised e → exec true s = (evs, .raised e)) ∧
      (∀ s', o = .running s' → exec true s = (evs, .running s')) ∧
      (∀ s', o = .paused s' → s'.st ≠ .attribute →
        exec true s = (evs, if s'.closed then .paused s' else .running s'))) ?_ ?_ ?_ ?_ s hs
  · refine ⟨fun evs e h => ?_, fun evs s' h => ?_, fun evs s' h => ?_⟩ <;> rw [h] at H
    · exact H.1 _ rfl
    · exact H.2.1 _ rfl
    · exact H.2.2 _ rfl
  · intro s s1 evs h hs
    refine ⟨by simp, by simp, ?_⟩
    intro s' h' ha
    cases h'
    rcases step_final_pause h hs ha with ⟨hc, h1 | ⟨rfl, h1, h2⟩⟩ | ⟨hc, rfl, h1, h2⟩
    · rw [exec_pause h1, if_pos hc]
    · rw [exec_cont h1, exec_pause h2, if_pos hc]; rfl
    · rw [exec_cont h1, exec, run_fix h2, if_neg hc]; rfl
  · intro s e h hs
    refine ⟨?_, by simp, by simp⟩
    intro e' h'; cases h'
    rw [exec_fail (step_final_fail h)]
  · intro s h hs
    refine ⟨by simp, ?_, by simp⟩
    intro s' h'; cases h'
    rw [exec, run_fix (step_final_cont h)]
  · intro s s1 evs evs' o h ih hs
    obtain ⟨h1, h2, h3⟩ := ih (step_inElement_rest h hs)
    rw [exec_cont (step_final_cont h)]
    refine ⟨fun e he => ?_, fun s' he => ?_, fun s' he ha => ?_⟩
    · rw [h1 e he]
    · rw [h2 s' he]
    · rw [h3 s' he ha]

/-! ### after the document element -/

theorem step_completeDoc_rest {done : Bool} {s s' : PState} {evs} (h : step done s = .pause s' evs)
    (hs : s'.st = .completeDoc) : s'.rest = [] := by
  obtain ⟨st, rest, pe, gi, at_, stk⟩ := s
  cases st <;> simp only [step] at h
  all_goals first
    | (simp only [stepPreElement] at h)
    | (simp only [stepInElement] at h)
    | (simp only [stepTagGi] at h)
    | (simp only [stepCompleteTag] at h)
    | (simp only [stepCompleteDoc] at h)
    | (simp only [stepAttribute] at h)
  all_goals repeat' split at h
  all_goals first
    | (cases h; done)
    | (cases h; cases hs; done)
    | (obtain ⟨-, rfl, rfl⟩ := wait_pause h; cases hs; done)
    | (obtain ⟨-, rfl, rfl⟩ := wait_pause h; rfl)
    | (cases h; rfl)
    | (cases h; assumption)

theorem exec_completeDoc_rest {done : Bool} {s s' : PState} {evs}
    (h : exec done s = (evs, .paused s')) (hs : s'.st = .completeDoc) : s'.rest = [] := by
  have H := exec_induct (done := done)
    (P := fun s _ o => ∀ s', o = .paused s' → s'.st = .completeDoc → s'.rest = []) ?_ ?_ ?_ ?_ s
  · rw [h] at H; exact H s' rfl hs
  · intro s s1 evs hs s' h' hc; cases h'; exact step_completeDoc_rest hs hc
  · intro s e _ s' h; cases h
  · intro s _ s' h; cases h
  · intro s s1 evs evs' o hs ih; exact ih

/-- The parser's own view of where it is, after a history. -/
def SessRest : Session → Prop
  | .awaiting s => s.st = .completeDoc → s.rest = []
  | _ => True

theorem send_rest {p : Session} (h : SessRest p) (f : Str) (d : Bool) : SessRest (send p f d).2.2 := by
  cases p with
  | awaiting s =>
    by_cases hf : f = []
    · cases d <;> simp [send, hf, SessRest]; exact h
    · rw [send_awaiting s hf]
      cases hx : exec d (s.app f) with
      | mk E o =>
        cases o with
        | paused s' =>
          cases d
          · exact fun hc => exec_completeDoc_rest hx hc
          · trivial
        | raised e => trivial
        | running s' => trivial
  | finished => trivial
  | dead => trivial
  | hung s => trivial

theorem sends_rest {hist : List (Str × Bool)} : ∀ {p : Session}, SessRest p →
    SessRest (sends p hist).2 := by
  induction hist with
  | nil => intro p h; exact h
  | cons x hist ih => intro p h; obtain ⟨f, d⟩ := x; exact ih (send_rest h f d)

theorem exec_completeDoc {done : Bool} {s : PState} (hs : s.st = .completeDoc) (hr : s.rest ≠ []) :
    exec done s = ([], if dropWs s.rest = [] then .paused { s with rest := [] } else .raised .runtime) := by
  obtain ⟨st, rest, pe, gi, at_, stk⟩ := s
  simp only at hs hr
  subst hs
  obtain ⟨c, r, rfl⟩ : ∃ c r, rest = c :: r := by cases rest; exact absurd rfl hr; exact ⟨_, _, rfl⟩
  rcases dropWs_nil_or (c :: r) with h | ⟨c', r', h, _⟩
  · rw [if_pos h]
    cases done
    · rw [exec_pause]; simp [step, stepCompleteDoc, h, wait]
    · have s1 : step true ⟨.completeDoc, c :: r, pe, gi, at_, stk⟩ =
          .cont ⟨.completeDoc, [], pe, gi, at_, stk⟩ [] := by
        simp [step, stepCompleteDoc, h, wait]
      have s2 : step true ⟨.completeDoc, [], pe, gi, at_, stk⟩ =
          .pause ⟨.completeDoc, [], pe, gi, at_, stk⟩ [] := by
        simp [step, stepCompleteDoc]
      rw [exec_cont s1, exec_pause s2]; rfl
  · rw [if_neg (by rw [h]; simp), exec_fail]; simp [step, stepCompleteDoc, h]

theorem dropWs_nil_iff (w : Str) : dropWs w = [] ↔ Space w := by
  rw [space_iff]
  induction w with
  | nil => simp [dropWs]
  | cons c w ih =>
    simp only [dropWs]
    split
    · simp [*]
    · simp [*]

/-! ### the tree behind a well-nested stream -/

/-- An element still open: its name, attributes and the children completed so far. -/
abbrev Frame := Str × Attrs × List Node

def frameNames (fs : List Frame) : List Str := fs.map (·.1)

def frameEvents : List Frame → List Event
  | [] => []
  | (n, a, cs) :: fs => frameEvents fs ++ (.start n a (frameNames fs).reverse ::
      Node.eventsList ((frameNames fs).reverse ++ [n]) cs)

theorem eventsList_append (anc : List Str) (xs ys : List Node) :
    Node.eventsList anc (xs ++ ys) = Node.eventsList anc xs ++ Node.eventsList anc ys := by
  induction xs with
  | nil => rfl
  | cons x xs ih => simp [Node.eventsList, ih]

/-- What a state of the reader says about the stream read. -/
def TreeInv (evs : List Event) : Track → Prop
  | .before => evs = []
  | .inside o => ∃ fs, o = frameNames fs ∧ fs ≠ [] ∧ evs = frameEvents fs
  | .after => ∃ n a cs, evs = Node.events [] (.elem n a cs)
  | .bad => True

theorem treeInv_next (evs : List Event) (t : Track) (ih : TreeInv evs t) (x : Event) :
    TreeInv (evs ++ [x]) (t.next x) := by
  cases t with
  | before =>
    simp only [TreeInv] at ih
    subst ih
    cases x with
    | start n a anc =>
      simp only [Track.next]
      by_cases h : anc = []
      · subst h
        exact ⟨[(n, a, [])], by simp [frameNames, frameEvents, Node.eventsList]⟩
      · simp [h, TreeInv]
    | stop n anc => trivial
    | chars s => trivial
  | inside o =>
    obtain ⟨fs, rfl, hfs, rfl⟩ := ih
    obtain ⟨⟨m, a, cs⟩, fs, rfl⟩ : ∃ f fs', fs = f :: fs' := by
      cases fs; exact absurd rfl hfs; exact ⟨_, _, rfl⟩
    cases x with
    | start n a' anc =>
      simp only [Track.next]
      by_cases h : anc = (frameNames ((m, a, cs) :: fs)).reverse
      · simp only [h, if_true]
        exact ⟨(n, a', []) :: (m, a, cs) :: fs, by simp [frameNames, frameEvents, Node.eventsList]⟩
      · simp [h, TreeInv]
    | stop n anc =>
      simp only [frameNames, List.map_cons, Track.next]
      by_cases h : n = m ∧ anc = (List.map (·.1) fs).reverse
      · rw [if_pos h]
        obtain ⟨rfl, rfl⟩ := h
        cases fs with
        | nil =>
          simp only [List.map_nil, if_true]
          exact ⟨n, a, cs, by simp [frameNames, frameEvents, Node.events]⟩
        | cons f fs =>
          obtain ⟨m', a', cs'⟩ := f
          rw [if_neg (by simp)]
          refine ⟨(m', a', cs' ++ [.elem n a cs]) :: fs, ?_⟩
          simp [frameNames, frameEvents, Node.events, Node.eventsList, eventsList_append]
      · rw [if_neg h]; trivial
    | chars s =>
      simp only [Track.next, frameNames, List.map_cons]
      refine ⟨(m, a, cs ++ [.text s]) :: fs, ?_⟩
      simp [frameNames, frameEvents, Node.events, Node.eventsList, eventsList_append]
  | after => cases x <;> trivial
  | bad => cases x <;> trivial

theorem track_frames (evs : List Event) : TreeInv evs (track evs) := by
  suffices H : ∀ (r : List Event), TreeInv r.reverse (track r.reverse) by
    have := H evs.reverse
    simpa using this
  intro r
  induction r with
  | nil => rfl
  | cons x r ih =>
    have ht : track (x :: r).reverse = (track r.reverse).next x := by
      simp [track, List.foldl_append]
    rw [ht, List.reverse_cons]
    exact treeInv_next _ _ ih x

end Amara
