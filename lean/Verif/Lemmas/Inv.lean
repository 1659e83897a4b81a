import Verif.Lemmas.Chunk
import Verif.Lemmas.Valid
import Verif.Spec.Nesting
/-
Invariants of the parser over all inputs.
-/
namespace Amara

/-! ### nesting -/

/-- What the stack of open elements says about the events delivered so far. -/
def PState.trk (s : PState) : Track :=
  if s.st = .completeDoc then .after else if s.stack = [] then .before else .inside s.stack

/-- Consistency of the parser's state with the events delivered so far. -/
structure NestInv (s : PState) (t : Track) : Prop where
  trk : t = s.trk
  inElem : s.st = .inElement → s.stack ≠ []
  pre : s.st = .preElement → s.stack = []

theorem step_nest {done : Bool} {s : PState} {t : Track} (h : NestInv s t) :
    (∀ s' evs, step done s = .cont s' evs → NestInv s' (evs.foldl Track.next t)) ∧
    (∀ s' evs, step done s = .pause s' evs → NestInv s' (evs.foldl Track.next t)) := by
  obtain ⟨rfl, h2, h3⟩ := h
  obtain ⟨st, rest, pe, gi, at_, stk⟩ := s
  have hw : ∀ {x : PState} {s' evs}, wait done x = .cont s' evs ∨ wait done x = .pause s' evs →
      s' = x ∧ evs = [] := by
    intro x s' evs h
    rcases h with h | h
    · exact (wait_cont h).2
    · exact (wait_pause h).2
  constructor <;> intro s' evs h <;> cases st <;> simp only [step] at h
  all_goals simp only [reduceCtorEq, true_imp_iff, false_imp_iff] at h2 h3
  all_goals first
    | (simp only [stepPreElement] at h)
    | (simp only [stepInElement] at h)
    | (simp only [stepTagGi] at h)
    | (simp only [stepCompleteTag] at h)
    | (simp only [stepCompleteDoc] at h)
    | (simp only [stepAttribute] at h)
  all_goals repeat' split at h
  all_goals first
    | (cases h; done)
    | (obtain ⟨rfl, rfl⟩ := hw (.inl h); constructor <;> simp_all [PState.trk]; done)
    | (obtain ⟨rfl, rfl⟩ := hw (.inr h); constructor <;> simp_all [PState.trk]; done)
    | (cases h; constructor <;> simp_all [PState.trk, Track.next]; done)
    | (cases h; constructor <;> simp_all [PState.trk, Track.next] <;> (split <;> simp_all); done)
    | (cases h; cases stk <;> constructor <;> simp [PState.trk, Track.next])

theorem exec_nest {done : Bool} (s : PState) : ∀ t, NestInv s t →
    match (exec done s).2 with
    | .paused s' => NestInv s' ((exec done s).1.foldl Track.next t)
    | .running s' => NestInv s' ((exec done s).1.foldl Track.next t)
    | .raised _ => (exec done s).1.foldl Track.next t ≠ .bad := by
  refine exec_induct (done := done) (P := fun s evs o => ∀ t, NestInv s t →
    match o with
    | .paused s' => NestInv s' (evs.foldl Track.next t)
    | .running s' => NestInv s' (evs.foldl Track.next t)
    | .raised _ => evs.foldl Track.next t ≠ .bad) ?_ ?_ ?_ ?_ s
  · intro s s' evs hs t ht; exact (step_nest ht).2 _ _ hs
  · intro s e _ t ht
    obtain ⟨rfl, _, _⟩ := ht
    simp only [List.foldl_nil, PState.trk]
    repeat' split
    all_goals simp
  · intro s hs t ht; exact ht
  · intro s s' evs evs' o hs ih t ht
    have := ih _ ((step_nest ht).1 _ _ hs)
    simpa [List.foldl_append] using this

theorem NestInv.ne_bad {s : PState} {t : Track} (h : NestInv s t) : t ≠ .bad := by
  obtain ⟨rfl, _, _⟩ := h
  simp only [PState.trk]
  repeat' split
  all_goals simp

theorem NestInv.app {s : PState} {t : Track} (h : NestInv s t) (y : Str) : NestInv (s.app y) t :=
  ⟨h.trk, h.inElem, h.pre⟩

theorem send_awaiting (s : PState) {frag : Str} (hf : frag ≠ []) (done : Bool) :
    send (.awaiting s) frag done =
      match (exec done (s.app frag)).2 with
      | .paused s' => ((exec done (s.app frag)).1, .returned,
          if done then .finished else .awaiting s')
      | .raised e => ((exec done (s.app frag)).1, .raised e, .dead)
      | .running s' => ((exec done (s.app frag)).1, .never, .hung s') := by
  simp only [send, hf, if_false, exec, PState.app]
  split <;> simp_all

/-- Consistency of a session with the events delivered so far. -/
def SessNest : Session → Track → Prop
  | .awaiting s, t => NestInv s t
  | .hung s, t => NestInv s t
  | _, t => t ≠ .bad

theorem SessNest.ne_bad {p : Session} {t : Track} (h : SessNest p t) : t ≠ .bad := by
  cases p <;> simp only [SessNest] at h
  · exact h.ne_bad
  · exact h
  · exact h
  · exact h.ne_bad

theorem send_nest {p : Session} {t : Track} (h : SessNest p t) (f : Str) (d : Bool) :
    SessNest (send p f d).2.2 ((send p f d).1.foldl Track.next t) := by
  cases p with
  | awaiting s =>
    by_cases hf : f = []
    · simp only [send, hf, if_true, List.foldl_nil]
      cases d
      · exact h
      · exact SessNest.ne_bad h
    · rw [send_awaiting s hf]
      have hx := exec_nest (done := d) (s.app f) t (NestInv.app h f)
      cases hs : (exec d (s.app f)).2 with
      | paused s' =>
        rw [hs] at hx; simp only at hx ⊢
        cases d
        · exact hx
        · exact NestInv.ne_bad hx
      | raised e => rw [hs] at hx; exact hx
      | running s' => rw [hs] at hx; exact hx
  | finished => exact h
  | dead => exact h
  | hung s => exact h

theorem sends_nest {hist : List (Str × Bool)} : ∀ {p : Session} {t : Track}, SessNest p t →
    SessNest (sends p hist).2 ((sends p hist).1.foldl Track.next t) := by
  induction hist with
  | nil => intro p t h; exact h
  | cons x hist ih =>
    obtain ⟨f, d⟩ := x
    intro p t h
    simp only [sends, List.foldl_append]
    exact ih (send_nest h f d)

theorem newParser_nest : SessNest newParser .before :=
  ⟨rfl, by simp [PState.init], by simp [PState.init]⟩

/-! ### legality of what is delivered -/

structure LegalInv (s : PState) : Prop where
  gi : NameOrEmpty s.gi
  at_ : ∀ p ∈ s.attribs, ∀ c ∈ p.2, Legal c
  stk : ∀ m ∈ s.stack, NameOrEmpty m

theorem charName_legal {n : Str} {c : Char} (h : charName n = some c) : Legal c := by
  simp only [charName] at h
  repeat' split at h
  all_goals first | (cases h; done) | (cases h; decide)

theorem cdata_legal {pat : Char → Bool} {stop} (hp : ∀ c, pat c = true → Legal c) :
    ∀ (r : Str) {m : CMode} {s t : Str}, cdata pat stop m r = .found s t → ∀ c ∈ s, Legal c := by
  intro r
  induction r with
  | nil => intro m s t h; cases m <;> simp [cdata] at h
  | cons c r ih =>
    intro m s t h
    have keyp : ∀ {m s d}, Legal d → (cdata pat stop m r).push d = .found s t → ∀ c ∈ s, Legal c := by
      intro m s d hd h
      obtain ⟨s', h', rfl⟩ := CRes.push_found h
      intro c hc
      rcases List.mem_cons.1 hc with rfl | hc
      · exact hd
      · exact ih h' c hc
    cases m <;> simp only [cdata] at h
    · split at h
      · exact keyp (hp _ (by assumption)) h
      · split at h
        · cases h; simp
        · split at h <;> exact ih h
    · repeat' split at h
      all_goals first | exact ih h | cases h
    · repeat' split at h
      all_goals first | exact ih h | cases h
    · repeat' split at h
      all_goals first
        | exact ih h
        | (rename_i hx; exact keyp (hexRef_ok hx).2.2 h)
        | cases h
    · repeat' split at h
      all_goals first
        | exact ih h
        | (rename_i hx; exact keyp (charName_legal hx) h)
        | cases h

theorem takeName_all (r : Str) : ∀ c ∈ takeName r, isNameChar c = true := by
  induction r with
  | nil => simp [takeName]
  | cons c r ih =>
    simp only [takeName]
    split
    · intro d hd
      rcases List.mem_cons.1 hd with rfl | hd
      · assumption
      · exact ih d hd
    · simp

theorem Attrs.mem_set {a : Attrs} {k v : Str} {p : Str × Str} (h : p ∈ a.set k v) :
    p ∈ a ∨ p.2 = v := by
  induction a with
  | nil => simp [Attrs.set] at h; right; rw [h]
  | cons x a ih =>
    obtain ⟨k', v'⟩ := x
    simp only [Attrs.set] at h
    split at h
    · rcases List.mem_cons.1 h with rfl | h
      · right; rfl
      · left; simp [h]
    · rcases List.mem_cons.1 h with rfl | h
      · left; simp
      · rcases ih h with h | h
        · left; simp [h]
        · right; exact h

theorem step_legal {done : Bool} {s : PState} (h : LegalInv s) :
    (∀ s' evs, step done s = .cont s' evs → LegalInv s' ∧ ∀ e ∈ evs, LegalEvent e) ∧
    (∀ s' evs, step done s = .pause s' evs → LegalInv s' ∧ ∀ e ∈ evs, LegalEvent e) := by
  obtain ⟨h1, h2, h3⟩ := h
  obtain ⟨st, rest, pe, gi, at_, stk⟩ := s
  simp only at h1 h2 h3
  have hw : ∀ {x : PState} {s' evs}, wait done x = .cont s' evs ∨ wait done x = .pause s' evs →
      s' = x ∧ evs = [] := by
    intro x s' evs h
    rcases h with h | h
    · exact (wait_cont h).2
    · exact (wait_pause h).2
  have hd : ∀ {m s t}, cdata isDataChar '<' m rest = .found s t → ∀ c ∈ s, Legal c :=
    fun h => cdata_legal (fun c hc => ((isDataChar_iff c).1 hc).1) _ h
  have ha : ∀ {q r m s t}, (q = '"' ∨ q = '\'') → cdata (attrPat q) q m r = .found s t →
      ∀ c ∈ s, Legal c := by
    intro q r m s t hq h
    exact cdata_legal (fun c hc => ((attrPat_iff hq c).1 hc).1) _ h
  have triv : ∀ (x : PState), NameOrEmpty x.gi → (∀ p ∈ x.attribs, ∀ c ∈ p.2, Legal c) →
      (∀ m ∈ x.stack, NameOrEmpty m) → LegalInv x ∧ ∀ e ∈ ([] : List Event), LegalEvent e :=
    fun x a b c => ⟨⟨a, b, c⟩, by simp⟩
  constructor <;> intro s' evs h <;> cases st <;> simp only [step] at h
  all_goals first
    | (simp only [stepPreElement] at h)
    | (simp only [stepInElement] at h)
    | (simp only [stepTagGi] at h)
    | (simp only [stepCompleteTag] at h)
    | (simp only [stepCompleteDoc] at h)
    | (simp only [stepAttribute] at h)
  all_goals repeat' split at h
  all_goals first
    | (cases h; done)
    | (obtain ⟨rfl, rfl⟩ := hw (.inl h); exact triv _ h1 h2 h3)
    | (obtain ⟨rfl, rfl⟩ := hw (.inr h); exact triv _ h1 h2 h3)
    | (cases h; exact triv _ h1 h2 h3)
    | (cases h; exact triv _ (.inl rfl) h2 h3)
    | (cases h; refine triv _ (.inr (isName_iff.2 ⟨_, _, rfl, by assumption, takeName_all _⟩)) h2 h3)
    | (cases h
       refine ⟨⟨h1, h2, h3⟩, ?_⟩
       intro e he; rw [List.mem_singleton] at he; subst he
       exact ⟨by assumption, hd (by assumption)⟩)
    | (cases h
       refine ⟨⟨h1, by simp, ?_⟩, ?_⟩
       · intro m hm; rcases List.mem_cons.1 hm with rfl | hm
         · exact h1
         · exact h3 m hm
       · intro e he; rw [List.mem_singleton] at he; subst he
         exact ⟨h1, h2, fun m hm => h3 m (by simpa using hm)⟩)
    | (cases h
       refine ⟨⟨h1, by simp, fun m hm => h3 m (by simp [hm])⟩, ?_⟩
       intro e he; rw [List.mem_singleton] at he; subst he
       exact ⟨h1, fun m hm => h3 m (by simp [List.mem_reverse.1 hm])⟩)
    | (cases h
       refine triv _ h1 (fun p hp => ?_) h3
       rcases Attrs.mem_set hp with hp | hp
       · exact h2 p hp
       · rw [hp]; exact ha (by assumption) (by assumption))

theorem exec_legal {done : Bool} (s : PState) : LegalInv s →
    (∀ e ∈ (exec done s).1, LegalEvent e) ∧
    match (exec done s).2 with
    | .paused s' => LegalInv s'
    | .running s' => LegalInv s'
    | .raised _ => True := by
  refine exec_induct (done := done) (P := fun s evs o => LegalInv s →
    (∀ e ∈ evs, LegalEvent e) ∧
    match o with
    | .paused s' => LegalInv s'
    | .running s' => LegalInv s'
    | .raised _ => True) ?_ ?_ ?_ ?_ s
  · intro s s' evs hs h
    have := (step_legal h).2 _ _ hs
    exact ⟨this.2, this.1⟩
  · intro s e _ _; simp
  · intro s hs h; exact ⟨by simp, h⟩
  · intro s s' evs evs' o hs ih h
    have h1 := (step_legal h).1 _ _ hs
    have h2 := ih h1.1
    refine ⟨?_, h2.2⟩
    intro e he
    rcases List.mem_append.1 he with he | he
    · exact h1.2 e he
    · exact h2.1 e he

/-- As `LegalInv` for a session. -/
def SessLegal : Session → Prop
  | .awaiting s => LegalInv s
  | .hung s => LegalInv s
  | _ => True

theorem send_legal {p : Session} (h : SessLegal p) (f : Str) (d : Bool) :
    SessLegal (send p f d).2.2 ∧ ∀ e ∈ (send p f d).1, LegalEvent e := by
  cases p with
  | awaiting s =>
    by_cases hf : f = []
    · simp only [send, hf, if_true, List.not_mem_nil, false_imp_iff, implies_true, and_true]
      cases d
      · exact h
      · trivial
    · rw [send_awaiting s hf]
      have hx := exec_legal (done := d) (s.app f) ⟨h.gi, h.at_, h.stk⟩
      cases hs : (exec d (s.app f)).2 with
      | paused s' =>
        rw [hs] at hx; simp only at hx ⊢
        refine ⟨?_, hx.1⟩
        cases d
        · exact hx.2
        · trivial
      | raised e => exact ⟨trivial, hx.1⟩
      | running s' => rw [hs] at hx; exact ⟨hx.2, hx.1⟩
  | finished => exact ⟨trivial, by simp [send]⟩
  | dead => exact ⟨trivial, by simp [send]⟩
  | hung s => exact ⟨h, by simp [send]⟩

theorem sends_legal {hist : List (Str × Bool)} : ∀ {p : Session}, SessLegal p →
    ∀ e ∈ (sends p hist).1, LegalEvent e := by
  induction hist with
  | nil => intro p h; simp [sends]
  | cons x hist ih =>
    obtain ⟨f, d⟩ := x
    intro p h e he
    simp only [sends] at he
    rcases List.mem_append.1 he with he | he
    · exact (send_legal h f d).2 e he
    · exact ih (send_legal h f d).1 e he

theorem newParser_legal : SessLegal newParser :=
  ⟨.inl rfl, by simp [PState.init], by simp [PState.init]⟩

end Amara
