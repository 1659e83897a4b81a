import Verif.Spec.ParserErrors
import Verif.Lemmas.Prompt
import Verif.Props.Parser
/-
C132: which exception bad input raises.
-/
namespace Amara

theorem HasNoCharacter.mono {v w : Str} (h : HasNoCharacter v) (hw : v <:+: w) : HasNoCharacter w := by
  obtain ⟨ds, h1, h2⟩ := h
  exact ⟨ds, h1, h2.trans hw⟩

theorem infix_skip (a v : Str) : v <:+: a ++ v := (List.suffix_append a v).isInfix

/-- What has been read of a reference when `handle_cdata` is in a given place. -/
def CMode.read : CMode → Str
  | .txt => []
  | .amp => ['&']
  | .hash => ['&', '#']
  | .hex acc => '&' :: '#' :: 'x' :: acc.reverse
  | .named _ => []

def CMode.digits : CMode → Prop
  | .hex acc => ∀ d ∈ acc, isHexDigit d = true
  | _ => True

theorem hexRef_error {ds : Str} {e : Err} (hd : ∀ d ∈ ds, isHexDigit d = true) (h : hexRef ds = .error e) :
    (e = .value ∧ NoCharacter ds) ∨
    (e = .runtime ∧ ds ≠ [] ∧ hexValue ds < 0x110000 ∧ ¬ LegalCode (hexValue ds)) := by
  have hn := hexNum_eq ds hd
  have hd' : ∀ d ∈ ds, (hexDigit? d).isSome := fun d h => (hexDigit_agree d).1.1 (hd d h)
  simp only [hexRef] at h
  split at h
  · rename_i h0; cases h; exact .inl ⟨rfl, hd', .inl h0⟩
  · rename_i h0
    split at h
    · rename_i h1; cases h; exact .inl ⟨rfl, hd', .inr (by rw [← hn]; exact h1)⟩
    · rename_i h1
      split at h
      · cases h
      · rename_i h2
        cases h
        refine .inr ⟨rfl, h0, by rw [← hn]; omega, ?_⟩
        rw [← hn, ← isCharacterN_iff]
        exact h2

theorem cdata_error {pat : Char → Bool} {stop : Char} : ∀ (w : Str) (m : CMode) (e : Err), m.digits →
    cdata pat stop m w = .fail e → e ≠ .index ∧ (e = .value → HasNoCharacter (m.read ++ w)) := by
  have hpush : ∀ {r : CRes} {c : Char} {e : Err}, r.push c = .fail e → r = .fail e := by
    intro r c e h
    cases r <;> simp_all [CRes.push]
  intro w
  induction w with
  | nil => intro m e _ h; cases m <;> simp [cdata] at h
  | cons c r ih =>
    intro m e hm h
    have later : ∀ m' : CMode, m'.digits → cdata pat stop m' r = .fail e → m'.read = [] → e ≠ .index ∧ (e = .value → HasNoCharacter (m.read ++ c :: r)) := by
      intro m' hm' h' hr
      obtain ⟨h1, h2⟩ := ih m' e hm' h'
      rw [hr, List.nil_append] at h2
      exact ⟨h1, fun he => (h2 he).mono (by
        have := infix_skip (m.read ++ [c]) r
        simpa using this)⟩
    cases m with
    | txt =>
      rw [cdata] at h
      split at h
      · exact later .txt trivial (hpush h) rfl
      · split at h
        · cases h
        · split at h
          · rename_i hc; subst hc; exact ih .amp e trivial h
          · exact later .txt trivial h rfl
    | amp =>
      rw [cdata] at h
      split at h
      · rename_i hc; subst hc; exact ih .hash e trivial h
      · split at h
        · exact later (.named [c]) trivial h rfl
        · split at h
          · cases h; exact ⟨by simp, by simp⟩
          · cases h
    | hash =>
      rw [cdata] at h
      split at h
      · rename_i hc; subst hc; exact ih (.hex []) e (by intro d hd; cases hd) h
      · cases h
    | hex acc =>
      rw [cdata] at h
      split at h
      · rename_i hc
        have := ih (.hex (c :: acc)) e (by intro d hd; rcases List.mem_cons.1 hd with rfl | hd; exact hc; exact hm d hd) h
        simpa [CMode.read] using this
      · split at h
        · rename_i hc
          subst hc
          split at h
          · exact later .txt trivial (hpush h) rfl
          · rename_i er her
            cases h
            rcases hexRef_error (fun d hd => hm d (List.mem_reverse.1 hd)) her with ⟨rfl, h1⟩ | ⟨rfl, _⟩
            · refine ⟨by simp, fun _ => ⟨acc.reverse, h1, ?_⟩⟩
              exact ⟨[], r, by simp [CMode.read]⟩
            · exact ⟨by simp, by simp⟩
        · cases h; exact ⟨by simp, by simp⟩
    | named acc =>
      rw [cdata] at h
      split at h
      · exact later (.named (c :: acc)) trivial h rfl
      · split at h
        · split at h
          · exact later .txt trivial (hpush h) rfl
          · cases h; exact ⟨by simp, by simp⟩
        · cases h

/-- Which exception one pass of the loop can raise. -/
theorem step_error {done : Bool} {s : PState} {e : Err} (h : step done s = .fail e) :
    (e = .value → HasNoCharacter s.rest) ∧
    (e = .index → (s.st = .completeTag ∧ s.stack = []) ∨ (done = true ∧ ['='] <:+ s.rest)) := by
  have hcd : ∀ {pat stop w e}, cdata pat stop .txt w = .fail e → e ≠ .index ∧ (e = .value → HasNoCharacter w) := by
    intro pat stop w e h
    exact cdata_error w .txt e trivial h
  obtain ⟨st, rest, pe, gi, at_, stk⟩ := s
  cases st <;> simp only [step] at h
  · simp only [stepPreElement, wait] at h; repeat' split at h
    all_goals cases h
  · simp only [stepInElement, wait] at h
    split at h
    · cases h
    · split at h <;> cases h
    · rename_i e' hc
      cases h
      exact ⟨(hcd hc).2, fun h => absurd h (hcd hc).1⟩
  · simp only [stepTagGi, wait] at h; repeat' split at h
    all_goals cases h
  · simp only [stepTagGi, wait] at h; repeat' split at h
    all_goals cases h
  · simp only [stepCompleteTag, wait] at h
    repeat' split at h
    all_goals first
      | (cases h; done)
      | (cases h; exact ⟨by simp, by simp⟩)
      | (cases h; exact ⟨by simp, fun _ => .inl ⟨rfl, by assumption⟩⟩)
  · simp only [stepCompleteDoc, wait] at h; repeat' split at h
    all_goals first
      | (cases h; done)
      | (cases h; exact ⟨by simp, by simp⟩)
  · cases rest with
    | nil => simp only [stepAttribute, wait] at h; split at h <;> cases h
    | cons c r =>
      simp only [stepAttribute, wait] at h
      have hsuf : dropWs (dropName r) <:+ c :: r := (dropWs_suffix _).trans ((dropName_suffix _).trans (List.suffix_cons _ _))
      split at h
      · split at h <;> cases h
      · split at h
        · split at h <;> cases h
        · rename_i d r3 hd
          rw [hd] at hsuf
          split at h
          · rename_i hq
            subst hq
            cases r3 with
            | nil =>
              simp only at h
              split at h
              · rename_i hdone
                cases h
                exact ⟨fun h => (by cases h), fun _ => .inr ⟨hdone, hsuf⟩⟩
              · cases h
            | cons q r4 =>
              simp only at h
              split at h
              · split at h
                · cases h
                · split at h <;> cases h
                · rename_i hc
                  cases h
                  exact ⟨fun he => ((hcd hc).2 he).mono (((List.suffix_cons _ _).trans (List.suffix_cons _ _)).trans hsuf).isInfix,
                    fun h => absurd h (hcd hc).1⟩
              · cases h
          · cases h
            exact ⟨fun h => (by cases h), fun h => (by cases h)⟩

theorem step_suffix {done : Bool} {s s' : PState} {evs : List Event} (h : step done s = .cont s' evs ∨ step done s = .pause s' evs) :
    s'.rest <:+ s.rest := by
  have hw : ∀ {x : PState}, wait done x = .cont s' evs ∨ wait done x = .pause s' evs → s' = x := by
    intro x h
    rcases h with h | h
    · exact (wait_cont h).2.1
    · exact (wait_pause h).2.1
  obtain ⟨st, rest, pe, gi, at_, stk⟩ := s
  have h0 := List.nil_suffix (l := rest)
  have h1 := dropWs_suffix rest
  have key : ∀ (x : StepRes), (∀ s1 e1, x = .cont s1 e1 ∨ x = .pause s1 e1 → s1.rest <:+ rest) →
      x = .cont s' evs ∨ x = .pause s' evs → s'.rest <:+ rest := fun x hx h => hx _ _ h
  have leaf : ∀ {x : StepRes} {s1 : PState} {e1 : List Event}, (x = .cont s1 e1 ∨ x = .pause s1 e1) → s1.rest <:+ rest →
      (x = .cont s' evs ∨ x = .pause s' evs) → s'.rest <:+ rest := by
    intro x s1 e1 hx hs h
    rcases hx with rfl | rfl <;> rcases h with h | h <;> cases h <;> exact hs
  have lw : ∀ {x : PState}, x.rest <:+ rest → (wait done x = .cont s' evs ∨ wait done x = .pause s' evs) → s'.rest <:+ rest := by
    intro x hx h
    rw [hw h]; exact hx
  cases st <;> simp only [step] at h
  · simp only [stepPreElement] at h
    split at h
    · exact lw h0 h
    · rename_i c r hd
      rw [hd] at h1
      split at h
      · exact leaf (.inl rfl) ((List.suffix_cons _ _).trans h1) h
      · exact leaf (.inl rfl) h1 h
  · simp only [stepInElement] at h
    split at h
    · rename_i hc
      exact leaf (.inl rfl) ((List.suffix_cons _ _).trans (cdata_stop_suffix _ _ hc)) h
    · exact lw (List.suffix_refl _) h
    · rcases h with h | h <;> cases h
  case preTagGi =>
    simp only [stepTagGi] at h
    split at h
    · exact lw h0 h
    · rename_i c r hd
      rw [hd] at h1
      have h2 := (List.suffix_cons c r).trans h1
      split at h
      · exact leaf (.inl rfl) h2 h
      · split at h
        · split at h
          · exact lw h1 h
          · exact leaf (.inl rfl) ((dropName_suffix _).trans h2) h
        · exact leaf (.inl rfl) h1 h
  case preCompleteTagGi =>
    simp only [stepTagGi] at h
    split at h
    · exact lw h0 h
    · rename_i c r hd
      rw [hd] at h1
      have h2 := (List.suffix_cons c r).trans h1
      split at h
      · exact leaf (.inl rfl) h2 h
      · split at h
        · split at h
          · exact lw h1 h
          · exact leaf (.inl rfl) ((dropName_suffix _).trans h2) h
        · exact leaf (.inl rfl) h1 h
  case completeTag =>
    simp only [stepCompleteTag] at h
    split at h
    · exact lw h0 h
    · rename_i c r hd
      rw [hd] at h1
      have h2 := (List.suffix_cons c r).trans h1
      split at h
      · exact leaf (.inl rfl) h1 h
      · split at h
        · split at h
          · split at h
            · exact leaf (.inr rfl) h2 h
            · exact leaf (.inl rfl) h2 h
          · split at h
            · rcases h with h | h <;> cases h
            · split at h
              · rcases h with h | h <;> cases h
              · split at h
                · exact leaf (.inr rfl) h2 h
                · exact leaf (.inl rfl) h2 h
        · rcases h with h | h <;> cases h
  case completeDoc =>
    simp only [stepCompleteDoc] at h
    split at h
    · exact leaf (.inr rfl) (List.suffix_refl _) h
    · split at h
      · exact lw h0 h
      · rcases h with h | h <;> cases h
  case «attribute» =>
    simp only [stepAttribute] at h
    split at h
    · exact lw (List.suffix_refl _) h
    · rename_i c r
      have hsuf : dropWs (dropName r) <:+ c :: r := (dropWs_suffix _).trans ((dropName_suffix _).trans (List.suffix_cons _ _))
      split at h
      · exact lw (List.suffix_refl _) h
      · split at h
        · exact lw (List.suffix_refl _) h
        · rename_i d r3 hd
          rw [hd] at hsuf
          split at h
          · split at h
            · split at h
              · rcases h with h | h <;> cases h
              · exact leaf (.inr rfl) (List.suffix_refl _) h
            · rename_i q r4
              have h3 := (List.suffix_cons d (q :: r4)).trans hsuf
              split at h
              · split at h
                · rename_i hc
                  exact leaf (.inl rfl) ((((List.suffix_cons _ _).trans (cdata_stop_suffix _ _ hc)).trans (List.suffix_cons _ _)).trans h3) h
                · exact lw h3 h
                · rcases h with h | h <;> cases h
              · exact leaf (.inl rfl) h3 h
          · rcases h with h | h <;> cases h

theorem exec_error {done : Bool} (s : PState) : ∀ t, NestInv s t → ∀ e, (exec done s).2 = .raised e →
    (e = .value → HasNoCharacter s.rest) ∧
    (e = .index → (exec done s).1.foldl Track.next t = .before ∨ (done = true ∧ ['='] <:+ s.rest)) := by
  refine exec_induct (done := done) (P := fun s evs o => ∀ t, NestInv s t → ∀ e, o = .raised e →
    (e = .value → HasNoCharacter s.rest) ∧
    (e = .index → evs.foldl Track.next t = .before ∨ (done = true ∧ ['='] <:+ s.rest))) ?_ ?_ ?_ ?_ s
  · intro s s' evs hs t ht e he; cases he
  · intro s e hs t ht e' he
    cases he
    obtain ⟨h1, h2⟩ := step_error hs
    refine ⟨h1, fun h => ?_⟩
    rcases h2 h with ⟨h3, h4⟩ | h3
    · left
      rw [List.foldl_nil, ht.trk, PState.trk, h3, h4]
      rfl
    · exact .inr h3
  · intro s hs t ht e he; cases he
  · intro s s' evs evs' o hs ih t ht e he
    obtain ⟨h1, h2⟩ := ih _ ((step_nest ht).1 _ _ hs) e he
    have hsuf := step_suffix (.inl hs)
    refine ⟨fun h => (h1 h).mono hsuf.isInfix, fun h => ?_⟩
    rw [List.foldl_append]
    rcases h2 h with h3 | ⟨h3, h4⟩
    · exact .inl h3
    · exact .inr ⟨h3, h4.trans hsuf⟩

theorem exec_suffix {done : Bool} (s : PState) : ∀ s', (exec done s).2 = .paused s' → s'.rest <:+ s.rest := by
  refine exec_induct (done := done) (P := fun s _ o => ∀ s', o = .paused s' → s'.rest <:+ s.rest) ?_ ?_ ?_ ?_ s
  · intro s s' evs hs s1 h; cases h; exact step_suffix (.inr hs)
  · intro s e _ s1 h; cases h
  · intro s _ s1 h; cases h
  · intro s s' evs evs' o hs ih s1 h; exact (ih s1 h).trans (step_suffix (.inl hs))

/-- What a parser has not yet dealt with is an end of what it was sent. -/
theorem sends_suffix (hist : List (Str × Bool)) : ∀ (p : Session) (w : Str), (∀ s, p = .awaiting s → s.rest <:+ w) →
    ∀ s, (sends p hist).2 = .awaiting s → s.rest <:+ w ++ hist.flatMap (·.1) := by
  induction hist with
  | nil => intro p w h s hs; simpa using h s hs
  | cons x hist ih =>
    obtain ⟨f, d⟩ := x
    intro p w h s hs
    rw [List.flatMap_cons, ← List.append_assoc]
    refine ih (send p f d).2.2 (w ++ f) ?_ s hs
    intro s1 h1
    cases p with
    | awaiting s0 =>
      have h0 := h s0 rfl
      by_cases hf : f = []
      · subst hf
        simp only [send, if_true] at h1
        cases d with
        | true => cases h1
        | false => cases h1; simpa using h0
      · rw [send_awaiting s0 hf] at h1
        cases hx : (exec d (s0.app f)).2 with
        | paused s2 =>
          rw [hx] at h1
          cases d with
          | true => cases h1
          | false =>
            cases h1
            have := exec_suffix _ _ hx
            refine this.trans ?_
            obtain ⟨a, ha⟩ := h0
            exact ⟨a, by rw [PState.app, ← ha]; simp⟩
        | raised e => rw [hx] at h1; cases h1
        | running s2 => rw [hx] at h1; cases h1
    | finished => cases h1
    | dead => cases h1
    | hung s0 => cases h1

theorem foldl_before {evs : List Event} : ∀ {t : Track}, evs.foldl Track.next t = .before → evs = [] ∧ t = .before := by
  induction evs with
  | nil => intro t h; exact ⟨rfl, h⟩
  | cons x evs ih =>
    intro t h
    obtain ⟨_, h2⟩ := ih (t := t.next x) h
    exfalso
    cases t with
    | before => cases x <;> simp only [Track.next] at h2 <;> (try split at h2) <;> cases h2
    | inside o =>
      cases x with
      | start n as anc => simp only [Track.next] at h2; split at h2 <;> cases h2
      | chars c => simp only [Track.next] at h2; cases h2
      | stop n anc =>
        cases o with
        | nil => cases h2
        | cons m o => simp only [Track.next] at h2; (repeat' split at h2) <;> cases h2
    | after => cases x <;> cases h2
    | bad => cases x <;> cases h2

/-- C132, exactly: whatever was sent before, a call that raises anything but RuntimeError raises ValueError, and then the input
has a hexadecimal reference without digits or beyond U+10FFFF; or IndexError, and then no element was ever opened, or the
call was the final one and its text ends with '='. -/
theorem C132_which_exception (hist : List (Str × Bool)) (f : Str) (d : Bool) (e : Err)
    (h : (send (sends newParser hist).2 f d).2.1 = .raised e) :
    e = .runtime ∨
    (e = .value ∧ HasNoCharacter (hist.flatMap (·.1) ++ f)) ∨
    (e = .index ∧ (((sends newParser hist).1 = [] ∧ (send (sends newParser hist).2 f d).1 = []) ∨ (d = true ∧ ['='] <:+ f))) := by
  have hn := sends_nest (hist := hist) newParser_nest
  have hs := sends_suffix hist newParser [] (by intro s hs; cases hs; exact List.suffix_refl _)
  cases hp : (sends newParser hist).2 with
  | finished => rw [hp] at h; cases h
  | dead => rw [hp] at h; cases h
  | hung s => rw [hp] at h; cases h
  | awaiting s =>
    rw [hp] at h hn
    have hs := hs s hp
    rw [List.nil_append] at hs
    by_cases hf : f = []
    · subst hf; cases h
    · rw [send_awaiting s hf] at h
      rw [send_awaiting s hf]
      have hx := exec_error (done := d) (s.app f) _ (NestInv.app hn f)
      cases hr : (exec d (s.app f)).2 with
      | paused s2 => rw [hr] at h; cases h
      | running s2 => rw [hr] at h; cases h
      | raised e' =>
        rw [hr] at h
        cases h
        obtain ⟨h1, h2⟩ := hx e hr
        cases e with
        | runtime => exact .inl rfl
        | value =>
          refine .inr (.inl ⟨rfl, (h1 rfl).mono ?_⟩)
          obtain ⟨a, ha⟩ := hs
          exact ⟨a, [], by rw [← ha, PState.app]; simp⟩
        | index =>
          refine .inr (.inr ⟨rfl, ?_⟩)
          rcases h2 rfl with h3 | ⟨h3, h4⟩
          · obtain ⟨h5, h6⟩ := foldl_before h3
            exact .inl ⟨(foldl_before h6).1, h5⟩
          · refine .inr ⟨h3, ?_⟩
            obtain ⟨a, ha⟩ : ['='] <:+ s.rest ++ f := h4
            refine ⟨f.dropLast, ?_⟩
            have h5 := congrArg List.getLast? ha
            rw [List.getLast?_append, List.getLast?_append] at h5
            have h6 : f.getLast? = some '=' := by
              cases hl : f.getLast? with
              | none => exact absurd (List.getLast?_eq_none_iff.1 hl) hf
              | some x => rw [hl] at h5; simpa using h5.symm
            have h7 := List.dropLast_concat_getLast hf
            rw [List.getLast?_eq_some_getLast hf] at h6
            rw [Option.some.inj h6] at h7
            exact h7

theorem BadRefAs.badRef {b : Str} {e : Err} (h : BadRefAs b e) : BadRef b := by
  cases h with
  | name h1 h2 => exact .name h1 h2
  | @noCharacter ds t h1 =>
    refine .number h1.1 ?_
    rcases h1.2 with h2 | h2
    · exact .inl h2
    · right
      intro h3
      simp only [LegalCode] at h3
      omega
  | illegal h1 h2 h3 h4 => exact .number h1 (.inr h4)
  | digit h1 h2 h3 => exact .digit h1 h2 h3

theorem cdata_badRefAs {pat : Char → Bool} {stop : Char} {b : Str} {e : Err} (hb : BadRefAs b e)
    (hamp : pat '&' = false) (hsa : stop ≠ '&') : cdata pat stop .txt b = .fail e := by
  obtain ⟨e', he⟩ := cdata_badRef hb.badRef hamp hsa
  have hsa' : ¬ '&' = stop := fun h => hsa h.symm
  rw [he]
  congr 1
  cases hb with
  | @name n t hn hu =>
    simp only [cdata, hamp, hsa', if_false, if_true, Bool.false_eq_true] at he
    cases n with
    | nil => simp [cdata, show isNamedRefChar ';' = false by decide] at he; exact he.symm
    | cons d n =>
      have hd : isNamedRefChar d = true := by rw [isNamedRefChar_eq]; exact hn d (by simp)
      simp only [List.cons_append, cdata, alnum_ne_hash (hn d (by simp)), if_false, hd, if_true] at he
      rw [cdata_named n [d] _ (fun c hc => by rw [isNamedRefChar_eq]; exact hn c (by simp [hc]))] at he
      simp [charName_none hu] at he
      exact he.symm
  | @noCharacter ds t h1 =>
    simp only [cdata, hamp, hsa', if_false, if_true, Bool.false_eq_true] at he
    have hh : ∀ d ∈ ds, isHexDigit d = true := fun d h => (hexDigit_agree d).1.2 (h1.1 d h)
    rw [cdata_hex ds [] _ hh] at he
    have hx : hexRef ds = .error .value := by
      unfold hexRef
      rcases h1.2 with h2 | h2
      · simp [h2]
      · rw [← hexNum_eq ds hh] at h2
        split
        · rfl
        · simp [h2]
    simp only [List.reverse_nil, List.nil_append, hx] at he
    cases he; rfl
  | @illegal ds t h1 h2 h3 h4 =>
    simp only [cdata, hamp, hsa', if_false, if_true, Bool.false_eq_true] at he
    have hh : ∀ d ∈ ds, isHexDigit d = true := fun d h => (hexDigit_agree d).1.2 (h1 d h)
    rw [cdata_hex ds [] _ hh] at he
    simp only [List.reverse_nil, List.nil_append] at he
    have hx : hexRef ds = .error .runtime := by
      unfold hexRef
      rw [← hexNum_eq ds hh] at h3 h4
      rw [← isCharacterN_iff] at h4
      simp [h2, h4, Nat.not_le.2 h3]
    rw [hx] at he
    cases he; rfl
  | @digit ds c t hd hc hsemi =>
    simp only [cdata, hamp, hsa', if_false, if_true, Bool.false_eq_true] at he
    have hc' : isHexDigit c = false := by
      cases hh : isHexDigit c with
      | false => rfl
      | true => have := (hexDigit_agree c).1.1 hh; rw [hc] at this; cases this
    have : ∀ acc, cdata pat stop (.hex acc) (ds ++ c :: t) = .fail .runtime := by
      clear he
      induction ds with
      | nil => intro acc; simp [cdata, hc', hsemi]
      | cons d ds ih =>
        intro acc
        simp only [List.cons_append, cdata, (hexDigit_agree d).1.2 (hd d (by simp)), if_true]
        exact ih (fun x hx => hd x (by simp [hx])) _
    rw [this []] at he
    cases he; rfl

/-- C132, in text: the exception for a bad reference: ValueError for one without digits or beyond U+10FFFF, RuntimeError for
every other. -/
theorem C132_bad_reference_in_text {stk evs w s raw b e} (h : Open stk evs w) (hs : Spells TextLit s raw) (hb : BadRefAs b e) :
    send newParser (w ++ (raw ++ b)) false = (evs, .raised e, .dead) := by
  have he := cdata_badRefAs (pat := isDataChar) (stop := '<') hb (by decide) (by decide)
  obtain ⟨c, t, hc⟩ : ∃ c t, raw ++ b = c :: t := by
    cases hh : raw ++ b
    · cases hb <;> simp at hh
    · exact ⟨_, _, rfl⟩
  obtain ⟨pe, gi, r0⟩ := reach_open (done := false) h c t
  rw [← hc] at r0
  rw [send_new _ (by simp [h.ne_nil.2]), exec_reach r0, exec_fail (e := e)]
  · simp
  · simp only [step, stepInElement, cdata_text_pre hs, he, CRes.pushAll_fail]

/-- C132, in an attribute value: likewise. -/
theorem C132_bad_reference_in_attribute {stk evs w n kvs wa w0 w1 k w2 q s raw b e}
    (h : TagAt stk evs w) (hw0 : Space w0) (hn : IsName n) (ha : IsAttrs kvs wa) (hw1 : w1 ≠ [])
    (hw1' : Space w1) (hk : IsName k) (hw2 : Space w2) (hq : q = '"' ∨ q = '\'')
    (hs : Spells (AttrLit q) s raw) (hb : BadRefAs b e) :
    send newParser (w ++ (w0 ++ (n ++ (wa ++ (w1 ++ (k ++ (w2 ++ '=' :: q :: (raw ++ b)))))))) false =
      (evs, .raised e, .dead) := by
  have he := cdata_badRefAs (pat := attrPat q) (stop := q) hb
    (by rcases hq with rfl | rfl <;> decide) (by rcases hq with rfl | rfl <;> decide)
  have r0 := reach_attrValue (done := false) (q := q) h hw0 hn ha hw1 hw1' hk (w2 := w2) (raw ++ b)
  rw [send_new _ (by cases h <;> simp), exec_reach r0, exec_fail (e := e)]
  · simp
  · rw [step_attrValue hk hw2 hq, cdata_attr_pre hq hs, he, CRes.pushAll_fail]

/-- C132: the other two exceptions do occur, so `except RuntimeError` does not catch all bad input: a reference without digits and one beyond U+10FFFF
raise ValueError, an end tag before any start tag raises IndexError, and so does a document that ends after an attribute's
'='. -/
theorem C132_not_only_runtime :
    (send newParser "<a>&#x;".toList false).2.1 = .raised .value ∧
    (send newParser "<a>&#x110000;".toList false).2.1 = .raised .value ∧
    (send newParser "</a>".toList false).2.1 = .raised .index ∧
    (send newParser "<a b=".toList true).2.1 = .raised .index := by
  refine ⟨?_, ?_, ?_, ?_⟩ <;> decide +kernel

/-- U+10FFFF is not a character the parser takes (RuntimeError), U+110000 is no code at all (ValueError). -/
example : BadRefAs "&#x110000;".toList .value := .noCharacter (ds := "110000".toList) (t := []) ⟨by decide, .inr (by decide)⟩
example : BadRefAs "&#x;".toList .value := .noCharacter (ds := []) (t := []) ⟨by decide, .inl rfl⟩
example : BadRefAs "&#x10FFFF;".toList .runtime := .illegal (ds := "10FFFF".toList) (t := []) (by decide) (by decide) (by decide) (by decide)
example : BadRefAs "&#xD800;".toList .runtime := .illegal (ds := "D800".toList) (t := []) (by decide) (by decide) (by decide) (by decide)
example : BadRefAs "&nbsp;".toList .runtime := .name (n := "nbsp".toList) (t := []) (by decide) (by decide)
example : HasNoCharacter "<a>x&#x;".toList := ⟨[], ⟨by decide, .inl rfl⟩, "<a>x".toList, [], rfl⟩
/-- In pieces, after other calls. -/
example : (send (sends newParser [("<a>&#".toList, false), ("x11".toList, false)]).2 "0000;".toList false).2.1 = .raised .value := by
  decide +kernel

end Amara
