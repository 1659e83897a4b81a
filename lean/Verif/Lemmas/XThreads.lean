import Verif.Spec.XThreads
import Verif.Props.XParse
/-
Lemmas about calls of `uxpath.parse` that share the lexer of the module.
-/
namespace Amara
open Amara.X

variable {F : Type}

/-- What a running call has still to read. -/
def Ahead (fo : FloatOps F) (l : Str) : Option (Option (Tok F)) → List (Tok F) × Bool
  | none => xlex fo l
  | some none => ([], false)
  | some (some t) => (t :: (xlex fo l).1, (xlex fo l).2)

theorem xlex_token (fo : FloatOps F) (l : Str) :
    match lexerToken fo l with
    | (l', some a) => xlex fo l = Ahead fo l' (some a)
    | (_, none) => xlex fo l = ([], true) := by
  have hx : xlex fo l = match lexOne fo (l.dropWhile isIgnored) with
      | .tok t r => (t :: (lexN fo l.length r).1, (lexN fo l.length r).2)
      | .eof => ([], false)
      | .bad => ([], true) := rfl
  rw [hx]
  unfold lexerToken
  cases h : lexOne fo (l.dropWhile isIgnored) with
  | eof => rfl
  | bad => rfl
  | tok t r =>
    obtain ⟨u, h1, h2, -⟩ := lexOne_inv h
    have hu : 0 < u.length := List.length_pos_iff.mpr (spells_ne h2)
    have hlen : (l.takeWhile isIgnored).length + (u.length + r.length) = l.length := by
      rw [← List.length_append, ← List.length_append, ← h1, List.takeWhile_append_dropWhile]
    have := lexN_enough fo r (l.length - 1) (by omega)
    rw [show l.length - 1 + 1 = l.length by omega] at this
    simp only [Ahead, this]

/-- A number of steps of one call. -/
def crun (fo : FloatOps F) : Nat → Str × PCall F → Str × PCall F
  | 0, p => p
  | n + 1, p => crun fo n (p.2.step fo p.1)

theorem crun_succ (fo : FloatOps F) : ∀ (n : Nat) (p : Str × PCall F), crun fo (n + 1) p =
    (crun fo n p).2.step fo (crun fo n p).1
  | 0, _ => rfl
  | n + 1, p => by rw [crun, crun_succ fo n, ← crun]

/-- A round of the driver with all tokens at hand, and one with the token looked at. -/
theorem lookStep_eq (fo : FloatOps F) (st : List (Nat × Val F)) (l : Str) (a : Option (Tok F)) :
    match pstep (Ahead fo l (some a)).2 st (Ahead fo l (some a)).1 with
    | .next st' inp => ∃ look, lookStep st a = .run st' look ∧ Ahead fo l look = (inp, (Ahead fo l (some a)).2)
    | .done e => lookStep st a = .done (.ok e)
    | .fail e => lookStep st a = .done (.error e) := by
  cases a with
  | none =>
    show match pstep false st [] with | .next st' inp => _ | .done e => _ | .fail e => _
    unfold lookStep
    rw [Option.toList]
    cases h : pstep false st ([] : List (Tok F)) with
    | done e => rfl
    | fail e => rfl
    | next st' inp =>
      have : inp = [] := by
        unfold pstep at h
        simp only [lookahead, Bool.false_eq_true, if_false] at h
        split at h
        · cases h
        · unfold reduceBy at h
          split at h
          · cases h
          · split at h
            · cases h
            · cases h; rfl
        · split at h <;> cases h
        · cases h
      subst this
      exact ⟨some none, rfl, rfl⟩
  | some t =>
    show match pstep (xlex fo l).2 st (t :: (xlex fo l).1) with | .next st' inp => _ | .done e => _ | .fail e => _
    unfold lookStep pstep
    simp only [lookahead, Option.toList]
    cases h : action (topState st) t.kind with
    | shift s => exact ⟨none, rfl, rfl⟩
    | error => rfl
    | accept =>
      cases st with
      | nil => rfl
      | cons p st =>
        obtain ⟨i, v⟩ := p
        cases v <;> rfl
    | reduce p =>
      unfold reduceBy
      simp only
      cases hp : prods[p]? with
      | none => rfl
      | some q =>
        simp only
        cases ha : act p ((st.take q.2.length).reverse.map (·.2)) with
        | error e => rfl
        | ok v => exact ⟨some (some t), rfl, rfl⟩

/-- A running call that is not interrupted ends with what the driver makes of the tokens it has still to read. -/
theorem sim (fo : FloatOps F) (text : Str) : ∀ (n : Nat) (st : List (Nat × Val F)) (l : Str) (look : Option (Option (Tok F)))
    (r : Except XErr (Expr F)), pdrive (Ahead fo l look).2 n st (Ahead fo l look).1 = some r →
    ∃ m l', crun fo m (l, ⟨text, .run st look⟩) = (l', ⟨text, .done r⟩) := by
  intro n
  induction n with
  | zero => intro st l look r h; cases h
  | succ n ih =>
    have hlook : ∀ (st : List (Nat × Val F)) (l : Str) (a : Option (Tok F)) (r : Except XErr (Expr F)),
        pdrive (Ahead fo l (some a)).2 (n + 1) st (Ahead fo l (some a)).1 = some r →
        ∃ m l', crun fo m (l, ⟨text, .run st (some a)⟩) = (l', ⟨text, .done r⟩) := by
      intro st l a r h
      have hl := lookStep_eq fo st l a
      rw [pdrive] at h
      cases hp : pstep (Ahead fo l (some a)).2 st (Ahead fo l (some a)).1 with
      | next st' inp =>
        rw [hp] at h hl
        obtain ⟨look, h1, h2⟩ := hl
        simp only at h
        obtain ⟨m, l', hm⟩ := ih st' l look r (by rw [h2]; exact h)
        refine ⟨m + 1, l', ?_⟩
        rw [crun, ← hm]
        simp only [PCall.step, h1]
      | done e =>
        rw [hp] at h hl
        cases h
        exact ⟨1, l, by simp only [crun, PCall.step]; rw [hl]⟩
      | fail e =>
        rw [hp] at h hl
        cases h
        exact ⟨1, l, by simp only [crun, PCall.step]; rw [hl]⟩
    intro st l look r h
    cases look with
    | some a => exact hlook st l a r h
    | none =>
      have ht := xlex_token fo l
      cases hk : lexerToken fo l with
      | mk l' o =>
        rw [hk] at ht
        cases o with
        | none =>
          simp only at ht
          rw [Ahead, ht, pdrive] at h
          simp only [pstep, lookahead, if_true] at h
          cases h
          exact ⟨1, l', by simp only [crun, PCall.step, hk]⟩
        | some a =>
          simp only at ht
          rw [Ahead, ht] at h
          obtain ⟨m, l'', hm⟩ := hlook st l' a r h
          refine ⟨m + 1, l'', ?_⟩
          rw [crun, ← hm]
          simp only [PCall.step, hk]

theorem xparse_some (fo : FloatOps F) (s : Str) : ∃ r, xparse fo s = some r := by
  rcases C78_parsing_ends fo s with ⟨e, h⟩ | h | ⟨h, -⟩ <;> exact ⟨_, h⟩

theorem call_new (fo : FloatOps F) (s l : Str) {r : Except XErr (Expr F)} (h : xparse fo s = some r) :
    ∃ n l', crun fo n (l, PCall.new s) = (l', ⟨s, .done r⟩) := by
  obtain ⟨m, l', hm⟩ := sim fo s _ [] s none r h
  exact ⟨m + 1, l', hm⟩

theorem run_text (fo : FloatOps F) : ∀ (n : Nat) (p : Str × PCall F), (crun fo n p).2.text = p.2.text
  | 0, _ => rfl
  | n + 1, p => by
    rw [crun, run_text fo n]
    unfold PCall.step
    split
    · rfl
    · split <;> rfl
    · rfl
    · rfl

theorem crun_done (fo : FloatOps F) : ∀ (n : Nat) (l s : Str) (r : Except XErr (Expr F)),
    crun fo n (l, ⟨s, .done r⟩) = (l, ⟨s, .done r⟩)
  | 0, _, _, _ => rfl
  | n + 1, l, s, r => by rw [crun]; exact crun_done fo n l s r

theorem crun_add (fo : FloatOps F) : ∀ (n m : Nat) (p : Str × PCall F), crun fo (n + m) p = crun fo m (crun fo n p)
  | 0, m, p => by rw [Nat.zero_add]; rfl
  | n + 1, m, p => by rw [Nat.add_right_comm, crun, crun_add fo n m, crun]

theorem done_stays {fo : FloatOps F} {n : Nat} {p : Str × PCall F} {r : Except XErr (Expr F)}
    (h : (crun fo n p).2.phase = .done r) (m : Nat) : (crun fo (n + m) p).2.phase = .done r := by
  rw [crun_add]
  cases hp : crun fo n p with
  | mk l c =>
    cases c with
    | mk s ph =>
      rw [hp] at h
      cases h
      rw [crun_done]

theorem done_unique {fo : FloatOps F} {n m : Nat} {p : Str × PCall F} {r r' : Except XErr (Expr F)}
    (h : (crun fo n p).2.phase = .done r) (h' : (crun fo m p).2.phase = .done r') : r = r' := by
  have h1 := done_stays h m
  have h2 := done_stays h' n
  rw [Nat.add_comm, h1] at h2
  cases h2
  rfl

/-- A number of steps of one call in a world. -/
def wrun (fo : FloatOps F) (k : Nat) : Nat → XWorld F → XWorld F
  | 0, w => w
  | n + 1, w => (wrun fo k n w).step fo k

theorem alone_run (fo : FloatOps F) (k : Nat) : ∀ (n : Nat) (w : XWorld F), XAlone fo k w (wrun fo k n w)
  | 0, _ => .refl
  | n + 1, w => .step (alone_run fo k n w)

theorem alone_inv {fo : FloatOps F} {k : Nat} {w w' : XWorld F} (h : XAlone fo k w w') : ∃ n, w' = wrun fo k n w := by
  induction h with
  | refl => exact ⟨0, rfl⟩
  | step _ ih =>
    obtain ⟨n, rfl⟩ := ih
    exact ⟨n + 1, rfl⟩

theorem palone_steps {fo : FloatOps F} {k : Nat} {w₀ w w' : XWorld F} (h₀ : XSteps fo w₀ w) (h : XAlone fo k w w') :
    XSteps fo w₀ w' := by
  induction h with
  | refl => exact h₀
  | step _ ih => exact .step k ih

theorem prun_calls (fo : FloatOps F) (k : Nat) (n : Nat) (w : XWorld F) {c : PCall F} (h : w.calls[k]? = some c) :
    (wrun fo k n w).calls[k]? = some (crun fo n (w.lexer, c)).2 ∧ (wrun fo k n w).lexer = (crun fo n (w.lexer, c)).1 := by
  induction n with
  | zero => exact ⟨h, rfl⟩
  | succ n ih =>
    obtain ⟨h1, h2⟩ := ih
    have hlt : k < (wrun fo k n w).calls.length := by
      rcases Nat.lt_or_ge k (wrun fo k n w).calls.length with h' | h'
      · exact h'
      · rw [List.getElem?_eq_none h'] at h1; cases h1
    rw [wrun, crun_succ, XWorld.step]
    simp only [h1, h2]
    exact ⟨List.getElem?_set_self hlt, trivial⟩

theorem pstep_other (fo : FloatOps F) (w : XWorld F) {k j : Nat} (h : j ≠ k) : (w.step fo k).calls[j]? = w.calls[j]? := by
  unfold XWorld.step
  split
  · exact List.getElem?_set_ne (Ne.symm h)
  · rfl

theorem step_length (fo : FloatOps F) (w : XWorld F) (k : Nat) : (w.step fo k).calls.length = w.calls.length := by
  unfold XWorld.step
  split
  · exact List.length_set
  · rfl

theorem steps_length {fo : FloatOps F} {w w' : XWorld F} (h : XSteps fo w w') : w'.calls.length = w.calls.length := by
  induction h with
  | refl => rfl
  | step k _ ih => rw [step_length, ih]

/-- A call at any point of any schedule. -/
def CallOK (fo : FloatOps F) (texts : List Str) (c : PCall F) : Prop :=
  match c.phase with
  | .fresh => c.text ∈ texts
  | .run st none => ∃ w g, Inv st w g ∧ (∀ a, FolG g a) ∧ ∀ t ∈ w, WrittenIn fo texts t
  | .run st (some a) => ∃ w g, Inv st w g ∧ (∀ b, lookahead false a.toList = some b → FolG g b) ∧
      (∀ t ∈ w, WrittenIn fo texts t) ∧ ∀ t ∈ a, WrittenIn fo texts t
  | .done r => (∃ e ts, r = .ok e ∧ Denotes ts e ∧ ∀ t ∈ ts, WrittenIn fo texts t) ∨ r = .error .type ∨ r = .error .runtime

theorem lookStep_ok {fo : FloatOps F} {texts : List Str} {st : List (Nat × Val F)} {a : Option (Tok F)} {s : Str}
    (h : CallOK fo texts ⟨s, .run st (some a)⟩) : CallOK fo texts ⟨s, lookStep st a⟩ := by
  obtain ⟨w, g, hi, hf, hw, ha⟩ := h
  unfold lookStep
  rcases step_inv hi hf with ⟨st', w', inp', g', h, hi', hf', he, -, hd⟩ | ⟨e, h, hn, -, hd⟩ | ⟨-, -, hb⟩ | h
  · rw [h]
    have hw' : ∀ t ∈ w', WrittenIn fo texts t := by
      intro t ht
      have : t ∈ w ++ a.toList := by rw [← he]; exact List.mem_append_left _ ht
      rcases List.mem_append.mp this with h1 | h1
      · exact hw t h1
      · exact ha t (Option.mem_toList.mp h1)
    rcases hd with rfl | ⟨rfl, t, ht⟩
    · have hb : (a.isSome && a.toList.isEmpty) = false := by cases a <;> rfl
      simp only [hb, Bool.false_eq_true, if_false]
      exact ⟨w', g', hi', hf', hw', ha⟩
    · cases a with
      | none => cases ht
      | some t' =>
        cases ht
        exact ⟨w', free, hi', fol_free, hw'⟩
  · rw [h]
    exact .inl ⟨e, w, rfl, hd, hw⟩
  · cases hb
  · rw [h]
    exact .inr (.inr rfl)

theorem token_ok {fo : FloatOps F} {l : Str} {a : Option (Tok F)} {l' : Str} (h : lexerToken fo l = (l', some a)) :
    (∃ p, l = p ++ l') ∧ ∀ t ∈ a, ∃ u v, l = u ++ v ++ l' ∧ SpellsTok fo t v := by
  unfold lexerToken at h
  cases hl : lexOne fo (l.dropWhile isIgnored) with
  | eof =>
    rw [hl] at h
    cases h
    exact ⟨⟨l, (List.append_nil l).symm⟩, fun t ht => by cases ht⟩
  | bad => rw [hl] at h; cases h
  | tok t r =>
    rw [hl] at h
    cases h
    obtain ⟨u, h1, h2, -⟩ := lexOne_inv hl
    have h3 : l = l.takeWhile isIgnored ++ u ++ l' := by
      rw [List.append_assoc, ← h1, List.takeWhile_append_dropWhile]
    refine ⟨⟨_, h3⟩, fun t' ht => ?_⟩
    cases ht
    exact ⟨_, u, h3, h2⟩

theorem token_rest {fo : FloatOps F} {l l' : Str} {o} (h : lexerToken fo l = (l', o)) : ∃ p, l = p ++ l' := by
  cases o with
  | some a => exact (token_ok h).1
  | none =>
    unfold lexerToken at h
    split at h
    · cases h
    · cases h
    · cases h
      exact ⟨_, (List.takeWhile_append_dropWhile).symm⟩

/-- The lexer holds the end of one of the texts. -/
def LexerOK (texts : List Str) (l : Str) : Prop := ∃ s ∈ texts, ∃ p, s = p ++ l

theorem call_ok {fo : FloatOps F} {texts : List Str} {c : PCall F} {l : Str} (h : CallOK fo texts c)
    (hl : LexerOK texts l ∨ c.phase = .fresh) :
    CallOK fo texts (c.step fo l).2 ∧ (c.phase = .fresh ∨ LexerOK texts l → LexerOK texts (c.step fo l).1) := by
  obtain ⟨s, ph⟩ := c
  cases ph with
  | fresh => exact ⟨⟨[], free, Inv.nil, fol_free, fun t ht => by cases ht⟩, fun _ => ⟨s, h, [], rfl⟩⟩
  | done r => exact ⟨h, fun h => h.resolve_left (by simp)⟩
  | run st look =>
    have hl' := hl.resolve_right (by simp)
    cases look with
    | some a => exact ⟨lookStep_ok h, fun _ => hl'⟩
    | none =>
      obtain ⟨s', hs', p, rfl⟩ := hl'
      cases hk : lexerToken fo l with
      | mk l' o =>
        simp only [PCall.step, hk]
        cases o with
        | none =>
          obtain ⟨q, hq⟩ := token_rest hk
          exact ⟨.inr (.inl rfl), fun _ => ⟨_, hs', p ++ q, by rw [hq, List.append_assoc]⟩⟩
        | some a =>
          obtain ⟨⟨q, hq⟩, ht⟩ := token_ok hk
          obtain ⟨w, g, hi, hf, hw⟩ := h
          refine ⟨⟨w, g, hi, fun b _ => hf b, hw, fun t hta => ?_⟩, fun _ => ⟨_, hs', p ++ q, by rw [hq, List.append_assoc]⟩⟩
          obtain ⟨u, v, h1, h2⟩ := ht t hta
          exact ⟨_, hs', p ++ u, v, l', by rw [h1]; simp only [List.append_assoc], h2⟩

/-- Whatever the schedule: if a call runs, the lexer holds the end of one of the texts; and all calls are as they should
be. -/
theorem schedule_inv (fo : FloatOps F) (l : Str) (texts : List Str) {w : XWorld F}
    (h : XSteps fo ⟨l, texts.map PCall.new⟩ w) :
    (LexerOK texts w.lexer ∨ ∀ c ∈ w.calls, c.phase = .fresh) ∧ ∀ (k : Nat) c, w.calls[k]? = some c → CallOK fo texts c := by
  suffices (LexerOK texts w.lexer ∨ ∀ c ∈ w.calls, c.phase = .fresh) ∧ ∀ c ∈ w.calls, CallOK fo texts c from
    ⟨this.1, fun k c hc => this.2 c (List.mem_of_getElem? hc)⟩
  induction h with
  | refl =>
    refine ⟨.inr fun c hc => ?_, fun c hc => ?_⟩
    · obtain ⟨s, -, rfl⟩ := List.mem_map.mp hc
      rfl
    · obtain ⟨s, hs, rfl⟩ := List.mem_map.mp hc
      exact hs
  | @step w k _ ih =>
    unfold XWorld.step
    split
    · rename_i c hc
      have hm := List.mem_of_getElem? hc
      obtain ⟨h1, h2⟩ := call_ok (l := w.lexer) (ih.2 c hm) (ih.1.imp_right fun h => h c hm)
      refine ⟨.inl (h2 (ih.1.symm.imp_left fun h => h c hm)), fun c' hc' => ?_⟩
      rcases List.mem_or_eq_of_mem_set hc' with h | rfl
      · exact ih.2 c' h
      · exact h1
    · exact ih

theorem run_drive {fo : FloatOps F} {texts : List Str} {s : Str} {st : List (Nat × Val F)} {look} (l : Str)
    (h : CallOK fo texts ⟨s, .run st look⟩) : ∃ n r, pdrive (Ahead fo l look).2 n st (Ahead fo l look).1 = some r := by
  have key : ∃ w g, Inv st w g ∧ ∀ a, lookahead (Ahead fo l look).2 (Ahead fo l look).1 = some a → FolG g a := by
    cases look with
    | none =>
      obtain ⟨w, g, hi, hf, -⟩ := h
      exact ⟨w, g, hi, fun a _ => hf a⟩
    | some a =>
      obtain ⟨w, g, hi, hf, -⟩ := h
      cases a with
      | none => exact ⟨w, g, hi, hf⟩
      | some t => exact ⟨w, g, hi, hf⟩
  obtain ⟨w, g, hi, hf⟩ := key
  rcases drive_inv _ hi hf (Nat.lt_succ_self _) with ⟨e, h, -⟩ | ⟨h, -⟩ | h <;> exact ⟨_, _, h⟩

theorem can_end (fo : FloatOps F) (l : Str) {texts : List Str} {c : PCall F} (h : CallOK fo texts c) :
    ∃ n r, (crun fo n (l, c)).2.phase = .done r := by
  obtain ⟨s, ph⟩ := c
  cases ph with
  | done r => exact ⟨0, r, rfl⟩
  | fresh =>
    obtain ⟨r, hr⟩ := xparse_some fo s
    obtain ⟨n, l', hn⟩ := call_new fo s l hr
    exact ⟨n, r, by rw [show (⟨s, .fresh⟩ : PCall F) = PCall.new s from rfl, hn]⟩
  | run st look =>
    obtain ⟨n, r, hn⟩ := run_drive l h
    obtain ⟨m, l', hm⟩ := sim fo s n st l look r hn
    exact ⟨m, r, by rw [hm]⟩

end Amara
