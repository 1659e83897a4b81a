import Verif.Lemmas.XThreads
/-
Properties of calls of `uxpath.parse` that share the lexer of the module: C112.
-/
namespace Amara
open Amara.X

variable {F : Type}

/-! ### C112 -/

/-- A call that is not interrupted ends, and with nothing but the parse of its own text, whatever the lexer was left with
by earlier calls, ended, failed or given up half way, and wherever the other calls are.  Partial: a call that is
interrupted by another thread may end with something else, see `C112_full_statement_is_false`. -/
theorem C112_uninterrupted_partial (fo : FloatOps F) (w : XWorld F) (k : Nat) (s : Str)
    (hk : w.calls[k]? = some (PCall.new s)) :
    ∃ r, xparse fo s = some r ∧ (∃ w', XAlone fo k w w' ∧ EndedWith w' k r) ∧
      ∀ w' r', XAlone fo k w w' → EndedWith w' k r' → r' = r := by
  obtain ⟨r, hr⟩ := xparse_some fo s
  obtain ⟨n, l, hn⟩ := call_new fo s w.lexer hr
  refine ⟨r, hr, ⟨_, alone_run fo k n w, ?_⟩, ?_⟩
  · have := prun_calls fo k n w hk
    rw [hn] at this
    exact ⟨_, this.1, rfl⟩
  · intro w' r' ha ⟨c, hc, hp⟩
    obtain ⟨m, rfl⟩ := alone_inv ha
    rw [(prun_calls fo k m w hk).1] at hc
    cases hc
    exact done_unique hp (by rw [hn])

/-- Other calls are not touched by it. -/
theorem C112_others (fo : FloatOps F) (w w' : XWorld F) (k j : Nat) (h : XAlone fo k w w') (hj : j ≠ k) :
    w'.calls[j]? = w.calls[j]? := by
  induction h with
  | refl => rfl
  | step _ ih => rw [pstep_other fo _ hj, ih]

/-- Calls one after the other: each has ended with the parse of its own text. -/
theorem C112_one_after_the_other (fo : FloatOps F) (l : Str) (texts : List Str) (w : XWorld F)
    (h : XSerial fo ⟨l, texts.map PCall.new⟩ w) (k : Nat) (s : Str) (hs : texts[k]? = some s) (r : Except XErr (Expr F))
    (he : EndedWith w k r) : xparse fo s = some r := by
  have key : ∀ j : Nat, w.calls[j]? = (texts.map (PCall.new (F := F)))[j]? ∨ ∃ s r, texts[j]? = some s ∧ xparse fo s = some r ∧
      w.calls[j]? = some ⟨s, .done r⟩ := by
    clear he
    induction h with
    | refl => exact fun j => .inl rfl
    | @call w' w'' k c c' r _ hc hf ha hc' hd ih =>
      intro j
      by_cases hj : j = k
      · subst hj
        rcases ih j with h1 | ⟨s, r, -, -, h1⟩
        · rw [hc, List.getElem?_map] at h1
          cases ht : texts[j]? with
          | none => rw [ht] at h1; cases h1
          | some s =>
            rw [ht] at h1
            cases h1
            obtain ⟨r₁, h2, -, h3⟩ := C112_uninterrupted_partial fo w' j s hc
            have h4 := h3 w'' r ha ⟨c', hc', hd⟩
            subst h4
            refine .inr ⟨s, r, rfl, h2, ?_⟩
            obtain ⟨m, rfl⟩ := alone_inv ha
            have h5 := (prun_calls fo j m w' hc).1
            rw [hc'] at h5 ⊢
            have h6 := Option.some.inj h5
            have h7 := run_text fo m (w'.lexer, PCall.new s)
            rw [← h6] at h7
            cases c'
            cases hd
            cases h7
            rfl
        · rw [hc] at h1
          cases h1
          cases hf
      · rw [C112_others fo w' w'' k j ha hj]
        exact ih j
  obtain ⟨c, hc, hp⟩ := he
  rcases key k with h1 | ⟨s', r', h1, h2, h3⟩
  · rw [hc, List.getElem?_map, hs] at h1
    cases h1
    cases hp
  · rw [hs] at h1
    cases h1
    rw [hc] at h3
    cases h3
    cases hp
    exact h2

-- a failed call, and then another one: the hypotheses are met
example : ∃ w : XWorld NoF, XSerial noFloats ⟨"rest".toList, [PCall.new "a;".toList, PCall.new "b/c".toList]⟩ w ∧
    EndedWith w 0 (.error .type) ∧ EndedWith w 1 (.ok (.slash (.step .child (.name ['b'])) (.step .child (.name ['c'])))) := by
  obtain ⟨r, h1, ⟨w, h2, h3⟩, -⟩ := C112_uninterrupted_partial noFloats
    (⟨"rest".toList, [PCall.new "a;".toList, PCall.new "b/c".toList]⟩ : XWorld NoF) 0 _ rfl
  have hw : w.calls[1]? = some (PCall.new "b/c".toList) := (C112_others noFloats _ w 0 1 h2 (by decide)).trans rfl
  obtain ⟨r', h4, ⟨w', h5, h6⟩, -⟩ := C112_uninterrupted_partial noFloats w 1 _ hw
  have e1 : xparse noFloats "a;".toList = some (.error .type) := by with_unfolding_all rfl
  have e2 : xparse noFloats "b/c".toList = some (.ok (.slash (.step .child (.name ['b'])) (.step .child (.name ['c'])))) := by
    with_unfolding_all rfl
  rw [e1] at h1
  rw [e2] at h4
  cases h1
  cases h4
  obtain ⟨c, h7, h8⟩ := h3
  obtain ⟨c', h9, h10⟩ := h6
  exact ⟨w', .call 1 (.call 0 .refl rfl rfl h2 h7 h8) hw rfl h5 h9 h10,
    ⟨c, by rw [C112_others noFloats w w' 1 0 h5 (by decide), h7], h8⟩, c', h9, h10⟩

/-- A call that has begun but has not read a token parses the text of the other call if that sets the lexer to its text. -/
theorem C112_another_text_is_parsed (fo : FloatOps F) (l s s' : Str) (r : Except XErr (Expr F)) (h : xparse fo s' = some r) :
    ∃ w, XSteps fo ⟨l, [PCall.new s, PCall.new s']⟩ w ∧ EndedWith w 0 r := by
  obtain ⟨n, l', hn⟩ := sim fo s _ [] s' none r h
  have h0 : XSteps fo (⟨l, [PCall.new s, PCall.new s']⟩ : XWorld F) ⟨s', [⟨s, .run [] none⟩, ⟨s', .run [] none⟩]⟩ :=
    .step 1 (.step 0 .refl)
  refine ⟨_, palone_steps h0 (alone_run fo 0 n _), ?_⟩
  have := prun_calls fo 0 n (⟨s', [⟨s, .run [] none⟩, ⟨s', .run [] none⟩]⟩ : XWorld F) (c := ⟨s, .run [] none⟩) rfl
  rw [hn] at this
  exact ⟨_, this.1, rfl⟩

/-- So it is not true that a call always ends with the parse of its own text. -/
theorem C112_full_statement_is_false :
    ¬ ∀ (w : XWorld NoF) (k : Nat) (s : Str) (r : Except XErr (Expr NoF)), XSteps noFloats ⟨[], [PCall.new ['a'], PCall.new ['b']]⟩ w →
      ([['a'], ['b']] : List Str)[k]? = some s → EndedWith w k r → xparse noFloats s = some r := by
  intro h
  obtain ⟨w, hw, he⟩ := C112_another_text_is_parsed noFloats [] ['a'] ['b'] (.ok (.step .child (.name ['b'])))
    (by with_unfolding_all rfl)
  have h1 := h w 0 ['a'] _ hw rfl he
  have h2 : xparse noFloats ['a'] = some (.ok (.step .child (.name ['a']))) := by with_unfolding_all rfl
  rw [h2] at h1
  simp at h1

/-- It may even end with an expression that neither text stands for: `-b` from `-a` and `b`. -/
theorem C112_a_mixture : ∃ w : XWorld NoF, XSteps noFloats ⟨[], [PCall.new "-a".toList, PCall.new "b".toList]⟩ w ∧
    EndedWith w 0 (.ok (.neg (.step .child (.name ['b'])))) ∧
    xparse noFloats "-a".toList ≠ some (.ok (.neg (.step .child (.name ['b'])))) ∧
    xparse noFloats "b".toList ≠ some (.ok (.neg (.step .child (.name ['b'])))) := by
  have e1 : xparse noFloats "-a".toList = some (.ok (.neg (.step .child (.name ['a'])))) := by with_unfolding_all rfl
  have e2 : xparse noFloats "b".toList = some (.ok (.step .child (.name ['b']))) := by with_unfolding_all rfl
  refine ⟨wrun noFloats 0 40 _, palone_steps (.step 1 (.step 0 (.step 0 (.step 0 .refl)))) (alone_run noFloats 0 40 _),
    ⟨⟨"-a".toList, .done _⟩, by with_unfolding_all rfl, rfl⟩, ?_, ?_⟩
  · rw [e1]; simp
  · rw [e2]; simp

/-- Under any schedule a call ends, if it does, with an expression that the grammar derives from some tokens, each
written in the text of one of the calls, or with TypeError or RuntimeError. -/
theorem C112_any_schedule (fo : FloatOps F) (l : Str) (texts : List Str) (w : XWorld F)
    (h : XSteps fo ⟨l, texts.map PCall.new⟩ w) (k : Nat) (r : Except XErr (Expr F)) (he : EndedWith w k r) :
    (∃ e ts, r = .ok e ∧ Denotes ts e ∧ ∀ t ∈ ts, WrittenIn fo texts t) ∨ r = .error .type ∨ r = .error .runtime := by
  obtain ⟨c, hc, hp⟩ := he
  have := (schedule_inv fo l texts h).2 k c hc
  rw [CallOK, hp] at this
  exact this

/-- And from wherever a schedule has led to, a call ends if it is run. -/
theorem C112_can_end (fo : FloatOps F) (l : Str) (texts : List Str) (w : XWorld F)
    (h : XSteps fo ⟨l, texts.map PCall.new⟩ w) (k : Nat) (hk : k < texts.length) :
    ∃ w' r, XAlone fo k w w' ∧ EndedWith w' k r := by
  obtain ⟨c, hc⟩ : ∃ c, w.calls[k]? = some c := by
    have := steps_length h
    exact ⟨_, List.getElem?_eq_getElem (by rw [this]; simpa using hk)⟩
  obtain ⟨n, r, hn⟩ := can_end fo w.lexer ((schedule_inv fo l texts h).2 k c hc)
  refine ⟨_, r, alone_run fo k n w, _, (prun_calls fo k n w hc).1, hn⟩

end Amara
