import Verif.Spec.SenderSinks
import Verif.Props.TreeIter
/-
Property C135: sinks that end or raise.
-/
namespace Amara

variable {does : Nat → List Node → SinkDoes} {self : Id}

/-- The three kinds of output of one pattern for one event. -/
theorem handleOne_outs (st : List (Stage Event)) (ix : Nat) (stack : List Event) (b : Building) (ev : Event) :
    (∃ r, handleOne st ix none stack b ev = ([], r)) ∨ (∃ f r, handleOne st ix none stack b ev = ([.stray ix f], r)) ∨
    (∃ x r, handleOne st ix none stack b ev = ([.send ix x], some r)) := by
  cases ev with
  | start n as anc =>
    simp only [handleOne]
    split
    · exact .inl ⟨_, rfl⟩
    · split
      · exact .inl ⟨_, rfl⟩
      · exact .inl ⟨_, rfl⟩
      · cases b.base with
        | none => exact .inl ⟨_, rfl⟩
        | some f => exact .inr (.inl ⟨f, _, rfl⟩)
  | chars s =>
    simp only [handleOne]
    split
    · exact .inl ⟨_, rfl⟩
    · exact .inl ⟨_, rfl⟩
  | stop n anc =>
    simp only [handleOne]
    split
    · exact .inl ⟨_, rfl⟩
    · split
      · split
        · exact .inr (.inr ⟨_, _, rfl⟩)
        · exact .inl ⟨_, rfl⟩
      · exact .inl ⟨_, rfl⟩

theorem takes_append {k k' k'' : Sinks} {a b : List SOut} (h1 : Takes does k a k') (h2 : Takes does k' b k'') :
    Takes does k (a ++ b) k'' := by
  induction h1 with
  | nil => exact h2
  | stray _ ih => exact .stray (ih h2)
  | send h _ ih => exact .send h (ih h2)

/-- One pattern, one event: as without sinks, or the sink raises. -/
theorem handleOneS_cases (st : List (Stage Event)) (ix : Nat) (stack : List Event) (b : Building) (ev : Event) (k : Sinks) :
    (∃ k', Takes does k (handleOne st ix none stack b ev).1 k' ∧ handleOneS does st ix self stack b ev k =
      ((handleOne st ix none stack b ev).1, k', (handleOne st ix none stack b ev).2.map fun r => (r, none))) ∨
    (∃ x k' e stack' b', handleOne st ix none stack b ev = ([.send ix x], some (stack', b')) ∧ k.send does ix x = (k', some e) ∧
      handleOneS does st ix self stack b ev k = ([.send ix x], k', some ((stack', { b' with base := some self }), some e))) := by
  rcases handleOne_outs st ix stack b ev with ⟨r, h⟩ | ⟨f, r, h⟩ | ⟨x, ⟨stack', b'⟩, h⟩
  · refine .inl ⟨k, by rw [h]; exact .nil, ?_⟩
    rw [handleOneS, h]
    cases r with
    | none => rfl
    | some r => rfl
  · refine .inl ⟨k, by rw [h]; exact .stray .nil, ?_⟩
    rw [handleOneS, h]
    cases r with
    | none => rfl
    | some r => rfl
  · cases hs : k.send does ix x with
    | mk k' e =>
      cases e with
      | none =>
        refine .inl ⟨k', by rw [h]; exact .send hs .nil, ?_⟩
        rw [handleOneS, h]
        simp only [hs]
        rfl
      | some e =>
        refine .inr ⟨x, k', e, stack', b', h, hs, ?_⟩
        rw [handleOneS, h]
        simp only [hs]

/-- All patterns, one event. -/
theorem handlePatsS_cases (ev : Event) : ∀ (pats : List (List (Stage Event) × Building)) (ix : Nat) (stack : List Event) (k : Sinks),
    (∃ k', Takes does k (handlePats (fun _ => none) ev ix stack pats).1 k' ∧ handlePatsS does self ev ix stack pats k =
      ((handlePats (fun _ => none) ev ix stack pats).1, k', (handlePats (fun _ => none) ev ix stack pats).2.map fun r => (r, none))) ∨
    (∃ pre j x post k1 k2 e st, (handlePats (fun _ => none) ev ix stack pats).1 = pre ++ .send j x :: post ∧ Takes does k pre k1 ∧
      k1.send does j x = (k2, some e) ∧ handlePatsS does self ev ix stack pats k = (pre ++ [.send j x], k2, some (st, some e))) := by
  intro pats
  induction pats with
  | nil => intro ix stack k; exact .inl ⟨k, .nil, rfl⟩
  | cons p pats ih =>
    intro ix stack k
    obtain ⟨st, b⟩ := p
    rcases handleOneS_cases (does := does) (self := self) st ix stack b ev k with ⟨k', h1, h2⟩ | ⟨x, k', e, stack', b', h1, h2, h3⟩
    · rw [handlePats, handlePatsS, h2]
      generalize handleOne st ix none stack b ev = o at h1 h2
      obtain ⟨o, r⟩ := o
      cases r with
      | none => exact .inl ⟨k', h1, rfl⟩
      | some r =>
        obtain ⟨stack', b'⟩ := r
        simp only [Option.map_some]
        rcases ih (ix + 1) stack' k' with ⟨k'', g1, g2⟩ | ⟨pre, j, x, post, k1, k2, e, s, g1, g2, g3, g4⟩
        · left
          rw [g2]
          generalize handlePats (fun _ => none) ev (ix + 1) stack' pats = o' at g1 g2
          obtain ⟨o', r'⟩ := o'
          cases r' with
          | none => exact ⟨k'', takes_append h1 g1, rfl⟩
          | some r' => exact ⟨k'', takes_append h1 g1, rfl⟩
        · right
          rw [g4]
          generalize handlePats (fun _ => none) ev (ix + 1) stack' pats = o' at g1
          obtain ⟨o', r'⟩ := o'
          simp only at g1
          subst g1
          refine ⟨o ++ pre, j, x, post, k1, k2, e, (s.1, (st, b') :: s.2), ?_, takes_append h1 g2, g3, ?_⟩
          · cases r' <;> simp
          · simp
    · right
      rw [handlePats, handlePatsS, h3, h1]
      simp only
      cases handlePats (fun _ => none) ev (ix + 1) stack' pats with
      | mk o' r' =>
        refine ⟨[], ix, x, o', k, k', e, (stack', (st, { b' with base := some self }) :: pats), ?_, .nil, h2, by simp⟩
        cases r' <;> simp

/-- C135: events of any kind, any number of patterns.  If the sinks take all they are sent, everything is as with sinks that
never end.  Otherwise they get all that comes before the element the first of them fails at, with what that sink
does with that one; nothing is sent after it, and the exception comes out. -/
theorem C135_run_up_to_the_failure (s : Sender) (k : Sinks) (evs : List Event) :
    (∃ k', Takes does k (s.run (quiet evs)).1.flatten k' ∧
      s.runS does self k evs = ⟨(s.run (quiet evs)).1.flatten, k', (s.run (quiet evs)).2, none⟩) ∨
    (∃ pre ix x post k1 k2 e, (s.run (quiet evs)).1.flatten = pre ++ .send ix x :: post ∧ Takes does k pre k1 ∧
      k1.send does ix x = (k2, some e) ∧ (s.runS does self k evs).outs = pre ++ [.send ix x] ∧
      (s.runS does self k evs).sinks = k2 ∧ (s.runS does self k evs).exn = some e ∧
      (s.runS does self k evs).sender.isSome = true) := by
  induction evs generalizing s k with
  | nil => exact .inl ⟨k, .nil, rfl⟩
  | cons ev evs ih =>
    have hq : quiet (ev :: evs) = (ev, fun _ => none) :: quiet evs := rfl
    rw [hq, Sender.run, Sender.handle, Sender.runS]
    rcases handlePatsS_cases (does := does) (self := self) ev s.pats 0 s.stack k with ⟨k', h1, h2⟩ | ⟨pre, j, x, post, k1, k2, e, st, h1, h2, h3, h4⟩
    · rw [h2]
      generalize handlePats (fun _ => none) ev 0 s.stack s.pats = o at h1 h2
      obtain ⟨o, r⟩ := o
      cases r with
      | none =>
        refine .inl ⟨k', by simpa using h1, by simp⟩
      | some r =>
        obtain ⟨stack, pats⟩ := r
        simp only [Option.map_some]
        rcases ih ⟨stack, pats⟩ k' with ⟨k'', g1, g2⟩ | ⟨pre, ix, x, post, k1, k2, e, g1, g2, g3, g4, g5, g6⟩
        · refine .inl ⟨k'', ?_, ?_⟩
          · rw [List.flatten_cons]
            exact takes_append h1 g1
          · rw [g2, List.flatten_cons]
        · refine .inr ⟨o ++ pre, ix, x, post, k1, k2, e, ?_, takes_append h1 g2, g3, ?_, g5, g6⟩
          · rw [List.flatten_cons, g1, List.append_assoc]
          · rw [g4, List.append_assoc]
    · right
      rw [h4]
      generalize handlePats (fun _ => none) ev 0 s.stack s.pats = o at h1
      obtain ⟨o, r⟩ := o
      simp only at h1
      subst h1
      cases r with
      | none => exact ⟨pre, j, x, post, k1, k2, e, by simp, h2, h3, rfl, rfl, rfl, rfl⟩
      | some r =>
        obtain ⟨stack, pats⟩ := r
        exact ⟨pre, j, x, post ++ ((Sender.run ⟨stack, pats⟩ (quiet evs)).1.flatten), k1, k2, e,
          by simp, h2, h3, rfl, rfl, rfl, rfl⟩

/-! ### One pattern -/

/-- What the sinks have after taking some outputs. -/
theorem takes_got {k k' : Sinks} {outs : List SOut} (h : Takes does k outs k') (j : Nat) :
    k'.got j = k.got j ++ sentTo j outs ∧ k'.over j = k.over j ∧
    ∀ n, 0 < n → n ≤ (sentTo j outs).length → does j (k.got j ++ (sentTo j outs).take n) = .waits := by
  induction h with
  | nil => exact ⟨by simp [sentTo], rfl, fun n h1 h2 => by simp [sentTo] at h2; omega⟩
  | stray _ ih => exact ih
  | @send k ix x r k' k'' hs _ ih =>
    obtain ⟨h1, h2, h3⟩ := ih
    rw [Sinks.send] at hs
    split at hs
    · cases hs
    · split at hs
      · next hw =>
        simp only [Prod.mk.injEq, and_true] at hs
        subst hs
        by_cases hj : j = ix
        · subst hj
          have e : sentTo j (.send j x :: r) = x :: sentTo j r := by simp [sentTo]
          rw [e]
          simp only at h1 h3
          refine ⟨by rw [h1]; simp, h2, ?_⟩
          intro n hn hl
          cases n with
          | zero => omega
          | succ n =>
            cases n with
            | zero => simpa using hw
            | succ n =>
              have := h3 (n + 1) (by omega) (by simp at hl; omega)
              simpa using this
        · have e : sentTo j (.send ix x :: r) = sentTo j r := by
            have : ¬ ix = j := fun h => hj h.symm
            simp [sentTo, this]
          rw [e]
          simp only [if_neg hj] at h1 h3
          exact ⟨h1, h2, h3⟩
      · cases hs
      · cases hs
      · cases hs

/-- C135: the other sinks.  If no sink ends or raises they all have what was sent to them and are as they were; if one does,
so do all the others. -/
theorem C135_other_sinks (s : Sender) (k : Sinks) (evs : List Event) :
    ((s.runS does self k evs).exn = none → ∀ j, (s.runS does self k evs).sinks.over j = k.over j ∧
      (s.runS does self k evs).sinks.got j = k.got j ++ sentTo j (s.runS does self k evs).outs) ∧
    ∀ e, (s.runS does self k evs).exn = some e → ∃ pre ix x, (s.runS does self k evs).outs = pre ++ [.send ix x] ∧
      ∀ j, j ≠ ix → (s.runS does self k evs).sinks.over j = k.over j ∧
        (s.runS does self k evs).sinks.got j = k.got j ++ sentTo j (s.runS does self k evs).outs := by
  rcases C135_run_up_to_the_failure (does := does) (self := self) s k evs with
    ⟨k', g1, g2⟩ | ⟨pre, ix, x, post, k1, k2, ex, g1, g2, g3, g4, g5, g6, _⟩
  · rw [g2]
    refine ⟨fun _ j => ?_, fun e he => by cases he⟩
    have := takes_got g1 j
    exact ⟨this.2.1, this.1⟩
  · refine ⟨fun he => (by rw [g6] at he; cases he), fun e _ => ⟨pre, ix, x, g4, fun j hj => ?_⟩⟩
    rw [g4, g5]
    obtain ⟨h1, h2, _⟩ := takes_got g2 j
    have hk : k2.over j = k1.over j ∧ k2.got j = k1.got j := by
      rw [Sinks.send] at g3
      split at g3
      · simp only [Prod.mk.injEq] at g3; rw [g3.1]; exact ⟨rfl, rfl⟩
      · split at g3 <;> simp only [Prod.mk.injEq] at g3 <;> obtain ⟨rfl, g3⟩ := g3 <;> simp [hj]
    have hs : sentTo j (pre ++ [.send ix x]) = sentTo j pre := by
      have : ¬ ix = j := fun h => hj h.symm
      simp [sentTo, this]
    rw [hk.1, hk.2, hs, h1, h2]
    exact ⟨rfl, rfl⟩

/-- With one pattern everything is sent to sink 0. -/
theorem run_one_index (evs : List Event) : ∀ (s : Sender), s.pats.length ≤ 1 → ∀ ix x,
    SOut.send ix x ∈ (s.run (quiet evs)).1.flatten → ix = 0 := by
  induction evs with
  | nil => intro s _ ix x h; cases h
  | cons ev evs ih =>
    intro s hl ix x h
    have hq : quiet (ev :: evs) = (ev, fun _ => none) :: quiet evs := rfl
    obtain ⟨stack, pats⟩ := s
    match pats, hl with
    | [], _ =>
      rw [hq, Sender.run, Sender.handle, handlePats] at h
      simp only [List.flatten_cons, List.nil_append] at h
      exact ih ⟨stack, []⟩ (by simp) ix x h
    | [(st, b)], _ =>
      rw [hq, Sender.run, Sender.handle, handlePats] at h
      rcases handleOne_outs st 0 stack b ev with ⟨r, h1⟩ | ⟨f, r, h1⟩ | ⟨y, r, h1⟩
      · cases r with
        | none => rw [h1] at h; simp at h
        | some r =>
          rw [h1] at h
          simp only [handlePats, List.flatten_cons, List.nil_append] at h
          exact ih _ (by simp) ix x h
      · cases r with
        | none => rw [h1] at h; simp at h
        | some r =>
          rw [h1] at h
          simp only [handlePats, List.flatten_cons, List.append_nil, List.cons_append, List.nil_append, List.mem_cons, reduceCtorEq, false_or] at h
          exact ih _ (by simp) ix x h
      · rw [h1] at h
        simp only [handlePats, List.flatten_cons, List.append_nil, List.cons_append, List.nil_append, List.mem_cons, SOut.send.injEq] at h
        rcases h with h | h
        · exact h.1
        · exact ih _ (by simp) ix x h

theorem parseS_doc {e : Node} {w : Str} (h : IsDoc e w) (s : Sender) (k : Sinks) :
    s.parseS does self k w = s.runS does self k (e.events []) := by
  rw [Sender.parseS, drive_doc h]
  simp

theorem sentTo_flat (j : Nat) : ∀ os : List (List SOut), sentTo j os.flatten = (os.map (sentTo j)).flatten := by
  intro os
  induction os with
  | nil => rfl
  | cons o os ih => rw [List.flatten_cons, sentTo_append, ih, List.map_cons, List.flatten_cons]

/-- What a send that raises leaves. -/
theorem send_some {k k' : Sinks} {ix : Nat} {x : Node} {e : SinkExn} (h : k.send does ix x = (k', some e)) (ho : k.over ix = false) :
    k'.got ix = k.got ix ++ [x] ∧ ((does ix (k.got ix ++ [x]) = .returns ∧ e = .runtime ∧ k'.over ix = true) ∨
      (does ix (k.got ix ++ [x]) = .raises ∧ e = .own ∧ k'.over ix = true) ∨
      (does ix (k.got ix ++ [x]) = .refuses ∧ e = .own ∧ k'.over ix = false)) := by
  rw [Sinks.send, ho] at h
  simp only [Bool.false_eq_true, if_false] at h
  split at h
  · cases h
  · next hd =>
    simp only [Prod.mk.injEq, Option.some.injEq] at h
    obtain ⟨rfl, rfl⟩ := h
    exact ⟨by simp, .inl ⟨hd, rfl, by simp⟩⟩
  · next hd =>
    simp only [Prod.mk.injEq, Option.some.injEq] at h
    obtain ⟨rfl, rfl⟩ := h
    exact ⟨by simp, .inr (.inl ⟨hd, rfl, by simp⟩)⟩
  · next hd =>
    simp only [Prod.mk.injEq, Option.some.injEq] at h
    obtain ⟨rfl, rfl⟩ := h
    exact ⟨by simp, .inr (.inr ⟨hd, rfl, ho⟩)⟩

/-- C135 for one pattern and its sink, every document: the matches are sent in document order up to the first the sink
does not take, and including it; `parse` raises then — a RuntimeError if the sink returned, the exception of the sink if
it raised one — and otherwise not.  A sink that returned or raised is over; one that only refused the element is not. -/
theorem C135_one_sink_partial {e : Node} {w : Str} (h : IsDoc e w) (p : List (Stage Event)) (hne : p ≠ []) (hs : Safe p)
    (does : Nat → List Node → SinkDoes) (self : Id) :
    ∃ l : List (Path × Node), InDocOrder l ∧ (∀ q x, (q, x) ∈ l ↔ e.at? q = some x ∧ x.isText = false ∧
        ∃ t, e.opened [] q = some t ∧ Outermost Event.look p t) ∧
      let r := (newSender [p]).parseS does self .new w
      ((∀ j, 0 < j → j ≤ l.length → does 0 ((l.map Prod.snd).take j) = .waits) →
        r.sinks.got 0 = l.map Prod.snd ∧ r.exn = none ∧ r.sender = some (newSender [p])) ∧
      ∀ m, m < l.length → (∀ j, 0 < j → j ≤ m → does 0 ((l.map Prod.snd).take j) = .waits) →
        (does 0 ((l.map Prod.snd).take (m + 1)) = .returns →
          r.sinks.got 0 = (l.map Prod.snd).take (m + 1) ∧ r.exn = some .runtime ∧ r.sinks.over 0 = true) ∧
        (does 0 ((l.map Prod.snd).take (m + 1)) = .raises →
          r.sinks.got 0 = (l.map Prod.snd).take (m + 1) ∧ r.exn = some .own ∧ r.sinks.over 0 = true) ∧
        (does 0 ((l.map Prod.snd).take (m + 1)) = .refuses →
          r.sinks.got 0 = (l.map Prod.snd).take (m + 1) ∧ r.exn = some .own ∧ r.sinks.over 0 = false) := by
  obtain ⟨os, l, h1, h2, h3, h4⟩ := C33_all_sent_partial h p hne hs
  rw [parse_of_drive (drive_doc h)] at h1
  refine ⟨l, h3, h4, ?_⟩
  rw [parseS_doc h]
  have hlen : l.length = (l.map Prod.snd).length := by simp
  rw [hlen]
  generalize l.map Prod.snd = xs at h2 ⊢
  rw [← sentTo_flat] at h2
  have hidx : ∀ ix x, SOut.send ix x ∈ os.flatten → ix = 0 := by
    have := run_one_index (e.events []) (newSender [p]) (by simp [newSender, prepPatterns])
    rwa [h1] at this
  rcases C135_run_up_to_the_failure (does := does) (self := self) (newSender [p]) .new (e.events []) with
    ⟨k', g1, g2⟩ | ⟨pre, ix, x, post, k1, k2, ex, g1, g2, g3, g4, g5, g6⟩
  · rw [h1] at g1 g2
    rw [g2]
    obtain ⟨a1, a2, a3⟩ := takes_got g1 0
    rw [h2] at a1 a3
    have a1' : k'.got 0 = xs := a1
    have a3' : ∀ n, 0 < n → n ≤ xs.length → does 0 (xs.take n) = .waits := a3
    refine ⟨fun _ => ⟨a1', rfl, rfl⟩, fun m hm _ => ?_⟩
    have hw := a3' (m + 1) (by omega) hm
    rw [hw]
    exact ⟨fun hx => (by cases hx), fun hx => (by cases hx), fun hx => (by cases hx)⟩
  · rw [h1] at g1
    simp only at g1
    rw [g1] at hidx h2
    have hix := hidx ix x (by simp)
    subst hix
    obtain ⟨a1, a2, a3⟩ := takes_got g2 0
    have a1' : k1.got 0 = sentTo 0 pre := a1
    have a3' : ∀ n, 0 < n → n ≤ (sentTo 0 pre).length → does 0 ((sentTo 0 pre).take n) = .waits := a3
    obtain ⟨b1, b2⟩ := send_some g3 a2
    rw [a1'] at b1 b2
    rw [sentTo_append, show sentTo 0 (.send 0 x :: post) = x :: sentTo 0 post by simp [sentTo]] at h2
    subst h2
    show _ ∧ _
    simp only [g5, g6, b1]
    generalize sentTo 0 pre = a at a3' b2
    generalize sentTo 0 post = c
    have ha : (a ++ x :: c).take (a.length + 1) = a ++ [x] := by
      rw [List.take_append]
      simp [List.take_of_length_le]
    have hpre : ∀ n, n ≤ a.length → (a ++ x :: c).take n = a.take n := by
      intro n hn
      rw [List.take_append_of_le_length hn]
    have hnot : does 0 (a ++ [x]) ≠ .waits := by
      rcases b2 with ⟨h, _⟩ | ⟨h, _⟩ | ⟨h, _⟩ <;> rw [h] <;> simp
    refine ⟨fun hw => ?_, fun m hm hw => ?_⟩
    · have := hw (a.length + 1) (by omega) (by simp)
      rw [ha] at this
      exact absurd this hnot
    · have hma : m ≤ a.length := by
        rcases Nat.lt_or_ge a.length m with hlt | hge
        · have := hw (a.length + 1) (by omega) hlt
          rw [ha] at this
          exact absurd this hnot
        · exact hge
      rcases Nat.lt_or_eq_of_le hma with hlt | rfl
      · have := a3' (m + 1) (by omega) hlt
        rw [hpre (m + 1) hlt, this]
        exact ⟨fun hx => (by cases hx), fun hx => (by cases hx), fun hx => (by cases hx)⟩
      · rw [ha]
        rcases b2 with ⟨h, h', h''⟩ | ⟨h, h', h''⟩ | ⟨h, h', h''⟩
        · exact ⟨fun _ => ⟨rfl, by rw [h'], h''⟩, fun hx => (by rw [h] at hx; cases hx), fun hx => (by rw [h] at hx; cases hx)⟩
        · exact ⟨fun hx => (by rw [h] at hx; cases hx), fun _ => ⟨rfl, by rw [h'], h''⟩, fun hx => (by rw [h] at hx; cases hx)⟩
        · exact ⟨fun hx => (by rw [h] at hx; cases hx), fun hx => (by rw [h] at hx; cases hx), fun _ => ⟨rfl, by rw [h'], h''⟩⟩

/-- C135 for a sink that wants `n` elements and returns: it gets the first `n` matches, and `parse` raises a RuntimeError
if and only if there are that many. -/
theorem C135_first_n {e : Node} {w : Str} (h : IsDoc e w) (p : List (Stage Event)) (hne : p ≠ []) (hs : Safe p) (self : Id)
    (n : Nat) (hn : 0 < n) :
    ∃ l : List (Path × Node), InDocOrder l ∧ (∀ q x, (q, x) ∈ l ↔ e.at? q = some x ∧ x.isText = false ∧
        ∃ t, e.opened [] q = some t ∧ Outermost Event.look p t) ∧
      let r := (newSender [p]).parseS (takesFirst n) self .new w
      r.sinks.got 0 = (l.map Prod.snd).take n ∧ r.exn = if n ≤ l.length then some .runtime else none := by
  obtain ⟨l, h1, h2, h3, h4⟩ := C135_one_sink_partial h p hne hs (takesFirst n) self
  refine ⟨l, h1, h2, ?_⟩
  have hw : ∀ j, j < n → takesFirst n 0 ((l.map Prod.snd).take j) = .waits := by
    intro j hj
    have : ((l.map Prod.snd).take j).length < n := by simp; omega
    simp [takesFirst, -List.length_take, this]
  by_cases hle : n ≤ l.length
  · rw [if_pos hle]
    have := (h4 (n - 1) (by omega) (fun j _ hj => hw j (by omega))).1 (by
      rw [show n - 1 + 1 = n by omega]
      have : ¬ ((l.map Prod.snd).take n).length < n := by simp; omega
      simp [takesFirst, -List.length_take, this])
    rw [show n - 1 + 1 = n by omega] at this
    exact ⟨this.1, this.2.1⟩
  · rw [if_neg hle]
    obtain ⟨a, b, _⟩ := h3 (fun j _ hj => hw j (by omega))
    refine ⟨?_, b⟩
    rw [a, List.take_of_length_le (by simp; omega)]

/-- C135: the same for `parse` of any text.  What a sink raises comes out whether or not the rest of the text is a document;
if all is taken, `parse` ends as it would with sinks that never end. -/
theorem C135_any_text (s : Sender) (k : Sinks) (w : Str) :
    (∃ k', Takes does k (s.parse w).1.flatten k' ∧
      s.parseS does self k w = ⟨(s.parse w).1.flatten, k', (s.parse w).2, none⟩) ∨
    (∃ pre ix x post k1 k2 e, (s.parse w).1.flatten = pre ++ .send ix x :: post ∧ Takes does k pre k1 ∧
      k1.send does ix x = (k2, some e) ∧ (s.parseS does self k w).outs = pre ++ [.send ix x] ∧
      (s.parseS does self k w).sinks = k2 ∧ (s.parseS does self k w).exn = some e ∧
      (s.parseS does self k w).sender.isSome = true) := by
  have ho : (s.parse w).1 = (s.run (quiet (drive w).1)).1 := by
    rw [Sender.parse]
    rw [show ((drive w).1.map fun ev => (ev, fun _ => none)) = quiet (drive w).1 from rfl]
    generalize s.run (quiet (drive w).1) = x
    obtain ⟨o, r⟩ := x
    cases r <;> rfl
  have hs : (s.parse w).2 = if (drive w).2 = .returned then (s.run (quiet (drive w).1)).2 else none := by
    rw [Sender.parse]
    rw [show ((drive w).1.map fun ev => (ev, fun _ => none)) = quiet (drive w).1 from rfl]
    generalize s.run (quiet (drive w).1) = x
    obtain ⟨o, r⟩ := x
    cases r <;> simp
  rcases C135_run_up_to_the_failure (does := does) (self := self) s k (drive w).1 with
    ⟨k', g1, g2⟩ | ⟨pre, ix, x, post, k1, k2, e, g1, g2, g3, g4, g5, g6, g7⟩
  · refine .inl ⟨k', by rw [ho]; exact g1, ?_⟩
    rw [hs, ho, Sender.parseS]
    simp only [g2, true_and]
    by_cases hd : (drive w).2 = .returned
    · rw [if_neg (by simp [hd]), if_pos hd]
    · rw [if_pos hd, if_neg hd]
  · have hp : s.parseS does self k w = s.runS does self k (drive w).1 := by
      rw [Sender.parseS]
      simp [g6]
    rw [hp, ho]
    exact .inr ⟨pre, ix, x, post, k1, k2, e, g1, g2, g3, g4, g5, g6, g7⟩

theorem takes_over {k k' : Sinks} {outs : List SOut} (h : Takes does k outs k') (j : Nat) (ho : k.over j = true) :
    sentTo j outs = [] := by
  induction h with
  | nil => rfl
  | stray _ ih => exact ih ho
  | @send k ix x r k' k'' hs ht ih =>
    by_cases hj : ix = j
    · subst hj
      rw [Sinks.send, if_pos ho] at hs
      cases hs
    · rw [show sentTo j (.send ix x :: r) = sentTo j r by simp [sentTo, hj]]
      refine ih ?_
      have := (takes_got (.send hs .nil) j).2.1
      rw [this, ho]

/-- C135: a sink that is over gets nothing more from a sender of one pattern, and the first element there is for it makes
`parse` raise RuntimeError again. -/
theorem C135_sink_is_over (s : Sender) (hl : s.pats.length ≤ 1) (k : Sinks) (ho : k.over 0 = true) (evs : List Event) :
    (s.runS does self k evs).sinks.got 0 = k.got 0 ∧
    (s.runS does self k evs).exn = if sentTo 0 (s.run (quiet evs)).1.flatten = [] then none else some .runtime := by
  rcases C135_run_up_to_the_failure (does := does) (self := self) s k evs with
    ⟨k', g1, g2⟩ | ⟨pre, ix, x, post, k1, k2, ex, g1, g2, g3, g4, g5, g6, -⟩
  · have h0 := takes_over g1 0 ho
    rw [g2, if_pos h0]
    refine ⟨?_, rfl⟩
    rw [(takes_got g1 0).1, h0, List.append_nil]
  · have hix := run_one_index evs s hl ix x (by rw [g1]; simp)
    subst hix
    obtain ⟨a1, a2, _⟩ := takes_got g2 0
    rw [ho] at a2
    rw [Sinks.send, if_pos a2] at g3
    simp only [Prod.mk.injEq, Option.some.injEq] at g3
    obtain ⟨rfl, rfl⟩ := g3
    rw [g5, g6, g1, if_neg (by rw [sentTo_append]; simp [sentTo])]
    exact ⟨by rw [a1, takes_over g2 0 ho, List.append_nil], rfl⟩

/-! ### What a failure leaves behind -/

theorem trigger_one (st : List (Stage Event)) (t : List Event) : trigger 1 0 st t = (matchState st t == some true) := by
  rw [trigger, stretched_one]

/-- One event for one pattern, whatever the element outside. -/
theorem handleOne_bStep {st : List (Stage Event)} (hc : Callable st) {path : List Event} {ev : Event} (hp : Poppable path [ev])
    (b : Building) : ∃ o, handleOne st 0 none path b ev = (o, some (pathStep path ev, (bStep (trigger 1 0 st) path b ev).2)) ∧
      sentTo 0 o = (bStep (trigger 1 0 st) path b ev).1 := by
  cases ev with
  | start n as anc =>
    rw [handleOne, bStep]
    by_cases hd : b.depth > 0
    · simp only [hd, if_true]
      exact ⟨[], rfl, rfl⟩
    · simp only [hd, if_false, trigger_one]
      obtain ⟨v, hv⟩ := matchState_callable (path ++ [.start n as anc]) hc
      rw [hv]
      cases v with
      | false => exact ⟨[], rfl, rfl⟩
      | true =>
        refine ⟨_, rfl, ?_⟩
        cases b.base <;> rfl
  | chars s =>
    rw [handleOne, bStep]
    by_cases hd : b.depth > 0
    · simp only [hd, if_true]
      exact ⟨[], rfl, rfl⟩
    · simp only [hd, if_false]
      exact ⟨[], rfl, rfl⟩
  | stop n anc =>
    have hne : path ≠ [] := hp.1
    rw [handleOne, bStep]
    simp only [hne, if_false]
    obtain ⟨d, op, bs⟩ := b
    cases d with
    | zero => exact ⟨_, rfl, rfl⟩
    | succ d =>
      cases op with
      | nil => exact ⟨_, rfl, rfl⟩
      | cons o r =>
        obtain ⟨m, as, ts⟩ := o
        simp only
        by_cases h0 : d = 0
        · simp only [h0, if_true]
          exact ⟨_, rfl, by simp [sentTo]⟩
        · simp only [h0, if_false]
          exact ⟨_, rfl, rfl⟩

/-- Events for one pattern, whatever the element outside. -/
theorem run_one {st : List (Stage Event)} (hc : Callable st) : ∀ (evs path : List Event) (b : Building), Poppable path evs →
    ∃ os, Sender.run ⟨path, [(st, b)]⟩ (quiet evs) =
        (os, some ⟨pathRun path evs, [(st, (soloRun (trigger 1 0 st) path b evs).2.2)]⟩) ∧
      os.map (sentTo 0) = (soloRun (trigger 1 0 st) path b evs).1 := by
  intro evs
  induction evs with
  | nil => intro path b _; exact ⟨[], rfl, rfl⟩
  | cons ev evs ih =>
    intro path b hp
    obtain ⟨o, h1, h2⟩ := handleOne_bStep hc (ev := ev) ⟨hp.1, trivial⟩ b
    obtain ⟨os, h3, h4⟩ := ih (pathStep path ev) (bStep (trigger 1 0 st) path b ev).2 hp.2
    have hq : quiet (ev :: evs) = (ev, fun _ => none) :: quiet evs := rfl
    refine ⟨o :: os, ?_, ?_⟩
    · rw [hq, Sender.run, Sender.handle, handlePats, h1]
      simp only [handlePats, h3, List.append_nil]
      rfl
    · rw [List.map_cons, h2, h4]; rfl

/-- When the sink fails, events have been handled up to an end event at which it was sent an element. -/
theorem runS_fails {st : List (Stage Event)} (hc : Callable st) : ∀ (evs path : List Event) (b : Building) (k : Sinks) (e : SinkExn),
    Poppable path evs → k.over 0 = false → (Sender.runS does self ⟨path, [(st, b)]⟩ k evs).exn = some e →
    ∃ a ev c x b2, evs = a ++ ev :: c ∧
      bStep (trigger 1 0 st) (pathRun path a) (soloRun (trigger 1 0 st) path b a).2.2 ev = ([x], b2) ∧
      (Sender.runS does self ⟨path, [(st, b)]⟩ k evs).sender =
        some ⟨pathStep (pathRun path a) ev, [(st, { b2 with base := some self })]⟩ ∧
      ((Sender.runS does self ⟨path, [(st, b)]⟩ k evs).sinks.got 0).getLast? = some x := by
  intro evs
  induction evs with
  | nil => intro path b k e _ _ h; cases h
  | cons ev evs ih =>
    intro path b k e hp ho h
    obtain ⟨o, h1, h2⟩ := handleOne_bStep hc (ev := ev) ⟨hp.1, trivial⟩ b
    rcases handleOneS_cases (does := does) (self := self) st 0 path b ev k with ⟨k', g1, g2⟩ | ⟨x, k', e', stack', b', g1, g2, g3⟩
    · rw [h1] at g1 g2
      have hr : Sender.runS does self ⟨path, [(st, b)]⟩ k (ev :: evs) =
          let x := Sender.runS does self ⟨pathStep path ev, [(st, (bStep (trigger 1 0 st) path b ev).2)]⟩ k' evs
          ⟨o ++ x.outs, x.sinks, x.sender, x.exn⟩ := by
        rw [Sender.runS, handlePatsS, g2]
        simp [handlePatsS]
      rw [hr] at h ⊢
      obtain ⟨a, ev', c, x, b2, i1, i2, i3, i4⟩ := ih _ _ k' e hp.2 (by rw [(takes_got g1 0).2.1, ho]) h
      exact ⟨ev :: a, ev', c, x, b2, by rw [i1]; rfl, i2, i3, i4⟩
    · have hr : Sender.runS does self ⟨path, [(st, b)]⟩ k (ev :: evs) =
          ⟨[.send 0 x], k', some ⟨stack', [(st, { b' with base := some self })]⟩, some e'⟩ := by
        rw [Sender.runS, handlePatsS, g3]
      rw [h1] at g1
      simp only [Prod.mk.injEq, Option.some.injEq] at g1
      obtain ⟨rfl, rfl, rfl⟩ := g1
      refine ⟨[], ev, evs, x, (bStep (trigger 1 0 st) path b ev).2, rfl, ?_, ?_, ?_⟩
      · have : (bStep (trigger 1 0 st) path b ev).1 = [x] := by rw [← h2]; simp [sentTo]
        show bStep (trigger 1 0 st) path b ev = _
        rw [← this]
      · rw [hr]; rfl
      · rw [hr]
        simp [(send_some g2 ho).1]

/-- What is open at the end of an element. -/
theorem marks_path :
    (∀ (x : Node) (p : Path) (anc : List Str) (s : List Event) (ms : List (Event × Option (Path × Node))) (ev : Event) (q : Path)
      (y : Node) (ms' : List (Event × Option (Path × Node))), x.marks p anc = ms ++ (ev, some (q, y)) :: ms' →
      ∃ r t, q = p ++ r ∧ x.opened anc r = some t ∧ pathRun s (ms.map Prod.fst) = s ++ t ∧ ∃ n a, ev = .stop n a) ∧
    (∀ (xs : List Node) (p : Path) (i : Nat) (anc : List Str) (s : List Event) (ms : List (Event × Option (Path × Node))) (ev : Event)
      (q : Path) (y : Node) (ms' : List (Event × Option (Path × Node))), Node.marksList p i anc xs = ms ++ (ev, some (q, y)) :: ms' →
      ∃ j z r t, xs[j]? = some z ∧ q = p ++ (i + j) :: r ∧ z.opened anc r = some t ∧ pathRun s (ms.map Prod.fst) = s ++ t ∧
        ∃ n a, ev = .stop n a) := by
  apply Node.induct
  case elem =>
    intro n as cs ih p anc s ms ev q y ms' h
    rw [Node.marks] at h
    cases ms with
    | nil => simp at h
    | cons m ms =>
      simp only [List.cons_append, List.cons.injEq] at h
      obtain ⟨rfl, h⟩ := h
      rcases List.append_eq_append_iff.1 h with ⟨u, h1, h2⟩ | ⟨u, h1, h2⟩
      · -- the end of the element itself
        cases u with
        | nil =>
          simp only [List.append_nil, List.nil_append, List.cons.injEq, Prod.mk.injEq, Option.some.injEq] at h1 h2
          obtain ⟨⟨rfl, rfl, rfl⟩, rfl⟩ := h2
          refine ⟨[], [.start n as anc], by simp, rfl, ?_, _, _, rfl⟩
          rw [h1, List.map_cons, marks_events.2, pathRun, List.foldl_cons]
          show pathRun (s ++ [.start n as anc]) _ = _
          exact (events_path.2 cs (anc ++ [n]) _).1
        | cons v u => simp at h2
      · cases u with
        | nil =>
          simp only [List.append_nil, List.nil_append, List.cons.injEq, Prod.mk.injEq, Option.some.injEq] at h1 h2
          obtain ⟨⟨rfl, rfl, rfl⟩, rfl⟩ := h2
          refine ⟨[], [.start n as anc], by simp, rfl, ?_, _, _, rfl⟩
          rw [← h1, List.map_cons, marks_events.2, pathRun, List.foldl_cons]
          show pathRun (s ++ [.start n as anc]) _ = _
          exact (events_path.2 cs (anc ++ [n]) _).1
        | cons v u =>
          simp only [List.cons_append, List.cons.injEq] at h2
          obtain ⟨rfl, h2⟩ := h2
          obtain ⟨j, z, r, t, i1, i2, i3, i4, i5⟩ := ih p 0 (anc ++ [n]) (s ++ [.start n as anc]) ms ev q y u h1
          refine ⟨j :: r, .start n as anc :: t, by rw [i2, Nat.zero_add], ?_, ?_, i5⟩
          · rw [Node.opened, i1]; simp [i3]
          · rw [List.map_cons, pathRun, List.foldl_cons]
            show pathRun (s ++ [.start n as anc]) _ = _
            rw [i4]; simp
  case text =>
    intro x p anc s ms ev q y ms' h
    rw [Node.marks] at h
    cases ms with
    | nil => simp at h
    | cons m ms => simp at h
  case nil =>
    intro p i anc s ms ev q y ms' h
    rw [Node.marksList] at h
    simp at h
  case cons =>
    intro x xs ihx ihr p i anc s ms ev q y ms' h
    rw [Node.marksList] at h
    rcases List.append_eq_append_iff.1 h with ⟨u, h1, h2⟩ | ⟨u, h1, h2⟩
    · obtain ⟨j, z, r, t, i1, i2, i3, i4, i5⟩ := ihr p (i + 1) anc s u ev q y ms' h2
      refine ⟨j + 1, z, r, t, by simpa using i1, by rw [i2, show i + 1 + j = i + (j + 1) by omega], i3, ?_, i5⟩
      rw [h1, List.map_append, pathRun_append, marks_events.1, (events_path.1 x anc s).1, i4]
    · cases u with
      | nil =>
        simp only [List.append_nil, List.nil_append] at h1 h2
        obtain ⟨j, z, r, t, i1, i2, i3, i4, i5⟩ := ihr p (i + 1) anc s [] ev q y ms' (by rw [← h2]; rfl)
        refine ⟨j + 1, z, r, t, by simpa using i1, by rw [i2, show i + 1 + j = i + (j + 1) by omega], i3, ?_, i5⟩
        rw [← h1, marks_events.1, (events_path.1 x anc s).1]
        exact i4
      | cons v u =>
        simp only [List.cons_append, List.cons.injEq] at h2
        obtain ⟨rfl, h2⟩ := h2
        obtain ⟨r, t, i1, i2, i3, i4⟩ := ihx (p ++ [i]) anc s ms ev q y u h1
        exact ⟨0, x, r, t, rfl, by rw [i1]; simp, i2, i3, i4⟩

/-- An element that is delivered, in the list of outputs. -/
theorem delivers_at {F : Path → Prop} {ms os} (hd : Delivers F ms os) : ∀ {a : List (List Node)} {x : Node} {c : List (List Node)},
    os = a ++ [x] :: c → ∃ ms1 ev q ms2, ms = ms1 ++ (ev, some (q, x)) :: ms2 ∧ ms1.length = a.length ∧ F q := by
  induction hd with
  | nil => intro a x c h; simp at h
  | @inside ev ms os _ ih =>
    intro a x c h
    cases a with
    | nil => simp at h
    | cons a0 a =>
      simp only [List.cons_append, List.cons.injEq] at h
      obtain ⟨ms1, ev', q, ms2, h1, h2, h3⟩ := ih h.2
      exact ⟨_ :: ms1, ev', q, ms2, by rw [h1]; rfl, by simp [h2], h3⟩
  | @match_ ev q x' ms os hF _ ih =>
    intro a x c h
    cases a with
    | nil =>
      simp only [List.nil_append, List.cons.injEq, and_true] at h
      obtain ⟨rfl, _⟩ := h
      exact ⟨[], ev, q, ms, rfl, rfl, hF⟩
    | cons a0 a =>
      simp only [List.cons_append, List.cons.injEq] at h
      obtain ⟨ms1, ev', q, ms2, h1, h2, h3⟩ := ih h.2
      exact ⟨_ :: ms1, ev', q, ms2, by rw [h1]; rfl, by simp [h2], h3⟩
  | @other ev q x' ms os hF _ ih =>
    intro a x c h
    cases a with
    | nil => simp at h
    | cons a0 a =>
      simp only [List.cons_append, List.cons.injEq] at h
      obtain ⟨ms1, ev', q, ms2, h1, h2, h3⟩ := ih h.2
      exact ⟨_ :: ms1, ev', q, ms2, by rw [h1]; rfl, by simp [h2], h3⟩

theorem soloRun_length (trig) : ∀ (evs path : List Event) (b), (soloRun trig path b evs).1.length = evs.length := by
  intro evs
  induction evs with
  | nil => intro path b; rfl
  | cons ev evs ih => intro path b; simp [soloRun, ih]

theorem addChild_length (x : Node) (o : List OpenElem) : (addChild x o).length = o.length := by
  cases o with
  | nil => rfl
  | cons a r => obtain ⟨n, as, ts⟩ := a; rfl

/-- The depth is the number of open elements. -/
theorem bStep_depth {trig : List Event → Bool} {path : List Event} {b : Building} (h : b.depth = b.open_.length) (ev : Event) :
    (bStep trig path b ev).2.depth = (bStep trig path b ev).2.open_.length := by
  cases ev with
  | start n as anc =>
    rw [bStep]
    split
    · simp [Building.push, h]
    · split
      · simp [Building.push, h]
      · exact h
  | chars s =>
    rw [bStep]
    split
    · simp [addChild_length, h]
    · exact h
  | stop n anc =>
    obtain ⟨d, op, bs⟩ := b
    rw [bStep]
    cases d with
    | zero => exact h
    | succ d =>
      cases op with
      | nil => exact h
      | cons o r =>
        obtain ⟨m, as, ts⟩ := o
        simp only [List.length_cons, Nat.add_right_cancel_iff] at h
        simp only
        split
        · next h0 => simp [← h, h0]
        · simp [addChild_length, h]

theorem soloRun_depth {trig : List Event → Bool} : ∀ (evs path : List Event) (b : Building), b.depth = b.open_.length →
    (soloRun trig path b evs).2.2.depth = (soloRun trig path b evs).2.2.open_.length := by
  intro evs
  induction evs with
  | nil => intro path b h; exact h
  | cons ev evs ih => intro path b h; exact ih _ _ (bStep_depth h ev)

/-- Nothing is open when an element is sent. -/
theorem bStep_sent {trig : List Event → Bool} {path : List Event} {b b2 : Building} {ev : Event} {x : Node}
    (h : b.depth = b.open_.length) (hs : bStep trig path b ev = ([x], b2)) : b2.depth = 0 ∧ b2.open_ = [] := by
  have hd := bStep_depth (trig := trig) (path := path) h ev
  rw [hs] at hd
  have h0 : b2.depth = 0 := by
    cases ev with
    | start n as anc =>
      rw [bStep] at hs
      split at hs
      · cases hs
      · split at hs <;> cases hs
    | chars s => rw [bStep] at hs; split at hs <;> cases hs
    | stop n anc =>
      rw [bStep] at hs
      split at hs
      · split at hs
        · cases hs; rfl
        · cases hs
      · cases hs
  refine ⟨h0, List.length_eq_zero_iff.1 ?_⟩
  simp only at hd
  omega

/-- C135: what a failure leaves behind, for one pattern and every document.  The sender still holds the start events of
the elements around the one that was sent, and that one as the parent of the next it builds. -/
theorem C135_left_behind {e : Node} {w : Str} (h : IsDoc e w) (p : List (Stage Event)) (hne : p ≠ []) (hs : Safe p)
    {ex : SinkExn} (hf : ((newSender [p]).parseS does self .new w).exn = some ex) :
    ∃ q x t, e.at? q = some x ∧ e.opened [] q = some t ∧ Outermost Event.look p t ∧
      (((newSender [p]).parseS does self .new w).sinks.got 0).getLast? = some x ∧
      ((newSender [p]).parseS does self .new w).sender = some ⟨t.dropLast, [(p, ⟨0, [], some self⟩)]⟩ := by
  rw [parseS_doc h] at hf ⊢
  have hc := (callable_of_safe _ p (Nat.le_refl _)).1 hne hs
  have hn : newSender [p] = ⟨[], [(p, .idle)]⟩ := by simp [newSender, prepPatterns]
  rw [hn] at hf ⊢
  obtain ⟨a, ev, c, x, b2, h1, h2, h3, h4⟩ := runS_fails hc (e.events []) [] .idle .new ex (events_path.1 e [] []).2 rfl hf
  obtain ⟨os, h5, h6⟩ := (solo_idle (trigger 1 0 p) (fun q => ∃ t, e.opened [] q = some t ∧ FirstFrom (trigger 1 0 p) [] t)).1
    e [] [] [] (fun r => Iff.rfl)
  have hos : os = (soloRun (trigger 1 0 p) [] .idle a).1 ++ [x] :: (soloRun (trigger 1 0 p) (pathStep (pathRun [] a) ev) b2 c).1 := by
    have h5' := congrArg Prod.fst h5
    simp only at h5'
    rw [← h5', h1, soloRun_append, soloRun_path, soloRun, h2]
  obtain ⟨ms1, ev', q, ms2, g1, g2, g3⟩ := delivers_at h6 hos
  obtain ⟨r, t, i1, i2, i3, n', a', i4⟩ := marks_path.1 e [] [] [] ms1 ev' q x ms2 g1
  have hev : a ++ ev :: c = ms1.map Prod.fst ++ ev' :: ms2.map Prod.fst := by
    rw [← h1, ← marks_events.1 e [] [], g1]; simp
  have hlen : a.length = (ms1.map Prod.fst).length := by rw [List.length_map, g2, soloRun_length]
  obtain ⟨ha, hb⟩ := List.append_inj hev hlen
  simp only [List.cons.injEq] at hb
  obtain ⟨hb, -⟩ := hb
  subst hb
  simp only [List.nil_append] at i1 i3
  subst i1
  obtain ⟨t', j1, j2⟩ := g3
  rw [i2] at j1
  cases j1
  obtain ⟨k1, k2⟩ := bStep_sent (soloRun_depth a [] .idle rfl) h2
  have hx : e.at? q = some x := by
    have : (q, x) ∈ (e.marks [] []).filterMap (·.2) := by rw [g1]; simp
    exact ((marks_list.1 e [] []).1 _ _ |>.1 this).elim fun r hr => by
      obtain ⟨hq, hr⟩ := hr
      simp only [List.nil_append] at hq
      subst hq
      exact hr.1
  refine ⟨q, x, t, hx, i2, (first_single_iff hne hs (opened_starts i2)).1 j2, h4, ?_⟩
  rw [h3, ha, i3, i4]
  simp only [pathStep, k1, k2]

/-! ### The next document -/

/-- Decisions made on top of what a failure left. -/
theorem first_from_iff {st : List (Stage Event)} (hne : st ≠ []) (hs : Safe st) {u t : List Event} (hu : AllStarts u)
    (ht : AllStarts t) (hnu : ∀ zs, zs <+: u → ¬ Lays Event.look st zs) :
    FirstFrom (trigger 1 0 st) u t ↔ Outermost Event.look st (u ++ t) := by
  have hall : ∀ {t' : List Event}, t' <+: t → AllStarts (u ++ t') := by
    intro t' h x hx
    rcases List.mem_append.1 hx with hx | hx
    · exact hu x hx
    · exact ht x (h.subset hx)
  have hpart : ∀ {zs}, zs <+: u ++ t → Lays Event.look st zs → ∃ t', zs = u ++ t' ∧ t' <+: t ∧ t' ≠ [] := by
    rintro zs ⟨v, hv⟩ hl
    rcases List.append_eq_append_iff.1 hv with ⟨c, h1, h2⟩ | ⟨c, h1, h2⟩
    · exact absurd hl (hnu zs ⟨c, h1.symm⟩)
    · refine ⟨c, h1, ⟨v, h2.symm⟩, ?_⟩
      rintro rfl
      exact hnu zs ⟨[], by simp [h1]⟩ hl
  have htrig : ∀ {t' : List Event}, t' <+: t → (trigger 1 0 st (u ++ t') = true ↔ Reaches st (u ++ t')) := by
    intro t' h
    rw [trigger_iff hne hs (hall h), stretched_one]
  constructor
  · rintro ⟨h1, h2⟩
    have hno : ∀ ys, ys <+: u ++ t → ys ≠ u ++ t → ¬ Lays Event.look st ys := by
      intro ys hy hn hl
      obtain ⟨t', rfl, k1, k2⟩ := hpart hy hl
      have := h2 t' k1 (fun h => hn (by rw [h])) k2
      rw [(htrig k1).2 ⟨_, List.prefix_refl _, hl⟩] at this
      cases this
    obtain ⟨zs, hz, hl⟩ := (htrig (List.prefix_refl t)).1 h1
    by_cases he : zs = u ++ t
    · subst he
      exact ⟨hl, fun ys a b => hno ys a b⟩
    · exact absurd hl (hno zs hz he)
  · rintro ⟨h1, h2⟩
    refine ⟨(htrig (List.prefix_refl t)).2 ⟨_, List.prefix_refl _, h1⟩, ?_⟩
    intro t' k1 k2 k3
    cases hb : trigger 1 0 st (u ++ t') with
    | false => rfl
    | true =>
      obtain ⟨zs, hz, hl⟩ := (htrig k1).1 hb
      have hzt : zs <+: u ++ t := hz.trans ((List.prefix_append_right_inj u).2 k1)
      refine absurd hl (h2 zs hzt ?_)
      intro he
      have h5 := hz.length_le
      have h6 := k1.length_le
      rw [he] at h5
      simp only [List.length_append] at h5
      exact k2 (k1.eq_of_length (by omega))

/-- The element outside does not matter for what is built and sent. -/
theorem soloRun_base (trig : List Event → Bool) (f : Option Id) : ∀ (evs path : List Event) (b : Building),
    soloRun trig path { b with base := f } evs =
      ((soloRun trig path b evs).1, (soloRun trig path b evs).2.1, { (soloRun trig path b evs).2.2 with base := f }) := by
  have step : ∀ (path : List Event) (b : Building) (ev : Event),
      bStep trig path { b with base := f } ev = ((bStep trig path b ev).1, { (bStep trig path b ev).2 with base := f }) := by
    intro path b ev
    cases ev with
    | start n as anc =>
      simp only [bStep]
      split
      · rfl
      · split <;> rfl
    | chars s => simp only [bStep]; split <;> rfl
    | stop n anc =>
      obtain ⟨d, op, bs⟩ := b
      cases d with
      | zero => rfl
      | succ d =>
        cases op with
        | nil => rfl
        | cons o r =>
          obtain ⟨m, as, ts⟩ := o
          simp only [bStep]
          split <;> rfl
  intro evs
  induction evs with
  | nil => intro path b; rfl
  | cons ev evs ih => intro path b; simp only [soloRun, step, ih]

/-- One element is appended outside for every one that is sent (and the one being built). -/
theorem strays_count {st : List (Stage Event)} (f : Id) : ∀ (evs path : List Event) (b : Building), b.base = some f →
    ∀ os s', Sender.run ⟨path, [(st, b)]⟩ (quiet evs) = (os, some s') →
    (∀ y ∈ strays os.flatten, y = (0, f)) ∧ ∃ b', s'.pats = [(st, b')] ∧
      (strays os.flatten).length + min b.depth 1 = (sentTo 0 os.flatten).length + min b'.depth 1 := by
  intro evs
  induction evs with
  | nil =>
    intro path b hb os s' h
    cases h
    exact ⟨by simp [strays], b, rfl, by simp [strays, sentTo]⟩
  | cons ev evs ih =>
    intro path b hb os s' h
    have hq : quiet (ev :: evs) = (ev, fun _ => none) :: quiet evs := rfl
    rw [hq, Sender.run, Sender.handle, handlePats] at h
    have key : ∀ o path' b1, handleOne st 0 none path b ev = (o, some (path', b1)) → b1.base = some f ∧
        (∀ y ∈ strays o, y = (0, f)) ∧ (strays o).length + min b.depth 1 = (sentTo 0 o).length + min b1.depth 1 := by
      intro o path' b1 h1
      cases ev with
      | start n as anc =>
        simp only [handleOne] at h1
        split at h1
        · cases h1
          exact ⟨hb, by simp [strays], by simp [strays, sentTo, Building.push]; omega⟩
        · split at h1
          · cases h1
          · cases h1; exact ⟨hb, by simp [strays], by simp [strays, sentTo]⟩
          · rw [hb] at h1
            cases h1
            refine ⟨hb, by simp [strays], ?_⟩
            simp [strays, sentTo, Building.push]
            omega
      | chars s =>
        simp only [handleOne] at h1
        split at h1 <;> cases h1 <;> exact ⟨hb, by simp [strays], by simp [strays, sentTo]⟩
      | stop n anc =>
        obtain ⟨d, op, bs⟩ := b
        simp only at hb
        subst hb
        simp only [handleOne] at h1
        split at h1
        · cases h1
        · cases d with
          | zero => cases h1; exact ⟨rfl, by simp [strays], by simp [strays, sentTo]⟩
          | succ d =>
            cases op with
            | nil => cases h1; exact ⟨rfl, by simp [strays], by simp [strays, sentTo]⟩
            | cons o r =>
              obtain ⟨m, as, ts⟩ := o
              simp only at h1
              split at h1
              · cases h1; exact ⟨rfl, by simp [strays], by simp [strays, sentTo]⟩
              · cases h1; exact ⟨rfl, by simp [strays], by simp [strays, sentTo]; omega⟩
    cases h1 : handleOne st 0 none path b ev with
    | mk o r =>
      cases r with
      | none => rw [h1] at h; cases h
      | some r =>
        obtain ⟨path', b1⟩ := r
        rw [h1] at h
        simp only [handlePats, List.append_nil] at h
        cases h2 : Sender.run ⟨path', [(st, b1)]⟩ (quiet evs) with
        | mk os' r' =>
          rw [h2] at h
          simp only [Prod.mk.injEq] at h
          obtain ⟨rfl, rfl⟩ := h
          obtain ⟨k1, k2, k3⟩ := key o path' b1 h1
          obtain ⟨g1, b', g2, g3⟩ := ih path' b1 k1 os' s' h2
          refine ⟨?_, b', g2, ?_⟩
          · intro y hy
            rw [List.flatten_cons, strays_append] at hy
            rcases List.mem_append.1 hy with hy | hy
            · exact k2 y hy
            · exact g1 y hy
          · rw [List.flatten_cons, strays_append, sentTo_append, List.length_append, List.length_append]
            omega

/-- C135: a document parsed by the same sender after a failure.  It is taken as though it stood where the failed element
did: an element is sent if the path of the failed element's parent followed by its own matches.  Each one sent has also
been appended to the children of the failed element.  Nothing clears this: the sender is the same afterwards. -/
theorem C135_next_document {e : Node} {w : Str} (h : IsDoc e w) (p : List (Stage Event)) (hne : p ≠ []) (hs : Safe p)
    {ex : SinkExn} (hf : ((newSender [p]).parseS does self .new w).exn = some ex) :
    ∃ q x t s, e.at? q = some x ∧ e.opened [] q = some t ∧
      (((newSender [p]).parseS does self .new w).sinks.got 0).getLast? = some x ∧
      ((newSender [p]).parseS does self .new w).sender = some s ∧
      ∀ e2 w2, IsDoc e2 w2 → ∃ os, s.parse w2 = (os, some s) ∧
        Delivers (fun q2 => ∃ t2, e2.opened [] q2 = some t2 ∧ Outermost Event.look p (t.dropLast ++ t2)) (e2.marks [] [])
          (os.map (sentTo 0)) ∧
        strays os.flatten = List.replicate (sentTo 0 os.flatten).length (0, self) := by
  obtain ⟨q, x, t, h1, h2, h3, h4, h5⟩ := C135_left_behind h p hne hs hf
  refine ⟨q, x, t, _, h1, h2, h4, h5, ?_⟩
  intro e2 w2 hd2
  have hc := (callable_of_safe _ p (Nat.le_refl _)).1 hne hs
  have hts := opened_starts h2
  have htne := opened_ne_nil h2
  have hpre : t.dropLast <+: t := List.dropLast_prefix t
  have hu : AllStarts t.dropLast := fun y hy => hts y (hpre.subset hy)
  have hnu : ∀ zs, zs <+: t.dropLast → ¬ Lays Event.look p zs := by
    intro zs hz
    refine h3.2 zs (hz.trans hpre) ?_
    intro he
    have := hz.length_le
    rw [he, List.length_dropLast] at this
    have : 0 < t.length := List.length_pos_iff.2 htne
    omega
  obtain ⟨os0, g1, g2⟩ := (solo_idle (trigger 1 0 p) (fun q2 => ∃ t2, e2.opened [] q2 = some t2 ∧
    FirstFrom (trigger 1 0 p) t.dropLast t2)).1 e2 [] [] t.dropLast (fun r => Iff.rfl)
  obtain ⟨hp1, hp2⟩ := events_path.1 e2 [] t.dropLast
  obtain ⟨os, k1, k2⟩ := run_one hc (e2.events []) t.dropLast ⟨0, [], some self⟩ hp2
  have hb : soloRun (trigger 1 0 p) t.dropLast ⟨0, [], some self⟩ (e2.events []) = (os0, t.dropLast, ⟨0, [], some self⟩) := by
    have := soloRun_base (trigger 1 0 p) (some self) (e2.events []) t.dropLast .idle
    rw [g1] at this
    exact this
  rw [hb] at k1 k2
  rw [hp1] at k1
  refine ⟨os, by rw [parse_of_drive (drive_doc hd2), k1], ?_, ?_⟩
  · rw [k2]
    refine delivers_congr (fun q2 => ?_) g2
    constructor
    · rintro ⟨t2, a, b⟩
      exact ⟨t2, a, (first_from_iff hne hs hu (opened_starts a) hnu).1 b⟩
    · rintro ⟨t2, a, b⟩
      exact ⟨t2, a, (first_from_iff hne hs hu (opened_starts a) hnu).2 b⟩
  · obtain ⟨a1, b', a2, a3⟩ := strays_count self (e2.events []) t.dropLast ⟨0, [], some self⟩ rfl os _ k1
    simp only [List.cons.injEq, Prod.mk.injEq, true_and, and_true] at a2
    subst a2
    refine List.eq_replicate_iff.2 ⟨by simpa using a3, a1⟩

/-- C135: so a sender is not as new after a failure.  The sink refuses the `b` of `<a><b></b></a>`; given the document again,
the same sender sends nothing. -/
theorem C135_full_statement_is_false :
    ∃ (w : Str) (p : List (Stage Event)) (does : Nat → List Node → SinkDoes) (self : Id) (s : Sender),
      ((newSender [p]).parseS does self .new w).exn = some .own ∧ ((newSender [p]).parseS does self .new w).sender = some s ∧
      sentTo 0 ((newSender [p]).parse w).1.flatten = [.elem ['b'] [] []] ∧ sentTo 0 (s.parse w).1.flatten = [] ∧
      sentTo 0 (s.parse "<b></b>".toList).1.flatten = [.elem ['b'] [] []] := by
  refine ⟨"<a><b></b></a>".toList, [.name ['a'], .name ['b']], fun _ _ => .refuses, 7,
    ⟨[.start ['a'] [] []], [([.name ['a'], .name ['b']], ⟨0, [], some 7⟩)]⟩, by decide +kernel, by with_unfolding_all rfl, by decide +kernel, by decide +kernel, by decide +kernel⟩

/-- A case: two of three elements wanted. -/
example : ∃ l, ((newSender [[.name ['a'], .name ['b']]]).parseS (takesFirst 2) 7 .new "<a><b>1</b><b>2</b><b>3</b></a>".toList).sinks.got 0 = l ∧
    l = [.elem ['b'] [] [.text ['1']], .elem ['b'] [] [.text ['2']]] ∧
    ((newSender [[.name ['a'], .name ['b']]]).parseS (takesFirst 2) 7 .new "<a><b>1</b><b>2</b><b>3</b></a>".toList).exn = some .runtime :=
  ⟨_, rfl, by decide +kernel, by decide +kernel⟩

end Amara
