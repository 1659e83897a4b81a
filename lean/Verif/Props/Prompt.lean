import Verif.Lemmas.Prompt
import Verif.Props.Parser
/-
C116: events are delivered as soon as the text they report is complete.
-/
namespace Amara

/-- What has been delivered after any part of a document: with `n` the number of '>' so far, all events up to the
`n`th tag and, if a further tag has been opened, the text before it; nothing else. -/
theorem C116_delivered_so_far {e : Node} {x y : Str} (h : IsDoc e (x ++ y)) :
    (send newParser x false).2.1 = .returned ∧
    ∃ later, e.events [] = (send newParser x false).1 ++ later ∧
      (send newParser x false).1.countP Event.isTag = x.count '>' ∧
      (x.count '<' = x.count '>' → ∀ ev ∈ (send newParser x false).1.getLast?, ev.isTag = true) ∧
      (x.count '<' ≠ x.count '>' → ∀ ev ∈ later.head?, ev.isTag = true) := by
  by_cases hx : x = []
  · subst hx
    refine ⟨rfl, e.events [], rfl, rfl, ?_, ?_⟩
    · intro _ ev hev; cases hev
    · intro h; exact absurd rfl h
  obtain ⟨gi, hd⟩ := exec_doc (done := false) h
  have happ : ({ PState.init with rest := x } : PState).app y = { PState.init with rest := x ++ y } := rfl
  obtain ⟨E, s', hx'⟩ := prefix_paused h
  have hpre := exec_prefix { PState.init with rest := x } y
  rw [happ, hd, hx'] at hpre
  obtain ⟨h1, h2⟩ := prompt_core h hx'
  have hs := send_new x hx false
  rw [hx'] at hs
  simp only at hs
  rw [hs]
  have hle : inTag s'.st = 0 ∨ inTag s'.st = 1 := by cases s'.st <;> simp [inTag]
  refine ⟨rfl, ?_⟩
  rcases hle with hi | hi
  · obtain ⟨later, hl⟩ := hpre
    refine ⟨later, hl.symm, h1, ?_, fun hne => absurd (by omega) hne⟩
    intro _ ev hev
    rcases exec_last hx' hi with ⟨rfl, _⟩ | ⟨ev', h3, h4⟩
    · cases hev
    · simp only at hev; rw [h3] at hev; cases hev; exact h4
  · obtain ⟨R, hR, hR'⟩ := exec_next y hx' hi
    rw [happ, hd] at hR
    exact ⟨R, hR, h1, fun he => by omega, fun _ => hR'⟩

/-- The same for a document sent in pieces, as long as no piece ends inside an attribute value (where the parser
loses its place, see C02). -/
theorem C116_in_pieces {e : Node} {y : Str} (frags : List Str) (h : IsDoc e (frags.flatten ++ y))
    (hcut : ∀ k, k < frags.length → endsInValue (frags.take k).flatten = false) :
    (sendAll newParser frags).2.1 = .returned ∧
    ∃ later, e.events [] = (sendAll newParser frags).1 ++ later ∧
      (sendAll newParser frags).1.countP Event.isTag = frags.flatten.count '>' ∧
      (frags.flatten.count '<' = frags.flatten.count '>' →
        ∀ ev ∈ (sendAll newParser frags).1.getLast?, ev.isTag = true) ∧
      (frags.flatten.count '<' ≠ frags.flatten.count '>' → ∀ ev ∈ later.head?, ev.isTag = true) := by
  obtain ⟨h1, h2, _⟩ := C02_fragmentation_irrelevant_partial frags hcut
  rw [h1, h2]
  exact C116_delivered_so_far h

/-- The '>' of a tag delivers that tag's event, and only that. -/
theorem C116_tag_end_delivers {e : Node} {x y : Str} (h : IsDoc e (x ++ '>' :: y)) :
    ∃ ev, ev.isTag = true ∧
      (send newParser (x ++ ['>']) false).1 = (send newParser x false).1 ++ [ev] := by
  have h' : IsDoc e ((x ++ ['>']) ++ y) := by simpa using h
  obtain ⟨_, l1, a1, a2, a3, a4⟩ := C116_delivered_so_far h
  obtain ⟨_, l2, b1, b2, b3, b4⟩ := C116_delivered_so_far h'
  have hb := bracket_balance h
  have hb' := bracket_balance h'
  simp only [List.count_append, List.count_singleton, Char.reduceBEq, Bool.false_eq_true, if_false,
    if_true, Nat.add_zero] at b2 b3 b4 hb'
  have hne : x.count '<' ≠ x.count '>' := by omega
  have heq : x.count '<' = x.count '>' + 1 := by omega
  obtain ⟨R, hR⟩ := send_prefix x ['>']
  rw [← hR] at b1 b2 b3 ⊢
  rw [a1, List.append_assoc, List.append_right_inj _] at b1
  rw [List.countP_append] at b2
  have hR1 : R.countP Event.isTag = 1 := by omega
  cases R with
  | nil => cases hR1
  | cons ev R =>
    have hev := a4 hne ev (by rw [b1]; rfl)
    refine ⟨ev, hev, ?_⟩
    rw [List.countP_cons, if_pos hev] at hR1
    cases hl : R.getLast? with
    | none => rw [List.getLast?_eq_none_iff] at hl; rw [hl]
    | some z =>
      exfalso
      have hz := b3 heq z (by
        rw [List.getLast?_append, List.getLast?_cons, hl]; rfl)
      have : 0 < R.countP Event.isTag := List.countP_pos_iff.2 ⟨z, List.mem_of_getLast? hl, hz⟩
      omega

/-- The '<' of a tag delivers the text before it, if there is any, and nothing else. -/
theorem C116_tag_start_delivers {e : Node} {x y : Str} (h : IsDoc e (x ++ '<' :: y)) :
    (send newParser (x ++ ['<']) false).1 = (send newParser x false).1 ∨
    ∃ t, (send newParser (x ++ ['<']) false).1 = (send newParser x false).1 ++ [.chars t] := by
  have h' : IsDoc e ((x ++ ['<']) ++ y) := by simpa using h
  obtain ⟨_, l1, a1, a2, a3, a4⟩ := C116_delivered_so_far h
  obtain ⟨_, l2, b1, b2, b3, b4⟩ := C116_delivered_so_far h'
  simp only [List.count_append, List.count_singleton, Char.reduceBEq, Bool.false_eq_true, if_false,
    Nat.add_zero] at b2
  obtain ⟨R, hR⟩ := send_prefix x ['<']
  have hadj := send_noAdj (x ++ ['<'])
  rw [← hR] at b2 hadj ⊢
  rw [List.countP_append] at b2
  have hR0 : ∀ ev ∈ R, ev.isTag ≠ true := List.countP_eq_zero.1 (by omega)
  cases R with
  | nil => left; simp
  | cons ev R =>
    right
    have hev := hR0 ev (by simp)
    cases R with
    | nil =>
      cases ev with
      | chars t => exact ⟨t, rfl⟩
      | start => simp [Event.isTag] at hev
      | stop => simp [Event.isTag] at hev
    | cons ev' R =>
      exfalso
      rcases hadj _ ev ev' R rfl with h | h
      · exact hev h
      · exact hR0 ev' (by simp) h

/-- No other character delivers anything. -/
theorem C116_nothing_else_delivers {e : Node} {x y : Str} {c : Char} (h : IsDoc e (x ++ c :: y))
    (h1 : c ≠ '<') (h2 : c ≠ '>') :
    (send newParser (x ++ [c]) false).1 = (send newParser x false).1 := by
  have h' : IsDoc e ((x ++ [c]) ++ y) := by simpa using h
  obtain ⟨_, l1, a1, a2, a3, a4⟩ := C116_delivered_so_far h
  obtain ⟨_, l2, b1, b2, b3, b4⟩ := C116_delivered_so_far h'
  have e1 : (c == '<') = false := beq_false_of_ne h1
  have e2 : (c == '>') = false := beq_false_of_ne h2
  simp only [List.count_append, List.count_singleton, e1, e2, Bool.false_eq_true, if_false,
    Nat.add_zero] at b2 b3
  obtain ⟨R, hR⟩ := send_prefix x [c]
  rw [← hR] at b1 b2 b3 ⊢
  rw [List.countP_append] at b2
  have hR0 : ∀ ev ∈ R, ev.isTag ≠ true := List.countP_eq_zero.1 (by omega)
  cases R with
  | nil => simp
  | cons ev R =>
    exfalso
    by_cases heq : x.count '<' = x.count '>'
    · cases hl : (ev :: R).getLast? with
      | none => simp at hl
      | some z =>
        exact hR0 z (List.mem_of_getLast? hl) (b3 heq z (by rw [List.getLast?_append, hl]; rfl))
    · rw [a1, List.append_assoc, List.append_right_inj _] at b1
      exact hR0 ev (by simp) (a4 heq ev (by rw [b1]; rfl))

/-- A document with an attribute, a reference and a nested element, cut after several of its characters: nothing while
the first tag is open, the tag once its '>' has come, and the text before the next tag once its '<' has. -/
example : IsDoc exElem ("<a x='1'>b&lt;".toList ++ '<' :: "c></c></a>".toList) ∧
    (send newParser "<a x='1'".toList false).1 = [] ∧
    (send newParser "<a x='1'>".toList false).1 = [.start "a".toList [("x".toList, "1".toList)] []] ∧
    (send newParser "<a x='1'>b&lt;".toList false).1 = [.start "a".toList [("x".toList, "1".toList)] []] ∧
    (send newParser "<a x='1'>b&lt;<".toList false).1 =
      [.start "a".toList [("x".toList, "1".toList)] [], .chars "b<".toList] :=
  ⟨exText_isDoc, by decide, by decide, by decide, by decide⟩

/-- The hypotheses of the other two: a '>' that ends a tag, and a character that is neither bracket. -/
example : IsDoc exElem ("<a x='1'".toList ++ '>' :: "b&lt;<c></c></a>".toList) ∧
    IsDoc exElem ("<a x='1'>".toList ++ 'b' :: "&lt;<c></c></a>".toList) := ⟨exText_isDoc, exText_isDoc⟩

/-- And the pieces of the same document, cut outside values. -/
example : ∀ k : Nat, k < 3 →
    endsInValue ((["<a x='1'>".toList, "b&l".toList, "t;<c".toList].take k).flatten) = false := by decide

end Amara
