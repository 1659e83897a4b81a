import Verif.Spec.Readers
import Verif.Props.Bones
import Verif.Props.XSender
/-
C147: the MicroXML readers and the XML readers agree on a document.
-/
namespace Amara

variable {F : Type}

theorem text_event : (∀ (t : Node) (anc : List Str) (p : Path) (s : Str), t.at? p = some (.text s) → .chars s ∈ t.events anc) ∧
    ∀ (ts : List Node) (anc : List Str) (p : Path) (i : Nat) (s : Str), (ts[i]?).bind (fun x => x.at? p) = some (.text s) →
      .chars s ∈ Node.eventsList anc ts := by
  apply Node.induct
  · intro n as cs ih anc p s h
    cases p with
    | nil => simp [Node.at?] at h
    | cons i p =>
      simp only [Node.at?, Node.xmlChildren] at h
      have := ih (anc ++ [n]) p i s (by
        cases hi : cs[i]? with
        | none => rw [hi] at h; cases h
        | some y => rw [hi] at h; exact h)
      simp only [Node.events, List.mem_cons, List.mem_append]
      exact .inr (.inl this)
  · intro u anc p s h
    cases p with
    | nil => simp only [Node.at?, Option.some.injEq, Node.text.injEq] at h; simp [Node.events, h]
    | cons i p => simp [Node.at?, Node.xmlChildren] at h
  · intro anc p i s h; simp at h
  · intro x xs ih1 ih2 anc p i s h
    simp only [Node.eventsList, List.mem_append]
    cases i with
    | zero => exact .inl (ih1 anc p s (by simpa using h))
    | succ i => exact .inr (ih2 anc p i s (by simpa using h))

/-- C147: the tree that the XML parser builds is, its adjacent texts joined, the tree that the MicroXML parser builds; both
have the same serialisation and string value. -/
theorem C147_trees {e : Node} {w : Str} (h : IsDoc e w) {cbs : List XCall} (hc : ReportsDoc cbs e) :
    ∃ t : Node,
      (∀ b r b', TreeParse b w r b' → ∃ i, r = .returned (some i) ∧ Rep b'.heap none i e) ∧
      (∀ b x r b', b.root = none → b.parent = none → XTreeParse b cbs x r b' → ∃ i, b'.root = some i ∧ Rep b'.heap none i t) ∧
      t.isText = false ∧ t.NoEmptyText ∧ t.norm = e.norm ∧ t.encode = e.encode ∧ t.xmlValue = e.xmlValue := by
  obtain ⟨evs, h1, hw, hj, hne⟩ := hc.reports
  have he := h.1
  obtain ⟨t, d, a⟩ := events_tree evs hw
  have de : Described (e.events []) (some e) := by
    refine ⟨he, ?_, [], by simp, by simp⟩
    cases e with
    | text s => cases he
    | elem n as cs => simp [Node.events]
  have hn : t.map Node.norm = (some e).map Node.norm := by
    have e1 := described_join d
    have e2 := described_join de
    rw [hj] at e1
    exact described_unique e1 e2
  cases t with
  | none => cases hn
  | some t =>
    simp only [Option.map_some, Option.some.injEq] at hn
    refine ⟨t, fun b r b' hp => C20_builder_builds_the_tree h hp, ?_, d.1, ?_, hn, ?_, C18_string_value_ignores_splitting _ _ hn⟩
    · intro b x r b' hr hp hx
      have := hx.1
      rw [C43_local_names h1 hw] at this
      exact a { b with newElement := none, newText := none } _ ⟨hr, hp⟩ this
    · intro p hp
      obtain ⟨_, _, ms, hm, hev⟩ := d
      have := text_event.1 t [] p [] hp
      rw [← hev, List.mem_append] at this
      rcases this with h2 | h2
      · exact hne _ h2 rfl
      · exact absurd (hm _ h2) (by simp [Event.isStop])
    · exact encode_of_norm hn

/-- C147: the senders send the same, given the same patterns: what each sink of the XML sender gets, in however many pieces
the document is fed, is, adjacent texts joined, what that sink of the MicroXML sender gets. -/
theorem C147_senders {e : Node} {w : Str} (h : IsDoc e w) {pieces : List (List XCall)} (hc : ReportsDoc pieces.flatten e)
    (pats : List (List (Stage Event))) (self : Id) :
    let r := (newXSender pats).feeds takesAll self .new (goodCalls pieces)
    let m := (newSender pats).parse w
    r.1.any Prod.snd = m.2.isNone ∧
    ∀ k, (r.2.1.got k).map Node.norm = ((m.1.map (sentTo k)).flatten).map Node.norm ∧
      (r.2.1.got k).map Node.encode = ((m.1.map (sentTo k)).flatten).map Node.encode ∧
      (r.2.1.got k).map Node.xmlValue = ((m.1.map (sentTo k)).flatten).map Node.xmlValue := by
  obtain ⟨evs, h1, hw, hj, _⟩ := hc.reports
  have hs : SameRun ((newSender pats).run (quiet evs)) ((newSender pats).run (quiet (e.events []))) := by
    have := (run_join evs (newSender pats)).trans (hj ▸ (run_join (e.events []) (newSender pats)).symm)
    exact this
  obtain ⟨_, p2, _, p4, _⟩ := C137_pieces (does := takesAll) (self := self) (newXSender pats) .new pieces
  obtain ⟨k1, g1, g2⟩ := feed_all (self := self) (pats := pats) (C43_local_names h1 hw)
  rw [g2] at p2 p4
  show _ ∧ _
  rw [p2, p4, parse_of_drive (drive_doc h)]
  refine ⟨?_, fun k => ?_⟩
  · have := hs.2
    cases h : ((newSender pats).run (quiet evs)).2 <;> cases h' : ((newSender pats).run (quiet (e.events []))).2 <;> simp_all
  · show (k1.got k).map _ = _ ∧ (k1.got k).map _ = _ ∧ (k1.got k).map _ = _
    rw [g1, ← sentTo_flat]
    have hn := sentTo_norm hs.1 k
    generalize sentTo k ((newSender pats).run (quiet evs)).1.flatten = a at hn
    generalize sentTo k ((newSender pats).run (quiet (e.events []))).1.flatten = b at hn
    exact ⟨hn, map_of_norm (fun x y h => encode_of_norm h) hn, map_of_norm C18_string_value_ignores_splitting hn⟩

/-- C147: queries along elements find the same in both trees. -/
theorem C147_queries {e : Node} {w : Str} (h : IsDoc e w) {cbs : List XCall} (hc : ReportsDoc cbs e) :
    ∃ t : Node, (∀ b x r b', b.root = none → b.parent = none → XTreeParse b cbs x r b' → ∃ i, b'.root = some i ∧ Rep b'.heap none i t) ∧
      (∀ b r b', TreeParse b w r b' → ∃ i, r = .returned (some i) ∧ Rep b'.heap none i e) ∧
      ∀ (E E' : Env F), E.doc = e → E'.doc = t → ∀ (n : Nat) {a : Axis} (_ : ElementAxis a) (m : Str) {ss : List (PathStep F)}
        (_ : ∀ s ∈ ss, s.OfElements True),
        ∃ qs qs' : List Path, E.Yields n (relPath a m ss) (.node []) (qs.map .node) ∧ E'.Yields n (relPath a m ss) (.node []) (qs'.map .node) ∧
          qs.map e.among = qs'.map t.among ∧ qs.map (fun q => E.strVal (.node q)) = qs'.map fun q => E'.strVal (.node q) := by
  obtain ⟨t, h1, h2, h3, h4, h5, _⟩ := C147_trees h hc
  have he := h.1
  refine ⟨t, h2, h1, ?_⟩
  rintro E E' rfl rfl n a ha m ss hs
  refine C148_cutting_text E E' (doc_noEmpty h) h4 h5.symm n ha m hs ?_ ?_ rfl
  · cases hd : E.doc with
    | text s => rw [hd] at he; cases he
    | elem m as cs => exact ⟨m, as, cs, rfl⟩
  · cases hd : E'.doc with
    | text s => rw [hd] at h3; cases h3
    | elem m as cs => exact ⟨m, as, cs, rfl⟩

-- the hypotheses are met: `<a x='1'>b&lt;<c></c></a>`, the text in two pieces
example : ReportsDoc [.start "u a".toList [(['x'], ['1'])], .chars ['b'], .chars ['<'], .start ['c'] [], .stop ['c'], .stop "u a".toList] exElem ∧
    IsDoc exElem exText := by
  have q : QName "u a".toList ['a'] := ⟨by simp, by unfold NoSpace; decide, .inr ⟨['u'], by simp, by unfold NoSpace; decide, rfl⟩⟩
  have q' : QName ['c'] ['c'] := ⟨by decide, by unfold NoSpace; decide, .inl rfl⟩
  have q'' : QName ['x'] ['x'] := ⟨by decide, by unfold NoSpace; decide, .inl rfl⟩
  refine ⟨⟨_, .start q (.cons q'' .nil) (.chars (.chars (.start q' .nil (.stop q' (.stop q .nil))))),
    (by decide : WellNested [.start ['a'] (dictOf [(['x'], ['1'])]) [], .chars ['b'], .chars ['<'], .start ['c'] (dictOf []) [['a']],
      .stop ['c'] [['a']], .stop ['a'] []]), by decide, ?_⟩, exText_isDoc⟩
  intro s hs
  simp only [List.mem_cons, reduceCtorEq, Event.chars.injEq, List.not_mem_nil, false_or, or_false] at hs
  rcases hs with rfl | rfl <;> simp

end Amara
