import Verif.Lemmas.CutValue
import Verif.Lemmas.Prompt
import Verif.Props.Parser
/-
C02, the rest: a document with a fragment boundary inside a quoted attribute value.
-/
namespace Amara

/-- The state of the parser at the first boundary inside a value. -/
theorem cut_state {e : Node} {before after : List Str} (h : IsDoc e (before ++ after).flatten)
    (hout : ∀ k, k < before.length → endsInValue (before.take k).flatten = false)
    (hin : endsInValue before.flatten = true) :
    ∃ E s p, sendAll newParser before = (E, .returned, .awaiting s) ∧
      (send newParser before.flatten false).1 = E ∧ E <+: e.events [] ∧ E ≠ e.events [] ∧
      before.flatten = p ++ s.rest ∧ Astray s (p.foldl Lay.next .text) := by
  have hw : IsDoc e (before.flatten ++ after.flatten) := by simpa using h
  obtain ⟨E, s, hx⟩ := prefix_paused hw
  have hne : before.flatten ≠ [] := by
    intro e; rw [e] at hin; exact absurd hin (by decide)
  have hs1 : send newParser before.flatten false = (E, .returned, .awaiting s) := by
    rw [send_new _ hne, hx]; rfl
  obtain ⟨c1, c2, c3⟩ := C02_fragmentation_irrelevant_partial before hout
  rw [hs1] at c1 c2 c3
  have c3 := c3 (by rw [c2]; simp)
  have hlay := lay_doc hw
  have hok : before.flatten.foldl Lay.next .text ≠ .bad :=
    Lay.prefix_ok (v := after.flatten) (by rw [hlay]; simp)
  have hq : (before.flatten.foldl Lay.next .text).quote ≠ none := by
    have hs := Lay.scan_fold _ .text hok
    intro hn
    have : (before.flatten.foldl Lay.next .text).scan.inside = true := by
      rw [hs]; exact hin
    revert this hn hok
    generalize before.flatten.foldl Lay.next .text = d
    cases d <;> simp [Lay.quote, Lay.scan, Scan.inside]
  obtain ⟨p, hp, ha⟩ := exec_instep (s := { PState.init with rest := before.flatten }) (d := .text)
    rfl hok hq hx
  refine ⟨E, s, p, Prod.ext c1 (Prod.ext c2 c3), by rw [hs1], ?_, ?_, hp, ha⟩
  · have := (C11_truncated_document_is_silent hw).1
    rwa [hs1] at this
  · intro hE
    obtain ⟨gi, hd⟩ := exec_doc (done := false) hw
    have hinit : ∀ w, NestInv { PState.init with rest := w } .before := fun w =>
      ⟨rfl, by simp [PState.init], by simp [PState.init]⟩
    have n1 := exec_nest (done := false) _ .before (hinit before.flatten)
    have n2 := exec_nest (done := false) _ .before (hinit (before.flatten ++ after.flatten))
    rw [hx] at n1
    rw [hd] at n2
    simp only at n1 n2
    have t1 := n1.trk
    have t2 := n2.trk
    rw [hE, t2] at t1
    obtain ⟨_, _, hm⟩ := ha
    simp only [PState.trk] at t1
    revert hm t1
    cases s.st <;> simp <;> split <;> simp

theorem sendAll_outcome : ∀ (gs : List Str) (s : PState),
    (∃ s', (sendAll (.awaiting s) gs).2 = (.returned, .awaiting s')) ∨
    (sendAll (.awaiting s) gs).2.1 = .never ∨ ∃ er, (sendAll (.awaiting s) gs).2.1 = .raised er := by
  intro gs
  induction gs with
  | nil => intro s; exact .inl ⟨s, rfl⟩
  | cons g gs ih =>
    intro s
    by_cases hg : g = []
    · subst hg; simpa [sendAll, send] using ih s
    · have hsa := send_awaiting s hg false
      cases hx : exec false (s.app g) with
      | mk E o =>
        rw [hx] at hsa
        cases o with
        | paused s1 => simpa [sendAll, hsa] using ih s1
        | raised er => simp [sendAll, hsa]
        | running s1 => simp [sendAll, hsa]

/-- C02, continued: what happens when a fragment boundary does lie inside a quoted attribute value.
The text of a document is fed in fragments; `before` are the fragments up to the first boundary
inside a value, `after` the others, cut anyhow.  Then nothing more is delivered: the events are those
of the text before that boundary in one piece, which are a proper prefix of the document's events (so
no start event with a wrong name, attribute or value is ever delivered), and the calls return or one
of them raises. -/
theorem C02_cut_in_a_value {e : Node} {before after : List Str}
    (h : IsDoc e (before ++ after).flatten)
    (hout : ∀ k, k < before.length → endsInValue (before.take k).flatten = false)
    (hin : endsInValue before.flatten = true) :
    (sendAll newParser (before ++ after)).1 = (send newParser before.flatten false).1 ∧
    (sendAll newParser (before ++ after)).1 <+: e.events [] ∧
    (sendAll newParser (before ++ after)).1 ≠ e.events [] ∧
    ((sendAll newParser (before ++ after)).2.1 = .returned ∨
      ∃ er, (sendAll newParser (before ++ after)).2.1 = .raised er) := by
  obtain ⟨E, s, p, hs, h1, h2, h3, hp, ha⟩ := cut_state h hout hin
  have happ : ∀ (fs : List Str) {q : Session} {E s}, sendAll q fs = (E, .returned, .awaiting s) →
      ∀ gs, sendAll q (fs ++ gs) = (E ++ (sendAll (.awaiting s) gs).1, (sendAll (.awaiting s) gs).2) := by
    intro fs
    induction fs with
    | nil => intro q E s h gs; simp [sendAll] at h; obtain ⟨rfl, rfl⟩ := h; simp
    | cons f fs ih =>
      intro q E s h gs
      simp only [sendAll, List.cons_append] at h ⊢
      split at h
      · rename_i hr
        simp only [hr, if_true]
        cases hx : sendAll (send q f false).2.2 fs with
        | mk E' x =>
          rw [hx] at h
          simp only [Prod.mk.injEq] at h
          obtain ⟨rfl, rfl⟩ := h
          rw [ih hx gs]
          simp
      · rename_i hr
        rw [h] at hr
        exact absurd rfl hr
  have hok : (s.rest ++ after.flatten).foldl Lay.next (p.foldl Lay.next .text) ≠ .bad := by
    have := lay_doc h
    rw [List.flatten_append, hp, List.append_assoc, List.foldl_append] at this
    rw [this]; simp
  have hnil := sendAll_astray after ha hok
  have hall := happ before hs after
  rw [hnil, List.append_nil] at hall
  rw [hall]
  refine ⟨h1.symm, h2, h3, ?_⟩
  have hnever : (sendAll newParser (before ++ after)).2.1 ≠ .never := by
    intro hn
    obtain ⟨w, c, r, hfl, hsp, hns, hlt⟩ := (C05_nonfinal_never_returns_iff _).1 hn
    obtain ⟨hte, w0, w1, w2, hw0, hw2, hc, hw⟩ := h
    have hw1 : ∃ r1, w1 = '<' :: r1 := by
      cases hc with
      | text => simp [Node.isText] at hte
      | elem => exact ⟨_, rfl⟩
    obtain ⟨r1, rfl⟩ := hw1
    rw [hfl] at hw
    have key : ∀ (w w0 : Str), Space w → Space w0 → w ++ c :: r = w0 ++ '<' :: (r1 ++ w2) → c = '<' := by
      intro w
      induction w with
      | nil =>
        intro w0 _ h0 e
        cases w0 with
        | nil => simp at e; exact e.1
        | cons a w0 =>
          simp at e
          exact absurd (by intro x hx; simp at hx; subst hx; rw [e.1]; exact h0 a (by simp)) hns
      | cons a w ih =>
        intro w0 hw h0 e
        cases w0 with
        | nil =>
          simp at e
          have := hw a (by simp)
          rw [e.1] at this
          exact absurd this (by decide)
        | cons b w0 =>
          simp at e
          exact ih w0 (fun x hx => hw x (by simp [hx])) (fun x hx => h0 x (by simp [hx])) (by simp [e.2])
    exact hlt (key w w0 hsp hw0 (by simpa using hw))
  rw [hall] at hnever
  rcases sendAll_outcome after s with ⟨_, h⟩ | h | h
  · exact .inl (by rw [h])
  · exact absurd h hnever
  · exact .inr h

/-- A document cut inside the second attribute of its second element and again later. -/
def exCut : Node := .elem ['a'] [] [.elem ['b'] [(['x'], ['1']), (['y'], "k=2".toList)] []]

/-- The hypotheses of `C02_cut_in_a_value` hold of it. -/
example : IsDoc exCut (["<a><b x='1' y=\"k".toList] ++ ["=2\"></".toList, "b></a>".toList]).flatten ∧
    (∀ k, k < ["<a><b x='1' y=\"k".toList].length →
      endsInValue (["<a><b x='1' y=\"k".toList].take k).flatten = false) ∧
    endsInValue (["<a><b x='1' y=\"k".toList]).flatten = true := by
  refine ⟨⟨rfl, [], "<a><b x='1' y=\"k=2\"></b></a>".toList, [], by decide, by decide, ?_, by decide⟩,
    by decide, by decide⟩
  have h4 : IsAttrs [(['x'], ['1']), (['y'], "k=2".toList)] " x='1' y=\"k=2\"".toList :=
    .cons (w1 := [' ']) (w2 := []) (q := '\'') (raw := ['1']) (by decide) (by decide) (by decide)
      (by decide) (by decide) (.lit (by decide) .nil)
      (.cons (w1 := [' ']) (w2 := []) (q := '"') (raw := "k=2".toList) (by decide) (by decide) (by decide)
        (by decide) (by decide) (.lit (by decide) (.lit (by decide) (.lit (by decide) .nil))) .nil)
  have h1 : IsContent [.elem ['b'] (dictOf [(['x'], ['1']), (['y'], "k=2".toList)]) []]
      "<b x='1' y=\"k=2\"></b>".toList :=
    .elem (n := ['b']) (cs := []) (wc := []) (ns := []) (w := []) (w0 := [])
      (w1 := []) (w2 := []) (w3 := []) (w4 := []) (by decide) h4 .nil .nil (by decide) (by decide)
      (by decide) (by decide) (by decide)
  have h2 := IsContent.elem (n := ['a']) (kvs := []) (wa := []) (ns := []) (w := []) (w0 := [])
      (w1 := []) (w2 := []) (w3 := []) (w4 := []) (by decide) .nil h1 .nil (by decide) (by decide)
      (by decide) (by decide) (by decide)
  exact h2

/-- C02, continued: the loss can be silent.  `parsefrags` yields a `None` and no event for
`<a x="k="></a>` cut before the second '='. -/
theorem C02_cut_in_a_value_can_be_silent :
    IsDoc (.elem ['a'] [(['x'], "k=".toList)] []) (["<a x=\"k".toList, "=\"></a>".toList]).flatten ∧
    parsefragsIter ["<a x=\"k".toList, "=\"></a>".toList] = .items [none] := by
  refine ⟨⟨rfl, [], "<a x=\"k=\"></a>".toList, [], by decide, by decide, ?_, by decide⟩,
    by decide +kernel⟩
  have h4 : IsAttrs [(['x'], "k=".toList)] " x=\"k=\"".toList :=
    .cons (w1 := [' ']) (w2 := []) (q := '"') (raw := "k=".toList) (by decide) (by decide) (by decide)
      (by decide) (by decide) (.lit (by decide) (.lit (by decide) .nil)) .nil
  exact IsContent.elem (n := ['a']) (cs := []) (wc := []) (ns := []) (w := []) (w0 := [])
      (w1 := []) (w2 := []) (w3 := []) (w4 := []) (by decide) h4 .nil .nil (by decide) (by decide)
      (by decide) (by decide) (by decide)

/-- C02, continued: `parsefrags` never yields the events of a document cut inside a value. -/
theorem C02_parsefrags_cut_in_a_value {e : Node} {before after : List Str}
    (h : IsDoc e (before ++ after).flatten)
    (hout : ∀ k, k < before.length → endsInValue (before.take k).flatten = false)
    (hin : endsInValue before.flatten = true) :
    parsefragsIter (before ++ after) = .items (none :: (send newParser before.flatten false).1.map some) ∨
    ∃ er, parsefragsIter (before ++ after) = .raised er := by
  obtain ⟨h1, h2, h3, h4⟩ := C02_cut_in_a_value h hout hin
  rcases h4 with h4 | ⟨er, h4⟩
  · left
    rcases sendAll_outcome (before ++ after) PState.init with ⟨s', hs⟩ | hs | ⟨er, hs⟩
    · have hs : (sendAll newParser (before ++ after)).2 = (.returned, .awaiting s') := hs
      have hd : send (.awaiting s') [] true = ([], .returned, .finished) := by simp [send]
      simp only [parsefragsIter, hs, hd, List.append_nil]
      rw [h1]
    · have hs : (sendAll newParser (before ++ after)).2.1 = .never := hs
      rw [h4] at hs; cases hs
    · have hs : (sendAll newParser (before ++ after)).2.1 = .raised er := hs
      rw [h4] at hs; cases hs
  · right; exact ⟨_, by simp [parsefragsIter, h4]; rfl⟩

end Amara
