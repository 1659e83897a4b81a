import Verif.Model.XSender
import Verif.Spec.Tree
import Verif.Spec.Expat
import Verif.Spec.TreeIter
import Verif.Lemmas.Encode
/-
Facts about pieces of documents and about text in chunks, for C137.
-/
namespace Amara

/-! ### The normal form of children, one child added -/

theorem normList_consText (s : Str) (l b : List Node) :
    Node.normList (consText s l ++ b) = consText s (Node.normList (l ++ b)) := by
  by_cases hs : s = []
  · subst hs; simp [consText]
  · cases l with
    | nil => simp [consText, hs, Node.normList]
    | cons x r =>
      cases x with
      | elem n as cs => simp [consText, hs, Node.normList]
      | text t =>
        rw [show consText s (.text t :: r) = .text (s ++ t) :: r by simp [consText, hs]]
        simp only [List.cons_append, Node.normList]
        rw [consText_append]

theorem norm_again : (∀ x : Node, x.norm.norm = x.norm) ∧
    (∀ cs b : List Node, Node.normList (Node.normList cs ++ b) = Node.normList (cs ++ b)) := by
  apply Node.induct
  · intro n as cs ih
    simp only [Node.norm]
    have := ih []
    simp only [List.append_nil] at this
    rw [this]
  · intro s; rfl
  · intro b; rfl
  · intro x cs ih1 ih2 b
    cases x with
    | text s =>
      simp only [Node.normList, List.cons_append]
      rw [normList_consText, ih2]
    | elem n as ds =>
      simp only [Node.norm, Node.elem.injEq, true_and] at ih1
      simp only [Node.normList, List.cons_append, Node.norm, ih2, ih1]

theorem normList_add_text {cs ds : List Node} (h : Node.normList cs = Node.normList ds) (b : List Node) :
    Node.normList (cs ++ b) = Node.normList (ds ++ b) := by
  rw [← norm_again.2 cs, ← norm_again.2 ds, h]

theorem normList_last {n : Str} {as : Attrs} {cs ds : List Node} (h : Node.normList cs = Node.normList ds) (l : List Node) :
    Node.normList (l ++ [.elem n as cs]) = Node.normList (l ++ [.elem n as ds]) := by
  induction l with
  | nil => simp [Node.normList, Node.norm, h]
  | cons x l ih => cases x <;> simp [Node.normList, ih]

/-! ### Senders that differ in how text is chunked -/

/-- An open element with its children in normal form. -/
def OpenElem.norm (o : OpenElem) : OpenElem := (o.1, o.2.1, Node.normList o.2.2)

def Building.norm (b : Building) : Building := { b with open_ := b.open_.map OpenElem.norm }

def Sender.norm (s : Sender) : Sender := ⟨s.stack, s.pats.map fun p => (p.1, p.2.norm)⟩

def SOut.norm : SOut → SOut
  | .send ix x => .send ix x.norm
  | .stray ix f => .stray ix f

theorem addChild_norm {x y : Node} (hx : ∀ cs ds : List Node, Node.normList cs = Node.normList ds →
      Node.normList (cs ++ [x]) = Node.normList (ds ++ [y])) {a b : List OpenElem}
    (h : a.map OpenElem.norm = b.map OpenElem.norm) :
    (addChild x a).map OpenElem.norm = (addChild y b).map OpenElem.norm := by
  cases a with
  | nil => cases b with
    | nil => rfl
    | cons _ _ => cases h
  | cons p a => cases b with
    | nil => cases h
    | cons q b =>
      obtain ⟨n, as, cs⟩ := p
      obtain ⟨m, bs, ds⟩ := q
      simp only [List.map_cons, List.cons.injEq, OpenElem.norm, Prod.mk.injEq] at h
      obtain ⟨⟨rfl, rfl, h1⟩, h2⟩ := h
      simp only [addChild, List.map_cons, OpenElem.norm, h2, hx _ _ h1]

theorem handleOne_norm (st : List (Stage Event)) (ix : Nat) (stack : List Event) {b b' : Building}
    (h : b.norm = b'.norm) (ev : Event) :
    (handleOne st ix none stack b ev).1.map SOut.norm = (handleOne st ix none stack b' ev).1.map SOut.norm ∧
    (handleOne st ix none stack b ev).2.map (fun r => (r.1, r.2.norm)) =
      (handleOne st ix none stack b' ev).2.map (fun r => (r.1, r.2.norm)) := by
  obtain ⟨d, op, base⟩ := b
  obtain ⟨d', op', base'⟩ := b'
  simp only [Building.norm, Building.mk.injEq] at h
  obtain ⟨rfl, h1, rfl⟩ := h
  cases ev with
  | start n as anc =>
    simp only [handleOne]
    by_cases hd : d > 0
    · simp [hd, Building.push, Building.norm, h1]
    · simp only [hd, if_false]
      cases matchState st (stack ++ [Event.start n as anc]) with
      | none => simp
      | some t => cases t <;> simp [Building.push, Building.norm, h1]
  | chars s =>
    simp only [handleOne]
    by_cases hd : d > 0
    · simp only [hd, if_true, List.map_nil, Option.map_some, Building.norm, true_and]
      rw [addChild_norm (x := .text s) (y := .text s) (fun _ _ e => normList_add_text e _) h1]
    · simp [hd, Building.norm, h1]
  | stop n anc =>
    simp only [handleOne]
    by_cases hs : stack = []
    · simp [hs]
    · simp only [hs, if_false]
      cases d with
      | zero => simp [Building.norm, h1]
      | succ d =>
        cases op with
        | nil => cases op' with
          | nil => simp [Building.norm]
          | cons _ _ => cases h1
        | cons p op => cases op' with
          | nil => cases h1
          | cons q op' =>
            obtain ⟨n1, as, cs⟩ := p
            obtain ⟨m1, bs, ds⟩ := q
            simp only [List.map_cons, List.cons.injEq, OpenElem.norm, Prod.mk.injEq] at h1
            obtain ⟨⟨rfl, rfl, h2⟩, h3⟩ := h1
            by_cases hd : d = 0
            · simp only [hd, if_true, List.map_cons, List.map_nil, SOut.norm, Node.norm, h2, Option.map_some, Building.norm]
              exact ⟨trivial, by rw [show op.map OpenElem.norm = op'.map OpenElem.norm from h3]⟩
            · simp only [hd, if_false, List.map_nil, Option.map_some, Building.norm, true_and]
              rw [addChild_norm (x := .elem n1 as cs) (y := .elem n1 as ds) ?_ h3]
              intro c1 c2 e
              rw [normList_add_text e, normList_last h2]

/-- The patterns of two senders that differ in chunks of text. -/
abbrev patsNorm (ps : List (List (Stage Event) × Building)) : List (List (Stage Event) × Building) :=
  ps.map fun p => (p.1, p.2.norm)

theorem handlePats_norm (ev : Event) : ∀ (ps qs : List (List (Stage Event) × Building)) (ix : Nat) (stack : List Event),
    patsNorm ps = patsNorm qs →
    (handlePats (fun _ => none) ev ix stack ps).1.map SOut.norm = (handlePats (fun _ => none) ev ix stack qs).1.map SOut.norm ∧
    (handlePats (fun _ => none) ev ix stack ps).2.map (fun r => (r.1, patsNorm r.2)) =
      (handlePats (fun _ => none) ev ix stack qs).2.map (fun r => (r.1, patsNorm r.2)) := by
  intro ps
  induction ps with
  | nil =>
    intro qs ix stack h
    cases qs with
    | nil => exact ⟨rfl, rfl⟩
    | cons _ _ => cases h
  | cons p ps ih =>
    intro qs ix stack h
    cases qs with
    | nil => cases h
    | cons q qs =>
      obtain ⟨st, b⟩ := p
      obtain ⟨st', b'⟩ := q
      simp only [patsNorm, List.map_cons, List.cons.injEq, Prod.mk.injEq] at h
      obtain ⟨⟨rfl, hb⟩, hr⟩ := h
      obtain ⟨h1, h2⟩ := handleOne_norm st ix stack hb ev
      simp only [handlePats]
      generalize handleOne st ix none stack b ev = x at h1 h2
      generalize handleOne st ix none stack b' ev = y at h1 h2
      obtain ⟨o, r⟩ := x
      obtain ⟨o', r'⟩ := y
      cases r with
      | none =>
        cases r' with
        | none => exact ⟨h1, rfl⟩
        | some _ => cases h2
      | some r =>
        cases r' with
        | none => cases h2
        | some r' =>
          obtain ⟨sk, c⟩ := r
          obtain ⟨sk', c'⟩ := r'
          simp only [Option.map_some, Option.some.injEq, Prod.mk.injEq] at h2
          obtain ⟨rfl, hc⟩ := h2
          obtain ⟨g1, g2⟩ := ih qs (ix + 1) sk hr
          simp only
          generalize handlePats (fun _ => none) ev (ix + 1) sk ps = x at g1 g2
          generalize handlePats (fun _ => none) ev (ix + 1) sk qs = y at g1 g2
          obtain ⟨u, r⟩ := x
          obtain ⟨u', r'⟩ := y
          simp only at h1 g1
          cases r with
          | none =>
            cases r' with
            | none => exact ⟨by simp [h1, g1], rfl⟩
            | some _ => cases g2
          | some r =>
            cases r' with
            | none => cases g2
            | some r' =>
              simp only [Option.map_some, Option.some.injEq, Prod.mk.injEq] at g2
              refine ⟨by simp [h1, g1], ?_⟩
              simp only [Option.map_some, patsNorm, List.map_cons, hc, g2.1]
              rw [show List.map _ r.2 = List.map _ r'.2 from g2.2]

/-- Two runs that cannot be told apart but for chunks of text. -/
def SameRun (a b : List (List SOut) × Option Sender) : Prop :=
  a.1.flatten.map SOut.norm = b.1.flatten.map SOut.norm ∧ a.2.map Sender.norm = b.2.map Sender.norm

theorem SameRun.trans {a b c} (h : SameRun a b) (g : SameRun b c) : SameRun a c := ⟨h.1.trans g.1, h.2.trans g.2⟩
theorem SameRun.symm {a b} (h : SameRun a b) : SameRun b a := ⟨h.1.symm, h.2.symm⟩

theorem handle_norm {s s' : Sender} (h : s.norm = s'.norm) (ev : Event) :
    (s.handle (fun _ => none) ev).1.map SOut.norm = (s'.handle (fun _ => none) ev).1.map SOut.norm ∧
    (s.handle (fun _ => none) ev).2.map Sender.norm = (s'.handle (fun _ => none) ev).2.map Sender.norm := by
  obtain ⟨stack, pats⟩ := s
  obtain ⟨stack', pats'⟩ := s'
  simp only [Sender.norm, Sender.mk.injEq] at h
  obtain ⟨rfl, hp⟩ := h
  obtain ⟨h1, h2⟩ := handlePats_norm ev pats pats' 0 stack hp
  simp only [Sender.handle]
  generalize handlePats (fun _ => none) ev 0 stack pats = x at h1 h2
  generalize handlePats (fun _ => none) ev 0 stack pats' = y at h1 h2
  obtain ⟨o, r⟩ := x
  obtain ⟨o', r'⟩ := y
  cases r with
  | none => cases r' with
    | none => exact ⟨h1, rfl⟩
    | some _ => cases h2
  | some r => cases r' with
    | none => cases h2
    | some r' =>
      simp only [Option.map_some, Option.some.injEq, Prod.mk.injEq] at h2
      refine ⟨h1, ?_⟩
      simp only [Option.map_some, Sender.norm, h2.1]
      rw [show List.map _ r.2 = List.map _ r'.2 from h2.2]

theorem run_norm (evs : List Event) : ∀ {s s' : Sender}, s.norm = s'.norm → SameRun (s.run (quiet evs)) (s'.run (quiet evs)) := by
  induction evs with
  | nil => intro s s' h; exact ⟨rfl, by simpa [quiet, Sender.run] using h⟩
  | cons ev evs ih =>
    intro s s' h
    obtain ⟨h1, h2⟩ := handle_norm h ev
    show SameRun (s.run ((ev, fun _ => none) :: quiet evs)) (s'.run ((ev, fun _ => none) :: quiet evs))
    rw [Sender.run, Sender.run]
    generalize s.handle (fun _ => none) ev = x at h1 h2
    generalize s'.handle (fun _ => none) ev = y at h1 h2
    obtain ⟨o, r⟩ := x
    obtain ⟨o', r'⟩ := y
    cases r with
    | none => cases r' with
      | none => exact ⟨by simpa using h1, rfl⟩
      | some _ => cases h2
    | some r => cases r' with
      | none => cases h2
      | some r' =>
        simp only [Option.map_some, Option.some.injEq] at h2
        obtain ⟨g1, g2⟩ := ih h2
        exact ⟨by simp only [List.flatten_cons, List.map_append, h1, g1], g2⟩

/-! ### Text in chunks -/

/-- The sender after a text. -/
def Sender.addText (s : Sender) (t : Str) : Sender :=
  ⟨s.stack, s.pats.map fun p => (p.1, if p.2.depth > 0 then { p.2 with open_ := addChild (.text t) p.2.open_ } else p.2)⟩

theorem handlePats_chars (t : Str) : ∀ (ps : List (List (Stage Event) × Building)) (ix : Nat) (stack : List Event),
    handlePats (fun _ => none) (.chars t) ix stack ps = ([], some (stack, ps.map fun p =>
      (p.1, if p.2.depth > 0 then { p.2 with open_ := addChild (.text t) p.2.open_ } else p.2))) := by
  intro ps
  induction ps with
  | nil => intro ix stack; rfl
  | cons p ps ih =>
    intro ix stack
    obtain ⟨st, b⟩ := p
    by_cases hd : b.depth > 0 <;> simp [handlePats, handleOne, hd, ih]

theorem run_chars (s : Sender) (t : Str) (evs : List Event) :
    s.run (quiet (.chars t :: evs)) = ([] :: ((s.addText t).run (quiet evs)).1, ((s.addText t).run (quiet evs)).2) := by
  show s.run ((Event.chars t, fun _ => none) :: quiet evs) = _
  rw [Sender.run, Sender.handle, handlePats_chars]
  rfl

theorem addText_run (s : Sender) (t : Str) (evs : List Event) :
    SameRun (s.run (quiet (.chars t :: evs))) ((s.addText t).run (quiet evs)) := by
  rw [run_chars]
  exact ⟨by simp, rfl⟩

theorem addText_norm (s : Sender) (f : List OpenElem → List OpenElem) (g : List OpenElem → List OpenElem)
    (h : ∀ o : List OpenElem, (f o).map OpenElem.norm = (g o).map OpenElem.norm) :
    (patsNorm (s.pats.map fun p => (p.1, if p.2.depth > 0 then { p.2 with open_ := f p.2.open_ } else p.2))) =
    (patsNorm (s.pats.map fun p => (p.1, if p.2.depth > 0 then { p.2 with open_ := g p.2.open_ } else p.2))) := by
  simp only [patsNorm, List.map_map]
  apply List.map_congr_left
  intro p _
  by_cases hd : p.2.depth > 0 <;> simp [hd, Building.norm, h]

theorem addText_nil (s : Sender) : (s.addText []).norm = s.norm := by
  have := addText_norm s (addChild (.text [])) id (by
    intro o
    cases o with
    | nil => rfl
    | cons p o =>
      obtain ⟨n, as, cs⟩ := p
      have : Node.normList (cs ++ [.text []]) = Node.normList cs := by
        induction cs with
        | nil => rfl
        | cons x cs ih => cases x <;> simp [Node.normList, ih]
      simp [addChild, OpenElem.norm, this])
  simp only [Sender.addText, Sender.norm, Sender.mk.injEq, true_and]
  rw [show List.map _ (List.map _ s.pats) = patsNorm _ from rfl, this]
  simp [patsNorm]

theorem addText_two (s : Sender) (t u : Str) : ((s.addText t).addText u).norm = (s.addText (t ++ u)).norm := by
  have h2 : (s.addText t).addText u = ⟨s.stack, s.pats.map fun p =>
      (p.1, if p.2.depth > 0 then { p.2 with open_ := (fun o => addChild (.text u) (addChild (.text t) o)) p.2.open_ } else p.2)⟩ := by
    simp only [Sender.addText, List.map_map, Sender.mk.injEq, true_and]
    apply List.map_congr_left
    intro p _
    by_cases hd : p.2.depth > 0 <;> simp [hd]
  rw [h2]
  simp only [Sender.norm, Sender.addText, Sender.mk.injEq, true_and]
  refine addText_norm s (fun o => addChild (.text u) (addChild (.text t) o)) (addChild (.text (t ++ u))) ?_
  intro o
  cases o with
  | nil => rfl
  | cons p o =>
    obtain ⟨n, as, cs⟩ := p
    have : Node.normList (cs ++ [.text t, .text u]) = Node.normList (cs ++ [.text (t ++ u)]) := by
      induction cs with
      | nil => simp [Node.normList, consText_append]
      | cons x cs ih => cases x <;> simp [Node.normList, ih]
    simp [addChild, OpenElem.norm, this]

theorem run_join (evs : List Event) : ∀ s : Sender, SameRun (s.run (quiet evs)) (s.run (quiet (joinChars evs))) := by
  induction evs with
  | nil => intro s; exact ⟨rfl, rfl⟩
  | cons ev evs ih =>
    intro s
    have other : (∀ t, ev ≠ .chars t) → joinChars (ev :: evs) = ev :: joinChars evs := by
      intro h
      cases ev with
      | chars t => exact absurd rfl (h t)
      | start _ _ _ => rfl
      | stop _ _ => rfl
    by_cases hc : ∃ t, ev = .chars t
    · obtain ⟨t, rfl⟩ := hc
      refine (addText_run s t evs).trans ?_
      by_cases ht : t = []
      · subst ht
        rw [show joinChars (.chars [] :: evs) = joinChars evs by simp [joinChars]]
        exact (ih _).trans (run_norm _ (addText_nil s))
      · refine (ih _).trans ?_
        have hj : (∃ u r, joinChars evs = .chars u :: r ∧ joinChars (.chars t :: evs) = .chars (t ++ u) :: r) ∨
            joinChars (.chars t :: evs) = .chars t :: joinChars evs := by
          rw [joinChars, if_neg ht]
          split
          · next u r h => exact .inl ⟨u, r, h, rfl⟩
          · exact .inr rfl
        rcases hj with ⟨u, r, h1, h2⟩ | h2
        · rw [h1, h2]
          refine (addText_run _ u r).trans ((run_norm r (addText_two s t u)).trans ?_)
          exact (addText_run s (t ++ u) r).symm
        · rw [h2]
          exact (addText_run s t _).symm
    · rw [other (fun t h => hc ⟨t, h⟩)]
      show SameRun (s.run ((ev, fun _ => none) :: quiet evs)) (s.run ((ev, fun _ => none) :: quiet (joinChars evs)))
      rw [Sender.run, Sender.run]
      generalize s.handle (fun _ => none) ev = x
      obtain ⟨o, r⟩ := x
      cases r with
      | none => exact ⟨rfl, rfl⟩
      | some r => exact ⟨by simp only [List.flatten_cons, List.map_append, (ih r).1], (ih r).2⟩

end Amara
