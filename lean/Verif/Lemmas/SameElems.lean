import Verif.Spec.SameElems
import Verif.Lemmas.XHeap
import Verif.Props.Bones
import Verif.Props.MicroxTests
/-
Lemmas for C171: queries of C166 in two documents with the same elements.
-/
namespace Amara

variable {F : Type}

/-! ### Corresponding elements -/

/-- The same elements, and the same texts in them if `v`. -/
structure Corr (v : Prop) (d d' : Node) : Prop where
  bones : d.bones = d'.bones
  left : d.isText = false
  right : d'.isText = false
  texts : v → SameTexts d d'

theorem Corr.symm {v : Prop} {d d' : Node} (h : Corr v d d') : Corr v d' d :=
  ⟨h.bones.symm, h.right, h.left, fun hv p p' m as cs m' as' cs' hp hp' he => (h.texts hv p' p m' as' cs' m as cs hp' hp he.symm).symm⟩

theorem SameElem.symm {d d' : Node} {p p' : Path} (h : SameElem d d' p p') : SameElem d' d p' p := ⟨h.2.1, h.1, h.2.2.symm⟩

theorem SameSpot.symm {d d' : Node} : ∀ {u u' : Spot}, SameSpot d d' u u' → SameSpot d' d u' u
  | .root, .root, _ => trivial
  | .at _, .at _, h => SameElem.symm h

section
variable {v : Prop} {d d' : Node}

theorem corr_elem (C : Corr v d d') {p p' : Path} (h : SameElem d d' p p') :
    ∃ m as cs cs', d.at? p = some (.elem m as cs) ∧ d'.at? p' = some (.elem m as cs') ∧
      (v → (Node.elem m as cs).texts.flatten = (Node.elem m as cs').texts.flatten) := by
  obtain ⟨⟨m, as, cs, hp⟩, ⟨m', as', cs', hp'⟩, he⟩ := h
  obtain ⟨rfl, rfl⟩ := same_elem C.bones hp hp' he
  exact ⟨m, as, cs, cs', hp, hp', fun hv => C.texts hv _ _ _ _ _ _ _ _ hp hp' he⟩

theorem corr_total (C : Corr v d d') {p : Path} (h : d.ElemAt p) : ∃ p', SameElem d d' p p' := by
  obtain ⟨m, as, cs, h⟩ := h
  obtain ⟨p', cs', h1, h2⟩ := corresponds C.bones C.right h
  exact ⟨p', ⟨_, _, _, h⟩, ⟨_, _, _, h1⟩, h2.symm⟩

theorem corr_fun {p p' q' : Path} (h : SameElem d d' p p') (h' : SameElem d d' p q') : p' = q' :=
  among_inj h.2.1 h'.2.1 (h.2.2.symm.trans h'.2.2)

theorem corr_inj {p q p' : Path} (h : SameElem d d' p p') (h' : SameElem d d' q p') : p = q :=
  among_inj h.1 h'.1 (h.2.2.trans h'.2.2.symm)

theorem corr_nil (C : Corr v d d') : SameElem d d' [] [] := by
  refine ⟨?_, ?_, rfl⟩
  · have := C.left
    cases hd : d with
    | text s => rw [hd] at this; cases this
    | elem n as cs => exact ⟨n, as, cs, rfl⟩
  · have := C.right
    cases hd : d' with
    | text s => rw [hd] at this; cases this
    | elem n as cs => exact ⟨n, as, cs, rfl⟩

theorem coreAxis_element (a : CoreAxis) : ElementAxis a.axis := by
  cases a <;> simp [CoreAxis.axis, ElementAxis]

theorem corr_axis (C : Corr v d d') (a : CoreAxis) {p p' q q' : Path} (h : SameElem d d' p p') (h' : SameElem d d' q q') :
    OnAxis a.axis p q ↔ OnAxis a.axis p' q' := by
  rw [← onAxis_among C.left (coreAxis_element a) h.1 h'.1, ← onAxis_among C.right (coreAxis_element a) h.2.1 h'.2.1, h.2.2, h'.2.2]

theorem corr_lt {p p' q q' : Path} (h : SameElem d d' p p') (h' : SameElem d d' q q') : docLt p q ↔ docLt p' q' := by
  rw [← among_lt_iff h.1 h'.1, ← among_lt_iff h.2.1 h'.2.1, h.2.2, h'.2.2]

theorem corr_before (a : Axis) {p p' q q' : Path} (h : SameElem d d' p p') (h' : SameElem d d' q q') : AxisBefore a p q ↔ AxisBefore a p' q' := by
  unfold AxisBefore
  split
  · exact corr_lt h' h
  · exact corr_lt h h'

theorem corr_named (C : Corr v d d') {p p' : Path} (h : SameElem d d' p p') (m : Str) : d.Named m p ↔ d'.Named m p' := by
  obtain ⟨k, as, cs, cs', h1, h2, _⟩ := corr_elem C h
  simp only [Node.Named, h1, h2, Option.some.injEq, Node.elem.injEq]
  constructor
  · rintro ⟨_, _, rfl, _⟩; exact ⟨_, _, rfl, rfl, rfl⟩
  · rintro ⟨_, _, rfl, _⟩; exact ⟨_, _, rfl, rfl, rfl⟩

theorem corr_attr (C : Corr v d d') : ∀ {u u' : Spot}, SameSpot d d' u u' → ∀ k x, d.AttrAt u k x ↔ d'.AttrAt u' k x
  | .root, .root, _, _, _ => Iff.rfl
  | .at p, .at p', h, k, x => by
    obtain ⟨m, as, cs, cs', h1, h2, _⟩ := corr_elem C h
    simp only [Node.AttrAt, h1, h2, Option.some.injEq, Node.elem.injEq]
    constructor
    · rintro ⟨_, _, _, ⟨rfl, rfl, _⟩, hm⟩; exact ⟨_, _, _, ⟨rfl, rfl, rfl⟩, hm⟩
    · rintro ⟨_, _, _, ⟨rfl, rfl, _⟩, hm⟩; exact ⟨_, _, _, ⟨rfl, rfl, rfl⟩, hm⟩

theorem corr_value (C : Corr v d d') (hv : v) : ∀ {u u' : Spot}, SameSpot d d' u u' → d.valueAt u = d'.valueAt u'
  | .root, .root, _ => rfl
  | .at p, .at p', h => by
    obtain ⟨m, as, cs, cs', h1, h2, h3⟩ := corr_elem C h
    simp only [Node.valueAt, h1, h2, h3 hv]

theorem corr_reach (C : Corr v d d') (a : CoreAxis) : ∀ {u u' : Spot}, SameSpot d d' u u' → ∀ {q q' : Path}, SameElem d d' q q' →
    (u.Reach a q ↔ u'.Reach a q')
  | .root, .root, _, q, q', h => by
    have key : q = [] ↔ q' = [] := by
      constructor
      · rintro rfl; exact (corr_fun (corr_nil C) h).symm
      · rintro rfl; exact corr_inj h (corr_nil C)
    cases a <;> simp [Spot.Reach, key]
  | .at _, .at _, h, q, q', h' => corr_axis C a h h'

theorem corr_place (C : Corr v d d') : ∀ {u : Spot}, d.Place u → ∃ u', SameSpot d d' u u' ∧ d'.Place u'
  | .root, _ => ⟨.root, trivial, trivial⟩
  | .at p, h => by
    obtain ⟨p', h'⟩ := corr_total C h
    exact ⟨.at p', h', h'.2.1⟩

theorem corr_nameAt (C : Corr v d d') : ∀ {u u' : Spot}, SameSpot d d' u u' → ∀ m, d.NameAt u m ↔ d'.NameAt u' m
  | .root, .root, _, _ => Iff.rfl
  | .at _, .at _, h, m => corr_named C h m

theorem corr_list (C : Corr v d d') : ∀ {qs : List Path}, (∀ q ∈ qs, d.ElemAt q) → ∃ qs', All2 (SameElem d d') qs qs'
  | [], _ => ⟨[], .nil⟩
  | q :: qs, h => by
    obtain ⟨q', h1⟩ := corr_total C (h q (by simp))
    obtain ⟨qs', h2⟩ := corr_list C (qs := qs) fun q hq => h q (by simp [hq])
    exact ⟨q' :: qs', .cons h1 h2⟩
end

theorem all2_mem_left {α β : Type} {R : α → β → Prop} {xs : List α} {ys : List β} (h : All2 R xs ys) : ∀ x ∈ xs, ∃ y ∈ ys, R x y := by
  induction h with
  | nil => simp
  | cons h _ ih =>
    intro x hx
    rcases List.mem_cons.1 hx with rfl | hx
    · exact ⟨_, by simp, h⟩
    · obtain ⟨y, h1, h2⟩ := ih x hx
      exact ⟨y, by simp [h1], h2⟩

theorem all2_mem_right {α β : Type} {R : α → β → Prop} {xs : List α} {ys : List β} (h : All2 R xs ys) : ∀ y ∈ ys, ∃ x ∈ xs, R x y := by
  induction h with
  | nil => simp
  | cons h _ ih =>
    intro x hx
    rcases List.mem_cons.1 hx with rfl | hx
    · exact ⟨_, by simp, h⟩
    · obtain ⟨y, h1, h2⟩ := ih x hx
      exact ⟨y, by simp [h1], h2⟩

theorem all2_pairwise {α β : Type} {R : α → β → Prop} {S : α → α → Prop} {S' : β → β → Prop} {xs : List α} {ys : List β} (h : All2 R xs ys)
    (hs : ∀ x y x' y', R x x' → R y y' → S x y → S' x' y') (hp : xs.Pairwise S) : ys.Pairwise S' := by
  induction h with
  | nil => exact .nil
  | cons h1 h2 ih =>
    rw [List.pairwise_cons] at hp ⊢
    refine ⟨fun y hy => ?_, ih hp.2⟩
    obtain ⟨x, hx, hr⟩ := all2_mem_right h2 y hy
    exact hs _ _ _ _ h1 hr (hp.1 x hx)

theorem all2_split {α β : Type} {R : α → β → Prop} : ∀ {xs₁ xs₂ : List α} {ys : List β}, All2 R (xs₁ ++ xs₂) ys →
    ∃ ys₁ ys₂, ys = ys₁ ++ ys₂ ∧ All2 R xs₁ ys₁ ∧ All2 R xs₂ ys₂
  | [], _, ys, h => ⟨[], ys, rfl, .nil, h⟩
  | x :: xs, _, _, .cons h h' => by
    obtain ⟨y1, y2, rfl, h1, h2⟩ := all2_split h'
    exact ⟨_ :: y1, y2, rfl, .cons h h1, h2⟩

theorem all2_perm {α β : Type} {R : α → β → Prop} {xs xs' : List α} (h : xs.Perm xs') : ∀ {ys : List β}, All2 R xs ys →
    ∃ ys', ys.Perm ys' ∧ All2 R xs' ys' := by
  induction h with
  | nil => intro ys h; exact ⟨ys, .refl _, h⟩
  | cons x _ ih =>
    rintro _ (_ | ⟨h1, h2⟩)
    obtain ⟨ys', h3, h4⟩ := ih h2
    exact ⟨_ :: ys', .cons _ h3, .cons h1 h4⟩
  | swap x y l =>
    rintro _ (_ | ⟨h1, _ | ⟨h2, h3⟩⟩)
    exact ⟨_, .swap _ _ _, .cons h2 (.cons h1 h3)⟩
  | trans _ _ ih1 ih2 =>
    intro ys h
    obtain ⟨ys', h1, h2⟩ := ih1 h
    obtain ⟨ys'', h3, h4⟩ := ih2 h2
    exact ⟨ys'', h1.trans h3, h4⟩

section
variable {v : Prop} {d d' : Node}

/-- Corresponding elements on an axis. -/
theorem corr_axisList (C : Corr v d d') (a : CoreAxis) {u u' : Spot} (hu : SameSpot d d' u u') {P P' : Path → Prop} (hP : ∀ q, P q → d.ElemAt q)
    (hP' : ∀ q, P' q → d'.ElemAt q) (hPP : ∀ q q', SameElem d d' q q' → (P q ↔ P' q')) {qs : List Path} (h : u.AxisList a P qs) :
    ∃ qs', All2 (SameElem d d') qs qs' ∧ u'.AxisList a P' qs' := by
  obtain ⟨h1, h2⟩ := h
  obtain ⟨qs', h3⟩ := corr_list C (qs := qs) fun q hq => hP q ((h2 q).1 hq).2
  refine ⟨qs', h3, all2_pairwise h3 (fun x y x' y' hx hy hs => (corr_before _ hx hy).1 hs) h1, fun q' => ⟨fun hq' => ?_, fun ⟨hr, hq'⟩ => ?_⟩⟩
  · obtain ⟨q, hq, hqq⟩ := all2_mem_right h3 q' hq'
    exact ⟨(corr_reach C a hu hqq).1 ((h2 q).1 hq).1, (hPP q q' hqq).1 ((h2 q).1 hq).2⟩
  · obtain ⟨q, hqq⟩ := corr_total C.symm (hP' q' hq')
    have hqq := hqq.symm
    obtain ⟨q'', hq'', h4⟩ := all2_mem_left h3 q ((h2 q).2 ⟨(corr_reach C a hu hqq).2 hr, (hPP q q' hqq).2 hq'⟩)
    rw [corr_fun hqq h4]
    exact hq''

theorem corr_spots {qs qs' : List Path} (h : All2 (SameElem d d') qs qs') : All2 (SameSpot d d') (qs.map .at) (qs'.map .at) :=
  all2_map h fun _ _ h => h

theorem corr_inTurn {α β : Type} {S : α → β → Prop} {G : Spot → List α → Prop} {G' : Spot → List β → Prop}
    (hG : ∀ u u', SameSpot d d' u u' → ∀ xs, G u xs → ∃ xs', All2 S xs xs' ∧ G' u' xs') : ∀ {ws ws' : List Spot}, All2 (SameSpot d d') ws ws' →
    ∀ {vs : List α}, InTurn G ws vs → ∃ vs', All2 S vs vs' ∧ InTurn G' ws' vs'
  | [], _, .nil, _, h => by
    cases (show _ = [] from h)
    exact ⟨[], .nil, rfl⟩
  | w :: ws, _, .cons (y := w') (ys := ws') hw hws, _, ⟨xs, ys, rfl, h1, h2⟩ => by
    obtain ⟨xs', h3, h4⟩ := hG w w' hw xs h1
    obtain ⟨ys', h5, h6⟩ := corr_inTurn hG hws h2
    exact ⟨xs' ++ ys', all2_append h3 h5, xs', ys', rfl, h4, h6⟩

theorem corr_onlyThose {P P' : Spot → Prop} (hP : ∀ u u', SameSpot d d' u u' → (P u ↔ P' u')) : ∀ {ws ws' : List Spot},
    All2 (SameSpot d d') ws ws' → ∀ {vs : List Spot}, OnlyThose P ws vs → ∃ vs', All2 (SameSpot d d') vs vs' ∧ OnlyThose P' ws' vs'
  | [], _, .nil, _, h => by
    cases (show _ = [] from h)
    exact ⟨[], .nil, rfl⟩
  | w :: ws, _, .cons (y := w') (ys := ws') hw hws, vs, h => by
    rcases h with ⟨h1, xs, rfl, h2⟩ | ⟨h1, h2⟩
    · obtain ⟨vs', h3, h4⟩ := corr_onlyThose hP hws h2
      exact ⟨w' :: vs', .cons hw h3, .inl ⟨(hP w w' hw).1 h1, vs', rfl, h4⟩⟩
    · obtain ⟨vs', h3, h4⟩ := corr_onlyThose hP hws h2
      exact ⟨vs', h3, .inr ⟨fun h => h1 ((hP w w' hw).2 h), h4⟩⟩

theorem corr_numberK {k : Nat} {ws ws' vs : List Spot} (h : All2 (SameSpot d d') ws ws') (hk : NumberK k ws vs) :
    ∃ vs', All2 (SameSpot d d') vs vs' ∧ NumberK k ws' vs' := by
  rcases hk with ⟨l, x, r, rfl, h1, rfl⟩ | ⟨h1, rfl⟩
  · obtain ⟨l', t, rfl, h2, h3⟩ := all2_split h
    cases h3 with
    | cons h4 h5 => exact ⟨[_], .cons h4 .nil, .inl ⟨l', _, _, rfl, by rw [← all2_length h2]; exact h1, rfl⟩⟩
  · exact ⟨[], .nil, .inr ⟨by rw [← all2_length h]; exact h1, rfl⟩⟩

theorem corr_up (C : Corr v d d') {q : Path} {i : Nat} {p' : Path} (h : SameElem d d' (q ++ [i]) p') : ∃ q' j, p' = q' ++ [j] ∧ SameElem d d' q q' := by
  obtain ⟨q', h1⟩ := corr_total C (elemAt_above C.left q [i] h.1)
  obtain ⟨j, h2⟩ := (corr_axis C .child h1 h).1 ⟨i, rfl⟩
  exact ⟨q', j, h2, h1⟩

theorem corr_top (C : Corr v d d') {p' : Path} (h : SameElem d d' [] p') : p' = [] := (corr_fun (corr_nil C) h).symm
end

section
variable {v : Prop} {d d' : Node}

theorem corr_all (C : Corr v d d') {es : List Path} (h1 : es.Pairwise docLt) (h2 : ∀ q, q ∈ es ↔ d.ElemAt q) :
    ∃ es', All2 (SameElem d d') es es' ∧ es'.Pairwise docLt ∧ ∀ q, q ∈ es' ↔ d'.ElemAt q := by
  obtain ⟨es', h3⟩ := corr_list C (qs := es) fun q hq => (h2 q).1 hq
  refine ⟨es', h3, all2_pairwise h3 (fun x y x' y' hx hy hs => (corr_lt hx hy).1 hs) h1, fun q' => ⟨fun hq' => ?_, fun hq' => ?_⟩⟩
  · obtain ⟨q, _, hqq⟩ := all2_mem_right h3 q' hq'
    exact hqq.2.1
  · obtain ⟨q, hqq⟩ := corr_total C.symm hq'
    obtain ⟨q'', hq'', h4⟩ := all2_mem_left h3 q ((h2 q).2 hqq.2.1)
    rw [corr_fun hqq.symm h4]
    exact hq''

theorem corr_deep (C : Corr v d d') (m : Str) (u u' : Spot) (hu : SameSpot d d' u u') (xs : List Spot)
    (h : ∃ qs : List Path, xs = qs.map .at ∧ u.AxisList .descendantOrSelf (d.Named m) qs) :
    ∃ xs', All2 (SameSpot d d') xs xs' ∧ ∃ qs : List Path, xs' = qs.map .at ∧ u'.AxisList .descendantOrSelf (d'.Named m) qs := by
  obtain ⟨qs, rfl, h⟩ := h
  obtain ⟨qs', h1, h2⟩ := corr_axisList C .descendantOrSelf hu (P' := d'.Named m) (fun q h => h.elemAt) (fun q h => h.elemAt)
    (fun q q' hq => corr_named C hq m) h
  exact ⟨qs'.map .at, corr_spots h1, qs', rfl, h2⟩
end

mutual
  theorem corr_leads : ∀ (p : CorePath) {v : Prop} {d d' : Node}, Corr v d d' → p.Within v → ∀ {u u' w : Spot}, SameSpot d d' u u' → p.Leads d u w →
      ∃ w', SameSpot d d' w w' ∧ p.Leads d' u' w'
    | .here, v, d, d', C, _, u, u', w, hu, h => by
      cases (show w = u from h)
      exact ⟨u', hu, rfl⟩
    | .up, v, d, d', C, _, .root, .root, w, hu, h => by
      cases (show w = .root from h)
      exact ⟨.root, trivial, rfl⟩
    | .up, v, d, d', C, _, .at p, .at p', w, hu, h => by
      rcases h with ⟨rfl, rfl⟩ | ⟨q, i, rfl, rfl⟩
      · cases corr_top C hu
        exact ⟨.root, trivial, .inl ⟨rfl, rfl⟩⟩
      · obtain ⟨q', j, rfl, h1⟩ := corr_up C hu
        exact ⟨.at q', h1, .inr ⟨q', j, rfl, rfl⟩⟩
    | .step a m, v, d, d', C, _, u, u', w, hu, h => by
      obtain ⟨q, rfl, h1, h2⟩ := h
      obtain ⟨q', hq⟩ := corr_total C h2.elemAt
      exact ⟨.at q', hq, q', rfl, (corr_reach C a hu hq).1 h1, (corr_named C hq m).1 h2⟩
    | .children, v, d, d', C, _, u, u', w, hu, h => by
      obtain ⟨q, rfl, h1, h2⟩ := h
      obtain ⟨q', hq⟩ := corr_total C h2
      exact ⟨.at q', hq, q', rfl, (corr_reach C .child hu hq).1 h1, hq.2.1⟩
    | .nth a m k, v, d, d', C, _, u, u', w, hu, h => by
      obtain ⟨q, rfl, h1, h2, ws, h3, h4, h5⟩ := h
      obtain ⟨q', hq⟩ := corr_total C h2.elemAt
      obtain ⟨ws', hw⟩ := corr_list C (qs := ws) fun x hx => ((h5 x).1 hx).2.1.elemAt
      refine ⟨.at q', hq, q', rfl, (corr_reach C a hu hq).1 h1, (corr_named C hq m).1 h2, ws', ?_, by rw [← all2_length hw]; exact h4, fun x' => ⟨fun hx' => ?_, ?_⟩⟩
      · exact all2_pairwise hw (fun x y x' y' hx hy hs he => hs (corr_inj hx (he ▸ hy))) h3
      · obtain ⟨x, hx, hxx⟩ := all2_mem_right hw x' hx'
        obtain ⟨i1, i2, i3⟩ := (h5 x).1 hx
        exact ⟨(corr_reach C a hu hxx).1 i1, (corr_named C hxx m).1 i2, (corr_before _ hxx hq).1 i3⟩
      · rintro ⟨i1, i2, i3⟩
        obtain ⟨x, hxx⟩ := corr_total C.symm i2.elemAt
        have hxx := hxx.symm
        obtain ⟨y, hy, hyy⟩ := all2_mem_left hw x ((h5 x).2 ⟨(corr_reach C a hu hxx).2 i1, (corr_named C hxx m).2 i2, (corr_before _ hxx hq).2 i3⟩)
        rw [corr_fun hxx hyy]
        exact hy
    | .abs p, v, d, d', C, hw, u, u', w, _, h => corr_leads p C (by rwa [CorePath.Within] at hw) (u := .root) (u' := .root) trivial h
    | .anywhere p, v, d, d', C, hw, u, u', w, _, ⟨x, hx, h⟩ => by
      obtain ⟨x', h1, h2⟩ := corr_place C hx
      obtain ⟨w', h3, h4⟩ := corr_leads p C (by rwa [CorePath.Within] at hw) h1 h
      exact ⟨w', h3, x', h2, h4⟩
    | .seq p q, v, d, d', C, hw, u, u', w, hu, ⟨x, h1, h2⟩ => by
      rw [CorePath.Within] at hw
      obtain ⟨x', h3, h4⟩ := corr_leads p C hw.1 hu h1
      obtain ⟨w', h5, h6⟩ := corr_leads q C hw.2 h3 h2
      exact ⟨w', h5, x', h4, h6⟩
    | .deep p m, v, d, d', C, hw, u, u', w, hu, h => by
      obtain ⟨x, h1, q, rfl, h2, h3⟩ := h
      rw [CorePath.Within] at hw
      obtain ⟨x', h4, h5⟩ := corr_leads p C hw hu h1
      obtain ⟨q', hq⟩ := corr_total C h3.elemAt
      exact ⟨.at q', hq, x', h5, q', rfl, (corr_reach C _ h4 hq).1 h2, (corr_named C hq m).1 h3⟩
    | .filter p c, v, d, d', C, hw, u, u', w, hu, ⟨h1, h2⟩ => by
      rw [CorePath.Within] at hw
      obtain ⟨w', h3, h4⟩ := corr_leads p C hw.1 hu h1
      exact ⟨w', h3, h4, corr_holds c C hw.2 h3 h2⟩
    | .either p q, v, d, d', C, hw, u, u', w, hu, h => by
      rw [CorePath.Within] at hw
      rcases h with h | h
      · obtain ⟨w', h3, h4⟩ := corr_leads p C hw.1 hu h
        exact ⟨w', h3, .inl h4⟩
      · obtain ⟨w', h3, h4⟩ := corr_leads q C hw.2 hu h
        exact ⟨w', h3, .inr h4⟩
  theorem corr_holds : ∀ (c : CoreTest) {v : Prop} {d d' : Node}, Corr v d d' → c.Within v → ∀ {u u' : Spot}, SameSpot d d' u u' → c.Holds d u → c.Holds d' u'
    | .found p, v, d, d', C, hw, u, u', hu, ⟨w, h⟩ => by
      rw [CoreTest.Within] at hw
      obtain ⟨w', _, h'⟩ := corr_leads p C hw hu h
      exact ⟨w', h'⟩
    | .attr k, v, d, d', C, _, u, u', hu, ⟨x, h⟩ => ⟨x, (corr_attr C hu k x).1 h⟩
    | .foundAttr p k, v, d, d', C, hw, u, u', hu, ⟨w, h, x, hx⟩ => by
      rw [CoreTest.Within] at hw
      obtain ⟨w', h1, h2⟩ := corr_leads p C hw hu h
      exact ⟨w', h2, x, (corr_attr C h1 k x).1 hx⟩
    | .attrIs k x, v, d, d', C, _, u, u', hu, h => (corr_attr C hu k x).1 h
    | .valueIs s, v, d, d', C, hw, u, u', hu, h => (corr_value C hw hu).symm.trans h
    | .contains s, v, d, d', C, hw, u, u', hu, ⟨a, b, h⟩ => ⟨a, b, (corr_value C hw hu).symm.trans h⟩
    | .startsWith s, v, d, d', C, hw, u, u', hu, ⟨b, h⟩ => ⟨b, (corr_value C hw hu).symm.trans h⟩
    | .not c, v, d, d', C, hw, u, u', hu, h => fun h' => h (corr_holds c C.symm (by rwa [CoreTest.Within] at hw) hu.symm h')
    | .and c e, v, d, d', C, hw, u, u', hu, h => by
      rw [CoreTest.Within] at hw
      exact ⟨corr_holds c C hw.1 hu h.1, corr_holds e C hw.2 hu h.2⟩
    | .or c e, v, d, d', C, hw, u, u', hu, h => by
      rw [CoreTest.Within] at hw
      exact h.imp (corr_holds c C hw.1 hu) (corr_holds e C hw.2 hu)
    | .yes, _, _, _, _, _, _, _, _, h => h
    | .no, _, _, _, _, _, _, _, _, h => h
end

theorem corr_gives : ∀ (p : CorePath) {v : Prop} {d d' : Node}, Corr v d d' → p.Within v → ∀ {u u' : Spot}, SameSpot d d' u u' → ∀ {vs : List Spot},
    p.Gives d u vs → ∃ vs', All2 (SameSpot d d') vs vs' ∧ p.Gives d' u' vs'
  | .here, v, d, d', C, _, u, u', hu, vs, h => by
    cases (show vs = [u] from h)
    exact ⟨[u'], .cons hu .nil, rfl⟩
  | .up, v, d, d', C, _, .root, .root, hu, vs, h => by
    cases (show vs = [.root] from h)
    exact ⟨[.root], .cons trivial .nil, rfl⟩
  | .up, v, d, d', C, _, .at p, .at p', hu, vs, h => by
    rcases h with ⟨rfl, rfl⟩ | ⟨q, i, rfl, rfl⟩
    · cases corr_top C hu
      exact ⟨[.root], .cons trivial .nil, .inl ⟨rfl, rfl⟩⟩
    · obtain ⟨q', j, rfl, h1⟩ := corr_up C hu
      exact ⟨[.at q'], .cons h1 .nil, .inr ⟨q', j, rfl, rfl⟩⟩
  | .step a m, v, d, d', C, _, u, u', hu, vs, h => by
    obtain ⟨qs, rfl, h⟩ := h
    obtain ⟨qs', h1, h2⟩ := corr_axisList C a hu (P' := d'.Named m) (fun q h => h.elemAt) (fun q h => h.elemAt) (fun q q' hq => corr_named C hq m) h
    exact ⟨qs'.map .at, corr_spots h1, qs', rfl, h2⟩
  | .children, v, d, d', C, _, u, u', hu, vs, h => by
    obtain ⟨qs, rfl, h⟩ := h
    obtain ⟨qs', h1, h2⟩ := corr_axisList C .child hu (P' := d'.ElemAt) (fun q h => h) (fun q h => h) (fun q q' hq => ⟨fun _ => hq.2.1, fun _ => hq.1⟩) h
    exact ⟨qs'.map .at, corr_spots h1, qs', rfl, h2⟩
  | .nth a m k, v, d, d', C, _, u, u', hu, vs, ⟨qs, h, hk⟩ => by
    obtain ⟨qs', h1, h2⟩ := corr_axisList C a hu (P' := d'.Named m) (fun q h => h.elemAt) (fun q h => h.elemAt) (fun q q' hq => corr_named C hq m) h
    obtain ⟨vs', h3, h4⟩ := corr_numberK (corr_spots h1) hk
    exact ⟨vs', h3, qs', h2, h4⟩
  | .abs p, v, d, d', C, hw, u, u', _, vs, h => corr_gives p C (by rwa [CorePath.Within] at hw) (u := .root) (u' := .root) trivial h
  | .anywhere p, v, d, d', C, hw, u, u', _, vs, ⟨es, h1, h2, h3⟩ => by
    obtain ⟨es', h4, h5, h6⟩ : ∃ es', All2 (SameElem d d') es es' ∧ es'.Pairwise docLt ∧ ∀ q, q ∈ es' ↔ d'.ElemAt q := corr_all C h1 h2
    obtain ⟨vs', h7, h8⟩ := corr_inTurn (fun u u' hu xs hx => corr_gives p C (by rwa [CorePath.Within] at hw) hu hx)
      (.cons (x := .root) (y := .root) (show SameSpot d d' .root .root from trivial) (corr_spots h4)) h3
    exact ⟨vs', h7, es', h5, h6, h8⟩
  | .seq p q, v, d, d', C, hw, u, u', hu, vs, ⟨ws, h1, h2⟩ => by
    rw [CorePath.Within] at hw
    obtain ⟨ws', h3, h4⟩ := corr_gives p C hw.1 hu h1
    obtain ⟨vs', h5, h6⟩ := corr_inTurn (fun u u' hu xs hx => corr_gives q C hw.2 hu hx) h3 h2
    exact ⟨vs', h5, ws', h4, h6⟩
  | .deep p m, v, d, d', C, hw, u, u', hu, vs, ⟨ws, h1, h2⟩ => by
    rw [CorePath.Within] at hw
    obtain ⟨ws', h3, h4⟩ := corr_gives p C hw hu h1
    obtain ⟨vs', h5, h6⟩ := corr_inTurn (corr_deep C m) h3 h2
    exact ⟨vs', h5, ws', h4, h6⟩
  | .filter p c, v, d, d', C, hw, u, u', hu, vs, ⟨ws, h1, h2⟩ => by
    rw [CorePath.Within] at hw
    obtain ⟨ws', h3, h4⟩ := corr_gives p C hw.1 hu h1
    obtain ⟨vs', h5, h6⟩ := corr_onlyThose (fun u u' hu => ⟨corr_holds c C hw.2 hu, corr_holds c C.symm hw.2 hu.symm⟩) h3 h2
    exact ⟨vs', h5, ws', h4, h6⟩
  | .either p q, v, d, d', C, hw, u, u', hu, vs, ⟨xs, ys, h1, h2, h3, h4⟩ => by
    rw [CorePath.Within] at hw
    obtain ⟨xs', i1, i2⟩ := corr_gives p C hw.1 hu h1
    obtain ⟨ys', i3, i4⟩ := corr_gives q C hw.2 hu h2
    obtain ⟨vs', i5, i6⟩ := all2_perm h3.symm (all2_append i1 i3)
    refine ⟨vs', i6, xs', ys', i2, i4, i5.symm, all2_pairwise i6 ?_ h4⟩
    rintro (_ | x) (_ | y) (_ | x') (_ | y') hx hy hs p q hp hq
    all_goals first | exact hx.elim | exact hy.elim | cases hp | skip
    all_goals first | exact hx.elim | exact hy.elim | cases hq | skip
    exact fun hl => hs x y rfl rfl ((corr_lt hy hx).2 hl)

/-! ### Queries for nodes and attributes -/

theorem corr_end {v : Prop} {d d' : Node} (C : Corr v d d') {e : CoreEnd} (he : e.OfAttrs) (u u' : Spot) (hu : SameSpot d d' u u') (fs : List Found)
    (h : e.Gives d u fs) : ∃ fs', All2 (SameFound d d') fs fs' ∧ e.Gives d' u' fs' := by
  cases e with
  | texts => exact he.elim
  | nodes => exact he.elim
  | attr k =>
    rcases h with ⟨p, x, rfl, h1, rfl⟩ | ⟨h1, rfl⟩
    · cases u' with
      | root => exact hu.elim
      | «at» p' => exact ⟨[.attr p' k x], .cons ⟨hu, rfl, rfl⟩ .nil, .inl ⟨p', x, rfl, (corr_attr C hu k x).1 h1, rfl⟩⟩
    · exact ⟨[], .nil, .inr ⟨fun x hx => h1 x ((corr_attr C hu k x).2 hx), rfl⟩⟩
  | attrs =>
    cases u with
    | root =>
      cases u' with
      | root =>
        cases (show fs = [] from h)
        exact ⟨[], .nil, rfl⟩
      | «at» p' => exact hu.elim
    | «at» p =>
      cases u' with
      | root => exact hu.elim
      | «at» p' =>
        obtain ⟨m, as, cs, cs', h1, h2, h0⟩ := corr_elem C hu
        clear h0
        obtain ⟨m', as', cs'', h3, rfl⟩ := h
        rw [h1] at h3
        cases h3
        refine ⟨as.map fun kv => .attr p' kv.1 kv.2, ?_, m, as, cs', h2, rfl⟩
        clear h1 h2
        induction as with
        | nil => exact .nil
        | cons kv as ih => exact .cons ⟨hu, rfl, rfl⟩ ih

theorem corr_coreList : ∀ (l : CoreList) {v : Prop} {d d' : Node}, Corr v d d' → l.Within v → ∀ (u u' : Spot), SameSpot d d' u u' → ∀ (fs : List Found),
    l.Gives d u fs → ∃ fs', All2 (SameFound d d') fs fs' ∧ l.Gives d' u' fs'
  | .path p, v, d, d', C, hw, u, u', hu, fs, h => by
    obtain ⟨vs, h1, rfl⟩ := h
    obtain ⟨vs', h2, h3⟩ := corr_gives p C hw hu h1
    exact ⟨vs'.map .node, all2_map h2 fun _ _ h => h, vs', h3, rfl⟩
  | .last e, v, d, d', C, hw, u, u', hu, fs, h => corr_end C hw u u' hu fs h
  | .after p e, v, d, d', C, hw, u, u', hu, fs, h => by
    obtain ⟨vs, h1, h2⟩ := h
    obtain ⟨vs', h3, h4⟩ := corr_gives p C hw.1 hu h1
    obtain ⟨fs', h5, h6⟩ := corr_inTurn (corr_end C hw.2) h3 h2
    exact ⟨fs', h5, vs', h4, h6⟩
  | .allTexts p, v, d, d', C, hw, u, u', hu, fs, h => hw.elim
  | .abs l, v, d, d', C, hw, u, u', hu, fs, h => corr_coreList l C hw .root .root trivial fs h
  | .anywhere l, v, d, d', C, hw, u, u', hu, fs, h => by
    obtain ⟨es, ⟨h1, h2⟩, h3⟩ := h
    obtain ⟨es', h4, h5, h6⟩ := corr_all C h1 h2
    obtain ⟨fs', h7, h8⟩ := corr_inTurn (corr_coreList l C hw) (.cons (x := .root) (y := .root) (show SameSpot d d' .root .root from trivial) (corr_spots h4)) h3
    exact ⟨fs', h7, es', ⟨h5, h6⟩, h8⟩

/-- Attributes only. -/
def AllAttrs (fs : List Found) : Prop := ∀ f ∈ fs, ∃ p k x, f = .attr p k x

theorem allAttrs_inTurn {G : Spot → List Found → Prop} (hG : ∀ u fs, G u fs → AllAttrs fs) : ∀ {ws : List Spot} {fs : List Found}, InTurn G ws fs → AllAttrs fs
  | [], fs, h => by
    cases (show fs = [] from h)
    intro f hf
    cases hf
  | w :: ws, fs, ⟨xs, ys, e, h1, h2⟩ => by
    subst e
    intro f hf
    rcases List.mem_append.1 hf with hf | hf
    · exact hG w xs h1 f hf
    · exact allAttrs_inTurn hG h2 f hf

theorem end_allAttrs {d : Node} {e : CoreEnd} (he : e.OfAttrs) (u : Spot) (fs : List Found) (h : e.Gives d u fs) : AllAttrs fs := by
  cases e with
  | texts => exact he.elim
  | nodes => exact he.elim
  | attr k =>
    rcases h with ⟨p, x, _, _, rfl⟩ | ⟨_, rfl⟩
    · intro f hf
      cases List.mem_singleton.1 hf
      exact ⟨p, k, x, rfl⟩
    · intro f hf
      cases hf
  | attrs =>
    cases u with
    | root =>
      cases (show fs = [] from h)
      intro f hf
      cases hf
    | «at» p =>
      obtain ⟨m, as, cs, _, rfl⟩ := h
      intro f hf
      obtain ⟨kv, _, rfl⟩ := List.mem_map.1 hf
      exact ⟨_, _, _, rfl⟩

theorem coreList_allAttrs {d : Node} : ∀ (l : CoreList), l.OfAttrs → ∀ (u : Spot) (fs : List Found), l.Gives d u fs → AllAttrs fs
  | .path _, h, _, _, _ => h.elim
  | .allTexts _, h, _, _, _ => h.elim
  | .last _, h, u, fs, hg => end_allAttrs h u fs hg
  | .after _ _, h, _, _, ⟨_, _, hg⟩ => allAttrs_inTurn (end_allAttrs h) hg
  | .abs l, h, _, fs, hg => coreList_allAttrs l h .root fs hg
  | .anywhere l, h, _, _, ⟨_, _, hg⟩ => allAttrs_inTurn (coreList_allAttrs l h) hg

theorem testedList_allAttrs {d : Node} : ∀ (l : TestedList), l.OfAttrs → ∀ (u : Spot) (fs : List Found), l.Gives d u fs → AllAttrs fs
  | .path _, h, _, _, _ => h.elim
  | .core l, h, u, fs, hg => coreList_allAttrs l h u fs (by rwa [TestedList.Gives] at hg)
  | .seq p l, h, u, fs, hg => by
    rw [TestedList.Gives] at hg
    obtain ⟨vs, _, hg⟩ := hg
    exact allAttrs_inTurn (coreList_allAttrs l h) hg

theorem corr_valueOf {v : Prop} {d d' : Node} (C : Corr v d d') : ∀ {f f' : Found}, SameFound d d' f f' → (v ∨ ∃ p k x, f = .attr p k x) → d.valueOf f = d'.valueOf f'
  | .node u, .node u', h, hv => by
    rcases hv with hv | ⟨p, k, x, hf⟩
    · exact corr_value C hv h
    · cases hf
  | .attr p k x, .attr p' k' x', h, _ => h.2.2

theorem corr_argText {v : Prop} {d d' : Node} (C : Corr v d d') {l : TestedList} (hv : v ∨ l.OfAttrs) {u : Spot} {fs fs' : List Found} (hg : l.Gives d u fs)
    (h : All2 (SameFound d d') fs fs') : d.argText fs = d'.argText fs' ∧ d.firstValue fs = d'.firstValue fs' := by
  cases h with
  | nil => exact ⟨rfl, rfl⟩
  | cons h1 h2 =>
    have := corr_valueOf C h1 (hv.imp id fun ha => testedList_allAttrs l ha u _ hg _ (by simp))
    exact ⟨this, this⟩

mutual
  theorem corr_tested : ∀ (p : TestedPath) {v : Prop} {d d' : Node}, Corr v d d' → p.Within v → ∀ (u u' : Spot), SameSpot d d' u u' → ∀ (vs : List Spot),
      p.Gives d u vs → ∃ vs', All2 (SameSpot d d') vs vs' ∧ p.Gives d' u' vs'
    | .core p, v, d, d', C, hw, u, u', hu, vs, h => by
      simp only [TestedPath.Within, TestedPath.Gives] at hw h ⊢
      exact corr_gives p C hw hu h
    | .seq p q, v, d, d', C, hw, u, u', hu, vs, h => by
      simp only [TestedPath.Within, TestedPath.Gives] at hw h ⊢
      obtain ⟨ws, h1, h2⟩ := h
      obtain ⟨ws', h3, h4⟩ := corr_tested p C hw.1 u u' hu ws h1
      obtain ⟨vs', h5, h6⟩ := corr_inTurn (corr_tested q C hw.2) h3 h2
      exact ⟨vs', h5, ws', h4, h6⟩
    | .deep p m, v, d, d', C, hw, u, u', hu, vs, h => by
      simp only [TestedPath.Within, TestedPath.Gives] at hw h ⊢
      obtain ⟨ws, h1, h2⟩ := h
      obtain ⟨ws', h3, h4⟩ := corr_tested p C hw u u' hu ws h1
      obtain ⟨vs', h5, h6⟩ := corr_inTurn (corr_deep C m) h3 h2
      exact ⟨vs', h5, ws', h4, h6⟩
    | .filter p ts, v, d, d', C, hw, u, u', hu, vs, h => by
      simp only [TestedPath.Within, TestedPath.Gives] at hw h ⊢
      obtain ⟨ws, h1, h2⟩ := h
      obtain ⟨ws', h3, h4⟩ := corr_tested p C hw.1 u u' hu ws h1
      obtain ⟨vs', h5, h6⟩ := corr_onlyThose (fun u u' hu => ⟨corr_tests ts C hw.2 u u' hu, corr_tests ts C.symm hw.2 u' u hu.symm⟩) h3 h2
      exact ⟨vs', h5, ws', h4, h6⟩
    | .number p k, v, d, d', C, hw, u, u', hu, vs, h => by
      simp only [TestedPath.Within, TestedPath.Gives] at hw h ⊢
      obtain ⟨ws, h1, h2⟩ := h
      obtain ⟨ws', h3, h4⟩ := corr_tested p C hw u u' hu ws h1
      obtain ⟨vs', h5, h6⟩ := corr_numberK h3 h2
      exact ⟨vs', h5, ws', h4, h6⟩
    | .numberThen p k ts, v, d, d', C, hw, u, u', hu, vs, h => by
      simp only [TestedPath.Within, TestedPath.Gives] at hw h ⊢
      obtain ⟨ws, xs, h1, h2, h2'⟩ := h
      obtain ⟨ws', h3, h4⟩ := corr_tested p C hw.1 u u' hu ws h1
      obtain ⟨xs', h5, h6⟩ := corr_numberK h3 h2
      obtain ⟨vs', h7, h8⟩ := corr_onlyThose (fun u u' hu => ⟨corr_tests ts C hw.2 u u' hu, corr_tests ts C.symm hw.2 u' u hu.symm⟩) h5 h2'
      exact ⟨vs', h7, ws', xs', h4, h6, h8⟩
  theorem corr_testedList : ∀ (l : TestedList) {v : Prop} {d d' : Node}, Corr v d d' → l.Within v → ∀ (u u' : Spot), SameSpot d d' u u' → ∀ (fs : List Found),
      l.Gives d u fs → ∃ fs', All2 (SameFound d d') fs fs' ∧ l.Gives d' u' fs'
    | .path p, v, d, d', C, hw, u, u', hu, fs, h => by
      simp only [TestedList.Within, TestedList.Gives] at hw h ⊢
      obtain ⟨vs, h1, rfl⟩ := h
      obtain ⟨vs', h2, h3⟩ := corr_tested p C hw u u' hu vs h1
      exact ⟨vs'.map .node, all2_map h2 fun _ _ h => h, vs', h3, rfl⟩
    | .core l, v, d, d', C, hw, u, u', hu, fs, h => by
      simp only [TestedList.Within, TestedList.Gives] at hw h ⊢
      exact corr_coreList l C hw u u' hu fs h
    | .seq p l, v, d, d', C, hw, u, u', hu, fs, h => by
      simp only [TestedList.Within, TestedList.Gives] at hw h ⊢
      obtain ⟨vs, h1, h2⟩ := h
      obtain ⟨vs', h3, h4⟩ := corr_tested p C hw.1 u u' hu vs h1
      obtain ⟨fs', h5, h6⟩ := corr_inTurn (corr_coreList l C hw.2) h3 h2
      exact ⟨fs', h5, vs', h4, h6⟩
  theorem corr_tests : ∀ (ts : Tests) {v : Prop} {d d' : Node}, Corr v d d' → ts.Within v → ∀ (u u' : Spot), SameSpot d d' u u' → ts.Hold d u → ts.Hold d' u'
    | .one t, v, d, d', C, hw, u, u', hu, h => by
      simp only [Tests.Within, Tests.Hold] at hw h ⊢
      exact corr_test t C hw u u' hu h
    | .more t ts, v, d, d', C, hw, u, u', hu, h => by
      simp only [Tests.Within, Tests.Hold] at hw h ⊢
      exact ⟨corr_test t C hw.1 u u' hu h.1, corr_tests ts C hw.2 u u' hu h.2⟩
  theorem corr_test : ∀ (t : ValueTest) {v : Prop} {d d' : Node}, Corr v d d' → t.Within v → ∀ (u u' : Spot), SameSpot d d' u u' → t.Holds d u → t.Holds d' u'
    | .found l, v, d, d', C, hw, u, u', hu, h => by
      simp only [ValueTest.Within, ValueTest.Holds] at hw h ⊢
      obtain ⟨f, fs, h⟩ := h
      obtain ⟨_, h1, h2⟩ := corr_testedList l C hw u u' hu _ h
      cases h1 with
      | cons h3 h4 => exact ⟨_, _, h2⟩
    | .is l s, v, d, d', C, hw, u, u', hu, h => by
      simp only [ValueTest.Within, ValueTest.Holds] at hw h ⊢
      obtain ⟨f, fs, h, hs⟩ := h
      obtain ⟨_, h1, h2⟩ := corr_testedList l C hw.1 u u' hu _ h
      have h5 := (corr_argText C hw.2 h h1).1
      cases h1 with
      | cons h3 h4 => exact ⟨_, _, h2, h5.symm.trans hs⟩
    | .count l op k, v, d, d', C, hw, u, u', hu, h => by
      simp only [ValueTest.Within, ValueTest.Holds] at hw h ⊢
      obtain ⟨fs, h, hs⟩ := h
      obtain ⟨fs', h1, h2⟩ := corr_testedList l C hw u u' hu _ h
      exact ⟨fs', h2, by rw [← all2_length h1]; exact hs⟩
    | .countIs l k, v, d, d', C, hw, u, u', hu, h => by
      simp only [ValueTest.Within, ValueTest.Holds] at hw h ⊢
      obtain ⟨fs, h, hs⟩ := h
      obtain ⟨fs', h1, h2⟩ := corr_testedList l C hw u u' hu _ h
      exact ⟨fs', h2, by rw [← all2_length h1]; exact hs⟩
    | .contains l s, v, d, d', C, hw, u, u', hu, h => by
      simp only [ValueTest.Within, ValueTest.Holds] at hw h ⊢
      obtain ⟨fs, h, hs⟩ := h
      obtain ⟨fs', h1, h2⟩ := corr_testedList l C hw.1 u u' hu _ h
      exact ⟨fs', h2, by rw [← (corr_argText C hw.2 h h1).1]; exact hs⟩
    | .startsWith l s, v, d, d', C, hw, u, u', hu, h => by
      simp only [ValueTest.Within, ValueTest.Holds] at hw h ⊢
      obtain ⟨fs, h, hs⟩ := h
      obtain ⟨fs', h1, h2⟩ := corr_testedList l C hw.1 u u' hu _ h
      exact ⟨fs', h2, by rw [← (corr_argText C hw.2 h h1).1]; exact hs⟩
    | .nameIs m, v, d, d', C, hw, u, u', hu, h => by
      simp only [ValueTest.Holds] at h ⊢
      exact (corr_nameAt C hu m).1 h
    | .not t, v, d, d', C, hw, u, u', hu, h => by
      simp only [ValueTest.Within, ValueTest.Holds] at hw h ⊢
      exact fun h' => h (corr_test t C.symm hw u' u hu.symm h')
    | .and t t', v, d, d', C, hw, u, u', hu, h => by
      simp only [ValueTest.Within, ValueTest.Holds] at hw h ⊢
      exact ⟨corr_test t C hw.1 u u' hu h.1, corr_test t' C hw.2 u u' hu h.2⟩
    | .or t t', v, d, d', C, hw, u, u', hu, h => by
      simp only [ValueTest.Within, ValueTest.Holds] at hw h ⊢
      exact h.imp (corr_test t C hw.1 u u' hu) (corr_test t' C hw.2 u u' hu)
end

end Amara
