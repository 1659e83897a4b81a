import Verif.Lemmas.Bones
import Verif.Props.Routes
import Verif.Props.Tree
import Verif.Props.IndentBack
import Verif.Props.Expat
/-
C148: paths of elements depend on the elements of the document only.
-/
namespace Amara

variable {F : Type}

/-- A test gives the same at corresponding elements of two documents. -/
def Agree (E E' : Env F) (n : Nat) (t : Expr F) : Prop :=
  ∀ p p', E.doc.ElemAt p → E'.doc.ElemAt p' → E.doc.among p = E'.doc.among p' →
    ∃ ys ys', E.Yields n t (.node p) ys ∧ E'.Yields n t (.node p') ys' ∧ NotNumber ys ∧ NotNumber ys' ∧ (E.Ebv ys ↔ E'.Ebv ys')

theorem agree_symm {E E' : Env F} {n : Nat} {t : Expr F} (h : Agree E E' n t) : Agree E' E n t := by
  intro p p' hp hp' he
  obtain ⟨ys, ys', h1, h2, h3, h4, h5⟩ := h p' p hp' hp he.symm
  exact ⟨ys', ys, h2, h1, h4, h3, h5.symm⟩

theorem corresponds {d d' : Node} (h : d.bones = d'.bones) (hd' : d'.isText = false) {p : Path} {m as cs}
    (hp : d.at? p = some (.elem m as cs)) :
    ∃ p' cs', d'.at? p' = some (.elem m as cs') ∧ d'.among p' = d.among p := by
  have h1 := at_bones p hp
  rw [h] at h1
  obtain ⟨p', ⟨m', as', cs', h2⟩, h3⟩ := bones_onto _ hd' h1
  have h4 := at_bones p' h2
  rw [h3, h1] at h4
  simp only [Option.some.injEq, Node.elem.injEq] at h4
  obtain ⟨rfl, rfl, _⟩ := h4
  exact ⟨p', cs', h2, h3⟩

theorem same_elem {d d' : Node} (h : d.bones = d'.bones) {p p' : Path} {m as cs m' as' cs'} (hp : d.at? p = some (.elem m as cs))
    (hp' : d'.at? p' = some (.elem m' as' cs')) (he : d.among p = d'.among p') : m = m' ∧ as = as' := by
  have h1 := at_bones p hp
  have h2 := at_bones p' hp'
  rw [h, he, h2] at h1
  simp only [Option.some.injEq, Node.elem.injEq] at h1
  exact ⟨h1.1.symm, h1.2.1.symm⟩

/-- Each route in one document has its counterpart in the other. -/
theorem route_corresponds (E E' : Env F) (hb : E.doc.bones = E'.doc.bones) (hE : E.doc.isText = false) (hE' : E'.doc.isText = false) (n : Nat) :
    ∀ {ss : List (PathStep F)} (_ : ∀ s ∈ ss, ElementAxis s.axis) (_ : ∀ a m t, .tested a m t ∈ ss → Agree E E' n t) {p p' : Path} {r : List Path},
    E.doc.ElemAt p → E'.doc.ElemAt p' → E.doc.among p = E'.doc.among p' → E.Route n ss p r →
    ∃ r', E'.Route n ss p' r' ∧ r.map E.doc.among = r'.map E'.doc.among
  | [], _, _, p, p', r, _, _, _, h => ⟨[], rfl, by cases h; rfl⟩
  | s :: ss, hs, ht, p, p', r, hp, hp', he, ⟨q, r1, hr, ⟨h1, ⟨as, cs, h2⟩, h3⟩, h4⟩ => by
    obtain ⟨q', cs', hq', hqe⟩ := corresponds hb hE' h2
    have hq : E.doc.ElemAt q := ⟨_, _, _, h2⟩
    have hq2 : E'.doc.ElemAt q' := ⟨_, _, _, hq'⟩
    obtain ⟨r', h5, h6⟩ := route_corresponds E E' hb hE hE' n (fun s h => hs s (by simp [h])) (fun a m t h => ht a m t (by simp [h])) hq
      hq2 hqe.symm h4
    refine ⟨q' :: r', ⟨q', r', rfl, ⟨?_, ⟨as, cs', hq'⟩, ?_⟩, h5⟩, by simp [hr, hqe, h6]⟩
    · rw [← onAxis_among hE' (hs s (by simp)) hp' hq2, ← he, hqe]
      exact (onAxis_among hE (hs s (by simp)) hp hq).2 h1
    · rintro a m t rfl
      obtain ⟨ys, h7, h8⟩ := h3 a m t rfl
      obtain ⟨zs, zs', h9, h10, _, _, h11⟩ := ht a m t (by simp) q q' hq hq2 hqe.symm
      cases yields_unique h7 h9
      exact ⟨zs', h10, h11.1 h8⟩

theorem route_elems (E : Env F) (n : Nat) : ∀ {ss : List (PathStep F)} {p : Path} {r : List Path}, E.Route n ss p r → ∀ q ∈ r, E.doc.ElemAt q
  | [], _, _, h => by cases h; simp
  | s :: ss, p, r, ⟨q, r1, hr, ⟨_, h2, _⟩, h4⟩ => by
    subst hr
    intro x hx
    rcases List.mem_cons.1 hx with rfl | hx
    · exact h2.elemAt
    · exact route_elems E n h4 x hx

theorem routeBefore_among {d : Node} : ∀ {ss : List (PathStep F)} {r r' : List Path}, (∀ q ∈ r, d.ElemAt q) → (∀ q ∈ r', d.ElemAt q) →
    RouteBefore ss r r' → RouteBefore ss (r.map d.among) (r'.map d.among)
  | [], _, _, _, _, h => h
  | s :: ss, [], _, _, _, h => h
  | s :: ss, x :: r, [], _, _, h => h
  | s :: ss, x :: r, y :: r', h1, h2, h => by
    rcases h with h | ⟨rfl, h⟩
    · refine .inl ?_
      unfold AxisBefore at h ⊢
      split
      · rename_i hs; rw [if_pos hs] at h; exact among_lt _ _ (h2 y (by simp)) (h1 x (by simp)) h
      · rename_i hs; rw [if_neg hs] at h; exact among_lt _ _ (h1 x (by simp)) (h2 y (by simp)) h
    · exact .inr ⟨rfl, routeBefore_among (fun q h => h1 q (by simp [h])) (fun q h => h2 q (by simp [h])) h⟩

theorem axisBefore_asymm {a : Axis} {x y : Path} (h : AxisBefore a x y) (h' : AxisBefore a y x) : False := by
  unfold AxisBefore at h h'
  split at h
  · rename_i hs; rw [if_pos hs] at h'; exact docLt_asymm h h'
  · rename_i hs; rw [if_neg hs] at h'; exact docLt_asymm h h'

theorem routeBefore_asymm : ∀ (ss : List (PathStep F)) (r r' : List Path), RouteBefore ss r r' → RouteBefore ss r' r → False
  | [], _, _, h, _ => h
  | s :: ss, [], _, h, _ => h
  | s :: ss, x :: r, [], h, _ => h
  | s :: ss, x :: r, y :: r', h, h' => by
    rcases h with h | ⟨rfl, h⟩
    · rcases h' with h' | ⟨rfl, h'⟩
      · exact axisBefore_asymm h h'
      · exact axisBefore_asymm h h
    · rcases h' with h' | ⟨_, h'⟩
      · exact axisBefore_asymm h' h'
      · exact routeBefore_asymm ss r r' h h'

theorem routeEnd_map (f : Path → Path) (p : Path) (r : List Path) : f (routeEnd p r) = routeEnd (f p) (r.map f) := by
  simp only [routeEnd, List.getLast?_map]
  cases r.getLast? <;> rfl

theorem isText_of_elem {d : Node} {p : Path} (h : d.ElemAt p) : d.isText = false := by
  obtain ⟨m, as, cs, h⟩ := h
  cases d with
  | elem n bs ds => rfl
  | text s => cases p <;> simp [Node.at?, Node.xmlChildren] at h

theorem stepOk_agree {E E' : Env F} (hb : E.doc.bones = E'.doc.bones) (hE' : E'.doc.isText = false) {n : Nat} {s : PathStep F}
    (hs : ElementAxis s.axis) (ht : ∀ a m t, s = .tested a m t → Agree E E' n t) : E.StepOk n s := by
  cases s with
  | plain a m => exact hs
  | deep m => trivial
  | tested a m t =>
    refine ⟨hs, ?_⟩
    rintro p ⟨k, as, cs, hp⟩
    obtain ⟨p', cs', hp', he⟩ := corresponds hb hE' hp
    obtain ⟨ys, ys', h1, _, h2, _⟩ := ht a m t rfl p p' ⟨_, _, _, hp⟩ ⟨_, _, _, hp'⟩ he.symm
    refine ⟨ys, h1, ?_⟩
    intro y hy
    cases ys with
    | nil => cases hy
    | cons z zs =>
      cases hy
      cases y <;> first | exact h2.elim | exact ⟨(by simp), (by simp)⟩

/-- C148, for any tests that agree: in two documents that differ in text only, a path of elements from corresponding
elements yields corresponding elements in the same order. -/
theorem C148_paths (E E' : Env F) (hd : E.doc.NoEmptyText) (hd' : E'.doc.NoEmptyText) (hb : E.doc.bones = E'.doc.bones) (n : Nat)
    {a : Axis} (ha : ElementAxis a) (m : Str) {ss : List (PathStep F)} (hs : ∀ s ∈ ss, ElementAxis s.axis)
    (ht : ∀ a m t, .tested a m t ∈ ss → Agree E E' n t) {p p' : Path} (hp : E.doc.ElemAt p) (hp' : E'.doc.ElemAt p')
    (he : E.doc.among p = E'.doc.among p') :
    ∃ qs qs' : List Path, E.Yields n (relPath a m ss) (.node p) (qs.map .node) ∧
      E'.Yields n (relPath a m ss) (.node p') (qs'.map .node) ∧ (∀ q ∈ qs, E.doc.ElemAt q) ∧ (∀ q ∈ qs', E'.doc.ElemAt q) ∧
      qs.map E.doc.among = qs'.map E'.doc.among := by
  have hE := isText_of_elem hp
  have hE' := isText_of_elem hp'
  obtain ⟨rs, h1, h2, h3⟩ := C141_from_an_element E hd n ha m
    (fun s h => stepOk_agree hb hE' (hs s h) fun a m t e => ht a m t (e ▸ h)) hp
  obtain ⟨rs', h1', h2', h3'⟩ := C141_from_an_element E' hd' n ha m
    (fun s h => stepOk_agree (E' := E) hb.symm hE (hs s h) fun a m t e => agree_symm (ht a m t (e ▸ h))) hp'
  have hs' : ∀ s ∈ (PathStep.plain a m :: ss : List (PathStep F)), ElementAxis s.axis := by
    intro s h
    rcases List.mem_cons.1 h with rfl | h
    · exact ha
    · exact hs s h
  have ht' : ∀ b k t, (PathStep.tested b k t) ∈ (PathStep.plain a m :: ss : List (PathStep F)) → Agree E E' n t := by
    intro b k t h
    rcases List.mem_cons.1 h with h | h
    · cases h
    · exact ht b k t h
  have key : rs.map (List.map E.doc.among) = rs'.map (List.map E'.doc.among) := by
    refine same_sorted (R := RouteBefore (PathStep.plain a m :: ss)) (routeBefore_asymm _) ?_ ?_ fun r => ?_
    · rw [List.pairwise_map]
      exact h3.imp_of_mem fun {x y} hx hy h =>
        routeBefore_among (route_elems E n ((h2 x).1 hx)) (route_elems E n ((h2 y).1 hy)) h
    · rw [List.pairwise_map]
      exact h3'.imp_of_mem fun {x y} hx hy h =>
        routeBefore_among (route_elems E' n ((h2' x).1 hx)) (route_elems E' n ((h2' y).1 hy)) h
    · rw [List.mem_map, List.mem_map]
      constructor
      · rintro ⟨r1, h4, rfl⟩
        obtain ⟨r2, h5, h6⟩ := route_corresponds E E' hb hE hE' n hs' ht' hp hp' he ((h2 r1).1 h4)
        exact ⟨r2, (h2' r2).2 h5, h6.symm⟩
      · rintro ⟨r1, h4, rfl⟩
        obtain ⟨r2, h5, h6⟩ := route_corresponds E' E hb.symm hE' hE n hs' (fun b k t h => agree_symm (ht' b k t h)) hp' hp he.symm
          ((h2' r1).1 h4)
        exact ⟨r2, (h2 r2).2 h5, h6.symm⟩
  have hend : ∀ (E : Env F) {p : Path} {r : List Path}, E.doc.ElemAt p → E.Route n (.plain a m :: ss) p r → E.doc.ElemAt (routeEnd p r) := by
    intro E p r hp h
    unfold routeEnd
    cases hr : r.getLast? with
    | none => exact hp
    | some q => exact route_elems E n h q (List.mem_of_getLast? hr)
  refine ⟨rs.map (routeEnd p), rs'.map (routeEnd p'), h1, h1', ?_, ?_, ?_⟩
  · intro q hq
    obtain ⟨r, h4, rfl⟩ := List.mem_map.1 hq
    exact hend E hp ((h2 r).1 h4)
  · intro q hq
    obtain ⟨r, h4, rfl⟩ := List.mem_map.1 hq
    exact hend E' hp' ((h2' r).1 h4)
  · have e1 : ∀ (d : Node) (p : Path) (l : List (List Path)), (l.map (routeEnd p)).map d.among = (l.map (List.map d.among)).map (routeEnd (d.among p)) := by
      intro d p l
      simp [List.map_map, Function.comp_def, routeEnd_map]
    rw [e1, e1, key, he]

/-! ### Tests -/

theorem ebv_elems {E : Env F} {qs : List Path} (h : ∀ q ∈ qs, E.doc.ElemAt q) : E.Ebv (qs.map .node) ↔ qs ≠ [] := by
  cases qs with
  | nil => simp [Env.Ebv]
  | cons q qs =>
    obtain ⟨m, as, cs, hq⟩ := h q (by simp)
    simp [Env.Ebv, hq]

theorem notNumber_nodes (qs : List Path) : NotNumber (F := F) (qs.map .node) := by
  cases qs <;> trivial

/-- What `@k` yields at an element. -/
theorem attr_yields (E : Env F) (n : Nat) (k : Str) {p : Path} {m as cs} (h : E.doc.at? p = some (.elem m as cs)) :
    E.Yields n (.step .attribute (.name k)) (.node p)
      ((as.filter fun kv => decide (k = "*".toList ∨ k = kv.1)).map fun kv => .attr p kv.1 kv.2) := by
  rw [Env.Yields, run_step]
  simp only [stepRes, h, Test.theName]
  rfl

/-- Tests on elements agree. -/
theorem elementTest_agrees {texts : Prop} (E E' : Env F) (hd : E.doc.NoEmptyText) (hd' : E'.doc.NoEmptyText) (hb : E.doc.bones = E'.doc.bones)
    (htx : texts → SameTexts E.doc E'.doc) (n : Nat) {t : Expr F} (h : ElementTest texts t) : Agree E E' n t := by
  induction h with
  | path ha hs _ ih =>
    intro p p' hp hp' he
    obtain ⟨qs, qs', h1, h2, h3, h4, h5⟩ := C148_paths E E' hd hd' hb n ha _ hs ih hp hp' he
    refine ⟨_, _, h1, h2, notNumber_nodes _, notNumber_nodes _, ?_⟩
    rw [ebv_elems h3, ebv_elems h4]
    cases qs <;> cases qs' <;> simp at h5 ⊢
  | @attr k =>
    intro p p' hp hp' he
    obtain ⟨m, as, cs, hp⟩ := hp
    obtain ⟨m', as', cs', hp'⟩ := hp'
    obtain ⟨rfl, rfl⟩ := same_elem hb hp hp' he
    refine ⟨_, _, attr_yields E n k hp, attr_yields E' n k hp', ?_, ?_, ?_⟩
    all_goals cases as.filter _ <;> simp [NotNumber, Env.Ebv]
  | @attrIs k v =>
    intro p p' hp hp' he
    obtain ⟨m, as, cs, hp⟩ := hp
    obtain ⟨m', as', cs', hp'⟩ := hp'
    obtain ⟨rfl, rfl⟩ := same_elem hb hp hp' he
    have h1 := attr_yields E n k hp
    have h2 := attr_yields E' n k hp'
    cases hf : as.filter (fun kv => decide (k = "*".toList ∨ k = kv.1)) with
    | nil =>
      rw [hf] at h1 h2
      obtain ⟨b, h3, h4⟩ := C52_equality_partial E n _ _ _ v h1 (by simp) (by simp)
      obtain ⟨b', h3', h4'⟩ := C52_equality_partial E' n _ _ _ v h2 (by simp) (by simp)
      refine ⟨_, _, h3, h3', trivial, trivial, ?_⟩
      simp only [Env.Ebv, h4, h4']
      simp
    | cons kv r =>
      rw [hf] at h1 h2
      obtain ⟨b, h3, h4⟩ := C52_only_the_first_item E n _ _ _ _ v h1 trivial
      obtain ⟨b', h3', h4'⟩ := C52_only_the_first_item E' n _ _ _ _ v h2 trivial
      refine ⟨_, _, h3, h3', trivial, trivial, ?_⟩
      simp only [Env.Ebv, h4, h4', Env.strVal]
  | @pathIs a m ss v htx' ha hs _ ih =>
    intro p p' hp hp' he
    obtain ⟨qs, qs', h1, h2, h3, h4, h5⟩ := C148_paths E E' hd hd' hb n ha _ hs ih hp hp' he
    cases qs with
    | nil =>
      cases qs' with
      | cons _ _ => simp at h5
      | nil =>
        obtain ⟨b, h3, h4⟩ := C52_equality_partial E n _ _ _ v h1 (by simp) (by simp)
        obtain ⟨b', h3', h4'⟩ := C52_equality_partial E' n _ _ _ v h2 (by simp) (by simp)
        refine ⟨_, _, h3, h3', trivial, trivial, ?_⟩
        simp only [Env.Ebv, h4, h4']
        simp
    | cons q qs =>
      cases qs' with
      | nil => simp at h5
      | cons q' qs' =>
        simp only [List.map_cons, List.cons.injEq] at h5
        obtain ⟨k, as, cs, hq⟩ := h3 q (by simp)
        obtain ⟨k', as', cs', hq'⟩ := h4 q' (by simp)
        obtain ⟨b, h6, h7⟩ := C52_only_the_first_item E n _ _ _ _ v h1 trivial
        obtain ⟨b', h6', h7'⟩ := C52_only_the_first_item E' n _ _ _ _ v h2 trivial
        refine ⟨_, _, h6, h6', trivial, trivial, ?_⟩
        simp only [Env.Ebv, h7, h7', Env.strVal, hq, hq', htx htx' q q' _ _ _ _ _ _ hq hq' h5.1]
  | boolean _ ih =>
    intro p p' hp hp' he
    obtain ⟨ys, ys', h1, h2, h3, h4, h5⟩ := ih p p' hp hp' he
    obtain ⟨b, h6, h7, _⟩ := C53_boolean_and_not E n _ _ _ h1
    obtain ⟨b', h6', h7', _⟩ := C53_boolean_and_not E' n _ _ _ h2
    exact ⟨_, _, h7, h7', trivial, trivial, by simp only [Env.Ebv]; rw [h6, h6', h5]⟩
  | not _ ih =>
    intro p p' hp hp' he
    obtain ⟨ys, ys', h1, h2, h3, h4, h5⟩ := ih p p' hp hp' he
    obtain ⟨b, h6, _, h7⟩ := C53_boolean_and_not E n _ _ _ h1
    obtain ⟨b', h6', _, h7'⟩ := C53_boolean_and_not E' n _ _ _ h2
    have : b = b' := Bool.eq_iff_iff.2 (by rw [h6, h6', h5])
    subst this
    exact ⟨_, _, h7, h7', trivial, trivial, Iff.rfl⟩
  | both _ _ ih1 ih2 =>
    intro p p' hp hp' he
    obtain ⟨ys, ys', h1, h2, h3, h4, h5⟩ := ih1 p p' hp hp' he
    obtain ⟨zs, zs', i1, i2, i3, i4, i5⟩ := ih2 p p' hp hp' he
    obtain ⟨b, h6, h7, _⟩ := C53_boolean_and_not E n _ _ _ h1
    obtain ⟨b', h6', h7', _⟩ := C53_boolean_and_not E' n _ _ _ h2
    obtain ⟨c, i6, i7, _⟩ := C53_boolean_and_not E n _ _ _ i1
    obtain ⟨c', i6', i7', _⟩ := C53_boolean_and_not E' n _ _ _ i2
    have : b = b' := Bool.eq_iff_iff.2 (by rw [h6, h6', h5])
    subst this
    have : c = c' := Bool.eq_iff_iff.2 (by rw [i6, i6', i5])
    subst this
    refine ⟨[.bool (b && c)], [.bool (b && c)], ?_, ?_, trivial, trivial, Iff.rfl⟩
    · rw [Env.Yields] at *
      rw [run_and, h7, i7]
      cases b <;> cases c <;> rfl
    · rw [Env.Yields] at *
      rw [run_and, h7', i7']
      cases b <;> cases c <;> rfl
  | either _ _ ih1 ih2 =>
    intro p p' hp hp' he
    obtain ⟨ys, ys', h1, h2, h3, h4, h5⟩ := ih1 p p' hp hp' he
    obtain ⟨zs, zs', i1, i2, i3, i4, i5⟩ := ih2 p p' hp hp' he
    obtain ⟨b, h6, h7, _⟩ := C53_boolean_and_not E n _ _ _ h1
    obtain ⟨b', h6', h7', _⟩ := C53_boolean_and_not E' n _ _ _ h2
    obtain ⟨c, i6, i7, _⟩ := C53_boolean_and_not E n _ _ _ i1
    obtain ⟨c', i6', i7', _⟩ := C53_boolean_and_not E' n _ _ _ i2
    have : b = b' := Bool.eq_iff_iff.2 (by rw [h6, h6', h5])
    subst this
    have : c = c' := Bool.eq_iff_iff.2 (by rw [i6, i6', i5])
    subst this
    refine ⟨[.bool (b || c)], [.bool (b || c)], ?_, ?_, trivial, trivial, Iff.rfl⟩
    · rw [Env.Yields] at *
      rw [run_or, h7, i7]
      cases b <;> cases c <;> rfl
    · rw [Env.Yields] at *
      rw [run_or, h7', i7']
      cases b <;> cases c <;> rfl

/-- C148: in two documents that differ in text only, a path of elements with tests on elements and attributes yields, from
corresponding elements, corresponding elements in the same order. -/
theorem C148_elements_only (E E' : Env F) (hd : E.doc.NoEmptyText) (hd' : E'.doc.NoEmptyText) (hb : E.doc.bones = E'.doc.bones) (n : Nat)
    {a : Axis} (ha : ElementAxis a) (m : Str) {ss : List (PathStep F)} (hs : ∀ s ∈ ss, s.OfElements False) {p p' : Path}
    (hp : E.doc.ElemAt p) (hp' : E'.doc.ElemAt p') (he : E.doc.among p = E'.doc.among p') :
    ∃ qs qs' : List Path, E.Yields n (relPath a m ss) (.node p) (qs.map .node) ∧
      E'.Yields n (relPath a m ss) (.node p') (qs'.map .node) ∧ qs.map E.doc.among = qs'.map E'.doc.among := by
  obtain ⟨qs, qs', h1, h2, _, _, h3⟩ := C148_paths E E' hd hd' hb n ha m (fun s h => (hs s h).1)
    (fun b k t h => elementTest_agrees (texts := False) E E' hd hd' hb False.elim n ((hs _ h).2 b k t rfl)) hp hp' he
  exact ⟨qs, qs', h1, h2, h3⟩

/-- C148: the same with tests on the texts of elements, if corresponding elements have the same text. -/
theorem C148_elements_and_texts (E E' : Env F) (hd : E.doc.NoEmptyText) (hd' : E'.doc.NoEmptyText) (hb : E.doc.bones = E'.doc.bones)
    (htx : SameTexts E.doc E'.doc) (n : Nat)
    {a : Axis} (ha : ElementAxis a) (m : Str) {ss : List (PathStep F)} (hs : ∀ s ∈ ss, s.OfElements True) {p p' : Path}
    (hp : E.doc.ElemAt p) (hp' : E'.doc.ElemAt p') (he : E.doc.among p = E'.doc.among p') :
    ∃ qs qs' : List Path, E.Yields n (relPath a m ss) (.node p) (qs.map .node) ∧
      E'.Yields n (relPath a m ss) (.node p') (qs'.map .node) ∧ qs.map E.doc.among = qs'.map E'.doc.among ∧
      qs.map (fun q => E.strVal (.node q)) = qs'.map fun q => E'.strVal (.node q) := by
  obtain ⟨qs, qs', h1, h2, h4, h5, h3⟩ := C148_paths E E' hd hd' hb n ha m (fun s h => (hs s h).1)
    (fun b k t h => elementTest_agrees (texts := True) E E' hd hd' hb (fun _ => htx) n ((hs _ h).2 b k t rfl)) hp hp' he
  refine ⟨qs, qs', h1, h2, h3, ?_⟩
  clear h1 h2
  induction qs generalizing qs' with
  | nil => cases qs' with
    | nil => rfl
    | cons _ _ => simp at h3
  | cons q qs ih =>
    cases qs' with
    | nil => simp at h3
    | cons q' qs' =>
      simp only [List.map_cons, List.cons.injEq] at h3 ⊢
      obtain ⟨k, as, cs, hq⟩ := h4 q (by simp)
      obtain ⟨k', as', cs', hq'⟩ := h5 q' (by simp)
      refine ⟨?_, ih qs' (fun q h => h4 q (by simp [h])) (fun q h => h5 q (by simp [h])) h3.2⟩
      simp only [Env.strVal, hq, hq', htx q q' _ _ _ _ _ _ hq hq' h3.1]

/-! ### Documents that differ in text only -/

theorem bonesList_consText (s : Str) (ns : List Node) : Node.bonesList (consText s ns) = Node.bonesList ns := by
  unfold consText
  split
  · rfl
  · split <;> simp [Node.bonesList]

theorem bones_norm : (∀ x : Node, x.norm.bones = x.bones) ∧ ∀ xs : List Node, Node.bonesList (Node.normList xs) = Node.bonesList xs := by
  apply Node.induct
  · intro n as cs ih; simp [Node.norm, Node.bones, ih]
  · intro s; rfl
  · rfl
  · intro x xs ihx ihxs
    cases x with
    | text s => simp [Node.normList, bonesList_consText, Node.bonesList, ihxs]
    | elem n as cs =>
      simp only [Node.norm, Node.bones, Node.elem.injEq, true_and] at ihx
      simp [Node.normList, Node.norm, Node.bonesList, ihx, ihxs]

/-- The elements among the children. -/
def elemsOf (xs : List Node) : List Node := xs.filter fun x => !x.isText

/-- An element by its position counted among elements. -/
def Node.walk (x : Node) : Path → Option Node
  | [] => some x
  | k :: q => ((elemsOf x.xmlChildren)[k]?).bind fun y => y.walk q

theorem elemsOf_get : ∀ {cs : List Node} {i : Nat} {y : Node}, cs[i]? = some y → y.isText = false →
    (elemsOf cs)[countElems (cs.take i)]? = some y
  | [], _, _, h, _ => by simp at h
  | c :: cs, 0, y, h, hy => by
    simp only [List.getElem?_cons_zero, Option.some.injEq] at h
    subst h
    simp [elemsOf, countElems, hy]
  | c :: cs, i + 1, y, h, hy => by
    have := elemsOf_get (cs := cs) (i := i) (by simpa using h) hy
    unfold elemsOf countElems at this ⊢
    cases hc : c.isText <;> simpa [hc] using this

theorem walk_among : ∀ (p : Path) {x : Node} {m as cs}, x.at? p = some (.elem m as cs) → x.walk (x.among p) = some (.elem m as cs)
  | [], x, _, _, _, h => h
  | i :: p, x, m, as, cs, h => by
    simp only [Node.at?] at h
    cases hi : x.xmlChildren[i]? with
    | none => rw [hi] at h; cases h
    | some y =>
      rw [hi] at h
      cases y with
      | text s => cases p <;> simp [Node.at?, Node.xmlChildren] at h
      | elem k bs ds => simp [Node.among, hi, Node.walk, elemsOf_get hi rfl, walk_among p h]

theorem elemsOf_consText (s : Str) (ns : List Node) : elemsOf (consText s ns) = elemsOf ns := by
  unfold consText elemsOf
  split
  · rfl
  · split <;> simp [Node.isText]

theorem elemsOf_normList : ∀ xs : List Node, elemsOf (Node.normList xs) = (elemsOf xs).map Node.norm
  | [] => rfl
  | .text s :: r => by
    rw [Node.normList, elemsOf_consText, elemsOf_normList r]
    simp [elemsOf, Node.isText]
  | .elem n as cs :: r => by
    have := elemsOf_normList r
    unfold elemsOf at this ⊢
    rw [Node.normList, List.filter_cons_of_pos (by rfl), List.filter_cons_of_pos (by rfl), this, List.map_cons]

theorem walk_norm : ∀ (q : Path) (x : Node), x.norm.walk q = (x.walk q).map Node.norm
  | [], x => rfl
  | k :: q, .text s => by simp [Node.norm, Node.walk, Node.xmlChildren, elemsOf]
  | k :: q, .elem n as cs => by
    simp only [Node.norm, Node.walk, Node.xmlChildren, elemsOf_normList, List.getElem?_map]
    cases (elemsOf cs)[k]? with
    | none => rfl
    | some y => exact walk_norm q y

theorem sameTexts_norm {d d' : Node} (h : d.norm = d'.norm) : SameTexts d d' := by
  intro p p' m as cs m' as' cs' hp hp' he
  have h1 := walk_norm (d.among p) d
  rw [walk_among p hp, h, walk_norm, he, walk_among p' hp'] at h1
  simp only [Option.map_some, Option.some.injEq] at h1
  rw [← xmlValue_texts.1, ← xmlValue_texts.1]
  exact C18_string_value_ignores_splitting _ _ h1.symm

/-- C148: how the text of a document is cut into text nodes, as by expat (C44), makes no difference to a path of elements,
with tests on elements, attributes and texts. -/
theorem C148_cutting_text (E E' : Env F) (hd : E.doc.NoEmptyText) (hd' : E'.doc.NoEmptyText) (hb : E.doc.norm = E'.doc.norm) (n : Nat)
    {a : Axis} (ha : ElementAxis a) (m : Str) {ss : List (PathStep F)} (hs : ∀ s ∈ ss, s.OfElements True) {p p' : Path}
    (hp : E.doc.ElemAt p) (hp' : E'.doc.ElemAt p') (he : E.doc.among p = E'.doc.among p') :
    ∃ qs qs' : List Path, E.Yields n (relPath a m ss) (.node p) (qs.map .node) ∧
      E'.Yields n (relPath a m ss) (.node p') (qs'.map .node) ∧ qs.map E.doc.among = qs'.map E'.doc.among ∧
      qs.map (fun q => E.strVal (.node q)) = qs'.map fun q => E'.strVal (.node q) :=
  C148_elements_and_texts E E' hd hd' (by rw [← bones_norm.1, hb, bones_norm.1]) (sameTexts_norm hb) n ha m hs hp hp' he

theorem bones_squeeze : (∀ x : Node, x.isText = false → x.squeeze.bones = x.bones) ∧
    ∀ xs : List Node, Node.bonesList (Node.squeezeList xs) = Node.bonesList xs := by
  apply Node.induct
  · intro n as cs ih _; simp [Node.squeeze, Node.bones, ih]
  · intro s h; cases h
  · rfl
  · intro x xs ihx ihxs
    cases x with
    | text s => simp [Node.squeezeList, bonesList_consText, Node.bonesList, ihxs]
    | elem n as cs =>
      have ihx := ihx rfl
      simp only [Node.squeeze, Node.bones, Node.elem.injEq, true_and] at ihx
      simp [Node.squeezeList, Node.squeeze, Node.bonesList, ihx, ihxs]

theorem mem_consText {s : Str} {ns : List Node} (h : .text [] ∉ ns) : .text [] ∉ consText s ns := by
  unfold consText
  split
  · exact h
  · rename_i hs
    split
    · rename_i u r
      simp only [List.mem_cons, not_or, Node.text.injEq] at h ⊢
      exact ⟨fun h0 => hs (List.append_eq_nil_iff.1 h0.symm).1, h.2⟩
    · simp only [List.mem_cons, not_or, Node.text.injEq]
      exact ⟨Ne.symm hs, h⟩

theorem normList_mem : ∀ xs : List Node, .text [] ∉ Node.normList xs
  | [] => by simp [Node.normList]
  | .text s :: r => mem_consText (normList_mem r)
  | .elem n as cs :: r => by
    simp only [Node.normList, Node.norm, List.mem_cons, not_or]
    exact ⟨by simp, normList_mem r⟩

theorem mem_consText_elem {s : Str} {ns : List Node} {m as cs} (h : Node.elem m as cs ∈ consText s ns) : Node.elem m as cs ∈ ns := by
  unfold consText at h
  split at h
  · exact h
  · split at h <;> simpa using h

theorem normList_has {m as ds} : ∀ (xs : List Node), Node.elem m as ds ∈ Node.normList xs → ∃ y : Node, y.isText = false ∧ y.norm = Node.elem m as ds
  | [], h => by simp [Node.normList] at h
  | .text s :: r, h => normList_has r (mem_consText_elem h)
  | .elem n bs cs :: r, h => by
    rcases List.mem_cons.1 h with h | h
    · exact ⟨.elem n bs cs, rfl, h.symm⟩
    · exact normList_has r h

/-- A normal form has no empty texts in it. -/
theorem norm_noEmptyText {x : Node} (hx : x.isText = false) : x.norm.NoEmptyText := by
  intro p
  induction p generalizing x with
  | nil => cases x with
    | text s => cases hx
    | elem n as cs => simp [Node.at?, Node.norm]
  | cons i p ih => cases x with
    | text s => cases hx
    | elem n as cs =>
      intro h
      simp only [Node.norm, Node.at?, Node.xmlChildren] at h
      cases hi : (Node.normList cs)[i]? with
      | none => rw [hi] at h; cases h
      | some y =>
        rw [hi] at h
        have hm := List.mem_of_getElem? hi
        cases y with
        | text s =>
          cases p with
          | nil =>
            simp only [Node.at?, Option.some.injEq] at h
            exact normList_mem cs (h ▸ hm)
          | cons j p => simp [Node.at?, Node.xmlChildren] at h
        | elem m bs ds =>
          obtain ⟨y, hy, he⟩ := normList_has cs hm
          exact ih hy (he ▸ h)

/-- C148: nor does writing the document with indentation and reading it back. -/
theorem C148_indent_and_read {e : Node} (h : e.Writable) (he : e.isText = false) (hd : e.NoEmptyText) {ind : Str} (hi : BlankIndent ind)
    (d : Nat) :
    ∃ e' : Node, (∀ b r b', TreeParse b (e.encodeI ind d) r b' → ∃ i, r = .returned (some i) ∧ Rep b'.heap none i e') ∧
      ∀ (E E' : Env F), E.doc = e → E'.doc = e' → ∀ (n : Nat) {a : Axis} (_ : ElementAxis a) (m : Str) {ss : List (PathStep F)}
        (_ : ∀ s ∈ ss, s.OfElements False) {p p' : Path}, e.ElemAt p → e'.ElemAt p' → e.among p = e'.among p' →
        ∃ qs qs' : List Path, E.Yields n (relPath a m ss) (.node p) (qs.map .node) ∧
          E'.Yields n (relPath a m ss) (.node p') (qs'.map .node) ∧ qs.map e.among = qs'.map e'.among := by
  have key : ∃ x : Node, x.Writable ∧ x.isText = false ∧ x.squeeze = e.squeeze ∧ e.encodeI ind d = x.encode := by
    by_cases h0 : ind = []
    · subst h0
      exact ⟨e, h, he, rfl, encode_depth.1 e d⟩
    · refine ⟨e.withIndent ind d, (writable_withIndent hi).1 e d h, by rw [isText_withIndent, he],
        (squeeze_withIndent hi).1 e d, C19_indent_is_added_text h0 ?_ e d⟩
      intro c hc
      rcases hi c hc with rfl | rfl | rfl <;> decide
  obtain ⟨x, h1, h2, h3, h4⟩ := key
  refine ⟨x.norm, ?_, ?_⟩
  · rw [h4]; exact fun b r b' hp => C20_builder_builds_the_tree (encode_isDoc h1 h2) hp
  · rintro E E' rfl hE' n a ha m ss hs p p' hp hp' hpp
    rw [← hE'] at hp' hpp ⊢
    refine C148_elements_only E E' hd (by rw [hE']; exact norm_noEmptyText h2) ?_ n ha m hs hp hp' hpp
    rw [hE', bones_norm.1, ← bones_squeeze.1 _ he, ← bones_squeeze.1 _ h2, h3]

/-- C148 is about elements: text nodes are counted as the text happens to be cut. -/
theorem C148_not_for_text_nodes :
    let d : Node := .elem ['a'] [] [.text ['x', 'y']]
    let d' : Node := .elem ['a'] [] [.text ['x'], .text ['y']]
    d.norm = d'.norm ∧
    ({ exEnv with doc := d } : Env NoF).Yields 0 (.call "count".toList [.step .child .text]) (.node []) [.int 1] ∧
    ({ exEnv with doc := d' } : Env NoF).Yields 0 (.call "count".toList [.step .child .text]) (.node []) [.int 2] ∧
    ({ exEnv with doc := d } : Env NoF).Yields 0 (.eq (.step .child .text) (.lit (.str ['x', 'y']))) (.node []) [.bool true] ∧
    ({ exEnv with doc := d' } : Env NoF).Yields 0 (.eq (.step .child .text) (.lit (.str ['x', 'y']))) (.node []) [.bool false] := by
  refine ⟨by decide, ?_, ?_, ?_, ?_⟩ <;> (unfold Env.Yields; decide)

-- the hypotheses are met: `child::b[@k = '1']/descendant::c[d = 'yz']` in a document cut in two ways
example :
    let d : Node := .elem ['a'] [] [.text ['x'], .elem ['b'] [(['k'], ['1'])] [.elem ['c'] [] [.elem ['d'] [] [.text ['y', 'z']]]]]
    let d' : Node := .elem ['a'] [] [.text ['x'], .elem ['b'] [(['k'], ['1'])] [.elem ['c'] [] [.elem ['d'] [] [.text ['y'], .text ['z']]]]]
    let d'' : Node := .elem ['a'] [] [.elem ['b'] [(['k'], ['1'])] [.text ['\n'], .elem ['c'] [] [.elem ['d'] [] []], .text ['\n']]]
    d.norm = d'.norm ∧ d ≠ d' ∧ d.bones = d''.bones ∧ d.among [1, 0, 0] = [0, 0, 0] ∧ d''.among [0, 1, 0] = [0, 0, 0] := by
  refine ⟨by decide, by decide, by simp [Node.bones, Node.bonesList], by decide, by decide⟩
example : (PathStep.tested .child ['b'] (.eq (.step .attribute (.name ['k'])) (.lit (.str ['1']))) : PathStep NoF).OfElements False :=
  ⟨by simp [PathStep.axis, ElementAxis], by rintro _ _ _ ⟨⟩; exact .attrIs⟩
example : (PathStep.tested .descendant ['c'] (.eq (relPath .child ['d'] []) (.lit (.str ['y', 'z']))) : PathStep NoF).OfElements True :=
  ⟨by simp [PathStep.axis, ElementAxis], by rintro _ _ _ ⟨⟩; exact .pathIs trivial (by simp [ElementAxis]) (by simp) (by simp)⟩

end Amara
