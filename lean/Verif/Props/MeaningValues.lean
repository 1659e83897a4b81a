import Verif.Spec.MeaningValues
import Verif.Props.MicroxMeaning
/-
C164: queries for texts, attributes, counts, strings and names.
-/
namespace Amara

variable {F : Type}

theorem map_found (qs : List Path) : (qs.map .node : List (Item F)) = (qs.map fun q => Found.node (.at q)).map Found.item := by
  rw [List.map_map]; rfl

theorem spots_found (vs : List Spot) : (vs.map Spot.item : List (Item F)) = (vs.map Found.node).map Found.item := by
  rw [List.map_map]; rfl

/-! ### texts and nodes below a place -/

/-- `text()` among the children of a place. -/
theorem texts_list (E : Env F) (hd : E.doc.NoEmptyText) (n : Nat) {u : Spot} (hu : E.doc.Place u) :
    ∃ qs : List Path, E.Yields n (.step .child .text) u.item (qs.map .node) ∧ u.AxisList .child E.doc.TextAt qs := by
  cases u with
  | «at» p =>
    obtain ⟨qs, h1, h2, h3⟩ := C47_text_tests E hd hu n .child (by simp)
    exact ⟨qs, h1, h3.imp fun {_ _} h => by simpa [AxisBefore, CoreAxis.axis] using h, h2⟩
  | root =>
    refine ⟨([[]] : List Path).filter fun q => Test.text.sel E.doc (.node q : Item F), ?_, List.Pairwise.filter _ (by simp), fun q => ?_⟩
    · rw [Env.Yields]
      show E.run n (.step .child .text) .root = _
      rw [run_step]
      have := visit_nodes E.fo hd .text (.root : Item F) [[]]
      simp only [stepRes, Item.children, Test.isName]
      exact congrArg (fun l => (⟨l, .done⟩ : Res F)) this
    · rw [List.mem_filter, sel_text]
      simp [Spot.Reach, Node.TextAt]

/-- `node()` among the children of a place. -/
theorem nodes_list (E : Env F) (hd : E.doc.NoEmptyText) (n : Nat) {u : Spot} (hu : E.doc.Place u) :
    ∃ qs : List Path, E.Yields n (.step .child .node) u.item (qs.map .node) ∧ u.AxisList .child E.doc.Has qs := by
  cases u with
  | «at» p =>
    obtain ⟨qs, h1, h2, h3⟩ := C46_forward_axes E hd hu n .child (by simp)
    exact ⟨qs, h1, h3.imp fun {_ _} h => by simpa [AxisBefore, CoreAxis.axis] using h, h2⟩
  | root =>
    refine ⟨[[]], (C46_root E hd n).2.1, by simp, fun q => ?_⟩
    rw [List.mem_singleton]
    constructor
    · rintro rfl; exact ⟨rfl, _, rfl⟩
    · exact fun h => h.1

/-- `descendant-or-self::text()` from a place. -/
theorem deepTexts_list (E : Env F) (hd : E.doc.NoEmptyText) (n : Nat) {u : Spot} (hu : E.doc.Place u) :
    ∃ qs : List Path, E.Yields n (.step .descendantOrSelf .text) u.item (qs.map .node) ∧ u.AxisList .descendantOrSelf E.doc.TextAt qs := by
  cases u with
  | «at» p =>
    obtain ⟨qs, h1, h2, h3⟩ := C47_text_tests E hd hu n .descendantOrSelf (by simp)
    exact ⟨qs, h1, h3.imp fun {_ _} h => by simpa [AxisBefore, CoreAxis.axis] using h, h2⟩
  | root =>
    refine ⟨([] :: E.doc.under []).filter fun q => Test.text.sel E.doc (.node q : Item F), ?_, ?_, fun q => ?_⟩
    · have hv : visit E.fo E.doc .text .root (.node [] :: (E.doc.under []).map .node) =
          (([] :: E.doc.under []).filter fun q => Test.text.sel E.doc (.node q : Item F)).map (Item.node : Path → Item F) := by
        rw [show (Item.node [] : Item F) :: (E.doc.under []).map .node = ([] :: E.doc.under []).map .node from rfl,
          visit_nodes E.fo hd]
      rw [Env.Yields]
      show E.run n (.step .descendantOrSelf .text) .root = _
      rw [run_step]
      simp only [stepRes, Item.below, hv]
      rfl
    · have : (([] :: E.doc.under []).filter fun q => Test.text.sel E.doc (.node q : Item F)).Pairwise docLt := by
        refine List.Pairwise.filter _ (List.pairwise_cons.2 ⟨?_, under_order.1 _ _⟩)
        intro q hq
        obtain ⟨r, y, h1, h2, _⟩ := (under_mem.1 _ _ _).1 hq
        cases r with
        | nil => exact absurd rfl h1
        | cons i r => rw [h2]; trivial
      exact this.imp fun {_ _} h => by simpa [AxisBefore, CoreAxis.axis] using h
    · rw [List.mem_filter, sel_text, List.mem_cons, mem_under (p := []) rfl]
      constructor
      · rintro ⟨_, h⟩; exact ⟨trivial, h⟩
      · rintro ⟨_, s, h⟩
        refine ⟨?_, s, h⟩
        cases q with
        | nil => exact .inl rfl
        | cons i q => exact .inr ⟨⟨i :: q, by simp, rfl⟩, _, h⟩

/-! ### the last step -/

theorem end_gives (E : Env F) (hd : E.doc.NoEmptyText) (hdict : E.doc.Dicts) (n : Nat) {e : CoreEnd} (he : e.Ok) {u : Spot} (hu : E.doc.Place u) :
    ∃ fs : List Found, E.Yields n e.expr u.item (fs.map Found.item) ∧ e.Gives E.doc u fs := by
  cases e with
  | texts =>
    obtain ⟨qs, h1, h2⟩ := texts_list E hd n hu
    exact ⟨_, by rw [← map_found]; exact h1, qs, rfl, h2⟩
  | nodes =>
    obtain ⟨qs, h1, h2⟩ := nodes_list E hd n hu
    exact ⟨_, by rw [← map_found]; exact h1, qs, rfl, h2⟩
  | attr k =>
    obtain ⟨vs, h1, h2, h3⟩ := attr_from E hdict n he hu
    match vs, h2 with
    | [], _ =>
      refine ⟨[], ?_, .inr ⟨fun v hv => by simpa using (h3 v).2 hv, rfl⟩⟩
      cases u <;> exact h1
    | [v], _ =>
      have hv := (h3 v).1 (by simp)
      cases u with
      | root => exact hv.elim
      | «at» p => exact ⟨[.attr p k v], h1, .inl ⟨p, v, rfl, hv, rfl⟩⟩
  | attrs =>
    cases u with
    | root => exact ⟨[], by rw [Env.Yields]; exact run_step .., rfl⟩
    | «at» p =>
      obtain ⟨m, as, cs, hp⟩ := hu
      refine ⟨as.map fun kv => .attr p kv.1 kv.2, ?_, m, as, cs, hp, rfl⟩
      rw [List.map_map]
      exact (C66_attributes_partial E n p m as cs hp).1

theorem end_unique {doc : Node} (hdict : doc.Dicts) {e : CoreEnd} {u : Spot} {fs gs : List Found} (h : e.Gives doc u fs) (h' : e.Gives doc u gs) : fs = gs := by
  cases e with
  | texts =>
    obtain ⟨qs, rfl, h⟩ := h
    obtain ⟨rs, rfl, h'⟩ := h'
    rw [axisList_unique h h']
  | nodes =>
    obtain ⟨qs, rfl, h⟩ := h
    obtain ⟨rs, rfl, h'⟩ := h'
    rw [axisList_unique h h']
  | attr k =>
    rcases h with ⟨p, v, rfl, hv, rfl⟩ | ⟨hv, rfl⟩ <;> rcases h' with ⟨p', v', hu, hv', rfl⟩ | ⟨hv', rfl⟩
    · cases hu
      obtain ⟨m, as, cs, hp, hm⟩ := hv
      obtain ⟨m', as', cs', hp', hm'⟩ := hv'
      rw [hp] at hp'
      cases hp'
      have hd := hdict p m as cs hp
      have : v = v' := by
        rcases Decidable.em (v = v') with h | h
        · exact h
        · obtain ⟨l, r, rfl⟩ := List.append_of_mem hm
          rcases List.mem_append.1 hm' with h1 | h1
          · obtain ⟨a, b, rfl⟩ := List.append_of_mem h1
            exact absurd rfl ((List.pairwise_append.1 hd).2.2 (k, v') (by simp) (k, v) (by simp))
          · rcases List.mem_cons.1 h1 with h2 | h2
            · cases h2; rfl
            · exact absurd rfl ((List.pairwise_cons.1 (List.pairwise_append.1 hd).2.1).1 (k, v') h2)
      rw [this]
    · exact absurd hv (hv' v)
    · exact absurd hv' (hu ▸ hv v')
    · rfl
  | attrs =>
    cases u with
    | root => exact (show fs = _ from h).trans (show gs = _ from h').symm
    | «at» p =>
      obtain ⟨m, as, cs, hp, rfl⟩ := h
      obtain ⟨m', as', cs', hp', rfl⟩ := h'
      rw [hp] at hp'
      cases hp'
      rfl

/-- From a text node a last step gives nothing. -/
theorem end_text (E : Env F) (n : Nat) {t : Path} {s : Str} (ht : E.doc.at? t = some (.text s)) (e : CoreEnd) :
    E.Yields n e.expr (.node t) [] := by
  cases e <;> rw [CoreEnd.expr, Env.Yields, run_step] <;> simp [stepRes, Item.children, ht, visit] <;> rfl

/-! ### lists -/

/-- From a text node a query that starts downwards yields nothing. -/
theorem list_text (E : Env F) (n : Nat) {t : Path} {s : Str} (ht : E.doc.at? t = some (.text s)) {l : CoreList} (hl : l.startsDown = true) :
    E.Yields n l.expr (.node t) [] := by
  cases l with
  | path p => exact startsDown_text E n ht p hl
  | last e => exact end_text E n ht e
  | after p e => exact C45_empty E n _ _ _ (startsDown_text E n ht p hl)
  | allTexts p =>
    rw [CoreList.expr, Env.Yields, run_dslash]
    exact C45_empty E n _ _ _ (startsDown_text E n ht p hl)
  | abs l => cases hl
  | anywhere l => cases hl

theorem notJustNode_expr : ∀ {l : CoreList}, l.Ok → l.notJustNode = true → (l.expr : Expr F).isJustNode = false
  | .path p, _, _ => by cases p <;> simp [CoreList.expr, CorePath.expr, Expr.isJustNode]
  | .last .texts, _, _ | .last (.attr _), _, _ | .last .attrs, _, _ => rfl
  | .last .nodes, _, h => by cases h
  | .after .., _, _ | .allTexts _, _, _ | .abs _, _, _ | .anywhere _, _, _ => rfl

theorem list_gives (E : Env F) (hd : E.doc.NoEmptyText) (hdict : E.doc.Dicts) (n : Nat) {l : CoreList} (hl : l.Ok) {u : Spot} (hu : E.doc.Place u) :
    ∃ fs : List Found, E.Yields n l.expr u.item (fs.map Found.item) ∧ l.Gives E.doc u fs := by
  -- a choice of lists for a step
  have choose : ∀ {r : Expr F} {R : Spot → List Found → Prop},
      (∀ w, E.doc.Place w → ∃ fs : List Found, E.Yields n r w.item (fs.map Found.item) ∧ R w fs) →
      ∃ g : Spot → List Found, ∀ w, E.doc.Place w → E.Yields n r w.item ((g w).map Found.item) ∧ R w (g w) := by
    intro r R h
    refine Classical.axiomOfChoice (r := fun w fs => E.doc.Place w → E.Yields n r w.item (fs.map Found.item) ∧ R w fs) fun w => ?_
    by_cases hw : E.doc.Place w
    · obtain ⟨fs, h⟩ := h w hw
      exact ⟨fs, fun _ => h⟩
    · exact ⟨[], fun h => absurd h hw⟩
  have along : ∀ {u : Spot} {p : CorePath} {r : Expr F} {R : Spot → List Found → Prop}, E.doc.Place u → p.Ok →
      (∀ w, E.doc.Place w → ∃ fs : List Found, E.Yields n r w.item (fs.map Found.item) ∧ R w fs) →
      ∃ fs : List Found, E.Yields n (.slash p.expr r) u.item (fs.map Found.item) ∧ ∃ vs, p.Gives E.doc u vs ∧ InTurn R vs fs := by
    intro u p r R hu hp h
    obtain ⟨ws, h1, h2⟩ := path_gives E hd hdict n p hp u hu
    have hpl : ∀ w ∈ ws, E.doc.Place w := fun w hw => leads_place p hu ((gives_leads p h2 w).1 hw)
    obtain ⟨g, hg⟩ := choose h
    refine ⟨ws.flatMap g, ?_, ws, h2, inTurn_flatMap fun w hw => (hg w (hpl w hw)).2⟩
    rw [List.map_flatMap]
    exact after_list E n h1 hpl _ fun w hw => (hg w hw).1
  induction l generalizing u with
  | path p =>
    obtain ⟨vs, h1, h2⟩ := path_gives E hd hdict n p hl u hu
    exact ⟨vs.map .node, by rw [← spots_found]; exact h1, vs, h2, rfl⟩
  | last e => exact end_gives E hd hdict n hl hu
  | after p e => exact along hu hl.1 fun w hw => end_gives E hd hdict n hl.2 hw
  | allTexts p =>
    obtain ⟨fs, h1, h2⟩ := along (u := u) (p := p) (r := .step .descendantOrSelf .text)
      (R := fun w xs => ∃ qs : List Path, xs = qs.map (fun q => .node (.at q)) ∧ w.AxisList .descendantOrSelf E.doc.TextAt qs) hu hl fun w hw => by
        obtain ⟨qs, h1, h2⟩ := deepTexts_list E hd n hw
        exact ⟨_, by rw [← map_found]; exact h1, qs, rfl, h2⟩
    refine ⟨fs, ?_, h2⟩
    rw [CoreList.expr, Env.Yields, run_dslash]
    exact h1
  | abs l ih =>
    obtain ⟨fs, h1, h2⟩ := ih hl.1 (u := .root) trivial
    refine ⟨fs, ?_, h2⟩
    rw [CoreList.expr, Env.Yields, run_abs, spot_getRoot hu, bind_one, notJustNode_expr hl.1 hl.2,
      show E.run n l.expr .root = _ from h1]
    rfl
  | anywhere e ih =>
    have hex : ∀ q : Path, ∃ fs : List Found, (E.doc.ElemAt q → e.Gives E.doc (.at q) fs) ∧ (¬ E.doc.ElemAt q → fs = []) ∧
        (E.doc.Has q → E.Yields n e.expr (.node q) (fs.map Found.item)) := by
      intro q
      by_cases hq : E.doc.ElemAt q
      · obtain ⟨fs, h1, h2⟩ := ih hl.1 (u := .at q) hq
        exact ⟨fs, fun _ => h2, fun h => absurd hq h, fun _ => h1⟩
      · refine ⟨[], fun h => absurd h hq, fun _ => rfl, fun ⟨x, hx⟩ => ?_⟩
        cases x with
        | elem m as cs => exact absurd ⟨m, as, cs, hx⟩ hq
        | text s => exact list_text E n hx hl.2.1
    obtain ⟨g, hg⟩ := Classical.axiomOfChoice hex
    obtain ⟨fs, h1, h2⟩ := ih hl.1 (u := .root) trivial
    have hhas : ∀ q, q ∈ [] :: E.doc.under [] ↔ E.doc.Has q := by
      intro q
      rw [List.mem_cons, mem_under (p := []) rfl]
      constructor
      · rintro (rfl | h)
        · exact ⟨_, rfl⟩
        · exact h.2
      · intro h
        cases q with
        | nil => exact .inl rfl
        | cons i q => exact .inr ⟨⟨i :: q, by simp, rfl⟩, h⟩
    have hord : ([] :: E.doc.under []).Pairwise docLt := by
      refine List.pairwise_cons.2 ⟨?_, under_order.1 _ _⟩
      intro q hq
      obtain ⟨r, y, h1, h2, _⟩ := (under_mem.1 _ _ _).1 hq
      cases r with
      | nil => exact absurd rfl h1
      | cons i r => rw [h2]; trivial
    classical
    refine ⟨fs ++ ([] :: E.doc.under []).flatMap g, ?_, ?_⟩
    · have hj : (e.expr : Expr F).isJustNode = false := notJustNode_expr hl.1 hl.2.2
      rw [CoreList.expr, Env.Yields, run_absAll, spot_getRoot hu, bind_one, hj]
      rw [show E.run n e.expr .root = _ from h1]
      have hb := bindList_done (f := fun z => E.run n e.expr (z.orElse E.fo E.doc u.item))
        (g := fun z => match z with | .node q => (g q).map Found.item | _ => []) (.done : Tail) (([] :: E.doc.under []).map .node) (by
          intro y hy
          obtain ⟨q, hq, rfl⟩ := List.mem_map.1 hy
          rw [orElse_truthy (truthy_node E.fo hd q)]
          exact (hg q).2.2 ((hhas q).1 hq))
      simp only [Item.below]
      rw [show (Item.node [] :: (E.doc.under []).map .node : List (Item F)) = ([] :: E.doc.under []).map .node from rfl, hb,
        List.flatMap_map, List.map_append, List.map_flatMap]
      rfl
    · refine ⟨([] :: E.doc.under []).filter fun q => decide (E.doc.ElemAt q), ⟨hord.filter _, fun q => ?_⟩, fs, _, rfl, h2, ?_⟩
      · rw [List.mem_filter, hhas, decide_eq_true_iff]
        exact ⟨fun h => h.2, fun h => ⟨h.has, h⟩⟩
      · have hf : ∀ l : List Path, InTurn (e.Gives E.doc) ((l.filter fun q => decide (E.doc.ElemAt q)).map Spot.at) (l.flatMap g) := by
          intro l
          induction l with
          | nil => rfl
          | cons q l ih =>
            by_cases hq : E.doc.ElemAt q
            · rw [List.filter_cons_of_pos (by simpa using hq), List.map_cons]
              exact ⟨g q, _, by simp, (hg q).1 hq, ih⟩
            · rw [List.filter_cons_of_neg (by simpa using hq), List.flatMap_cons, (hg q).2.1 hq]
              exact ih
        exact hf _

theorem list_unique {doc : Node} (hdict : doc.Dicts) {l : CoreList} (hl : l.Ok) {u : Spot} {fs gs : List Found} (h : l.Gives doc u fs)
    (h' : l.Gives doc u gs) : fs = gs := by
  induction l generalizing u fs gs with
  | path p =>
    obtain ⟨vs, h, rfl⟩ := h
    obtain ⟨ws, h', rfl⟩ := h'
    rw [gives_unique p hl h h']
  | last e => exact end_unique (e := e) hdict h h'
  | after p e =>
    obtain ⟨vs, h1, h2⟩ := h
    obtain ⟨ws, h3, h4⟩ := h'
    rw [gives_unique p hl.1 h1 h3] at h2
    exact inTurn_unique (R := e.Gives doc) (fun w xs ys hx hy => end_unique hdict hx hy) h2 h4
  | allTexts p =>
    obtain ⟨vs, h1, h2⟩ := h
    obtain ⟨ws, h3, h4⟩ := h'
    rw [gives_unique p hl h1 h3] at h2
    refine inTurn_unique ?_ h2 h4
    rintro w xs ys ⟨qs, rfl, h⟩ ⟨rs, rfl, h'⟩
    rw [axisList_unique h h']
  | abs l ih => exact ih hl.1 (u := .root) h h'
  | anywhere l ih =>
    obtain ⟨vs, h1, h2⟩ := h
    obtain ⟨ws, h3, h4⟩ := h'
    rw [elemList_unique h1.1 h1.2 h3.1 h3.2] at h2
    exact inTurn_unique (R := l.Gives doc) (fun w xs ys hx hy => ih hl.1 hx hy) h2 h4

/-! ### C164 -/

theorem found_inj : ∀ {f g : Found}, (f.item : Item F) = g.item → f = g := by
  intro f g h
  cases f with
  | node u =>
    cases g with
    | node v => rw [spot_item_inj h]
    | attr p k v => cases u <;> cases h
  | attr p k v =>
    cases g with
    | node v => cases v <;> cases h
    | attr p k v => cases h; rfl

/-- C164: queries for texts, nodes and attributes yield exactly the list they give, in this order. -/
theorem C164_exactly (E : Env F) (hd : E.doc.NoEmptyText) (hdict : E.doc.Dicts) (n : Nat) {l : CoreList} (hl : l.Ok) {u : Spot} (hu : E.doc.Place u)
    (ys : List (Item F)) : E.Yields n l.expr u.item ys ↔ ∃ fs : List Found, l.Gives E.doc u fs ∧ ys = fs.map Found.item := by
  obtain ⟨fs, h1, h2⟩ := list_gives E hd hdict n hl hu
  constructor
  · intro h
    refine ⟨fs, h2, ?_⟩
    rw [Env.Yields] at h h1
    rw [h] at h1
    cases h1
    rfl
  · rintro ⟨gs, h3, rfl⟩
    rw [list_unique hdict hl h3 h2]
    exact h1

/-- C164: there is one such list. -/
theorem C164_one_list {doc : Node} (hd : doc.NoEmptyText) (hdict : doc.Dicts) {l : CoreList} (hl : l.Ok) {u : Spot} (hu : doc.Place u) :
    ∃ fs : List Found, ∀ gs, l.Gives doc u gs ↔ gs = fs := by
  obtain ⟨fs, _, h2⟩ := list_gives (queryEnv noFloats (fun _ => none) doc) hd hdict 0 hl hu
  exact ⟨fs, fun gs => ⟨fun h => list_unique hdict hl h h2, fun h => h ▸ h2⟩⟩

theorem strVal_found (E : Env F) (f : Found) : E.strVal f.item = E.doc.valueOf f := by
  cases f with
  | node v => exact strVal_spot E v
  | attr p k v => rfl

/-- C164: `count` is the length of the list, `string` the text of the first thing found or the empty string. -/
theorem C164_count_and_string (E : Env F) (hd : E.doc.NoEmptyText) (hdict : E.doc.Dicts) (n : Nat) {l : CoreList} (hl : l.Ok) {u : Spot} (hu : E.doc.Place u)
    {fs : List Found} (h : l.Gives E.doc u fs) :
    E.Yields n (.call "count".toList [l.expr]) u.item [.int fs.length] ∧
    ∃ r, E.Yields n (.call "string".toList [l.expr]) u.item [r] ∧ E.strVal r = E.doc.firstValue fs := by
  have hy := (C164_exactly E hd hdict n hl hu _).2 ⟨fs, h, rfl⟩
  refine ⟨?_, ?_⟩
  · have := C54_count E n l.expr u.item _ hy
    rwa [List.length_map] at this
  · obtain ⟨r, h1, h2⟩ := C55_string E n l.expr u.item _ hy
    refine ⟨r, h1, h2.trans ?_⟩
    cases fs with
    | nil => rfl
    | cons f fs => exact strVal_found E f

/-- C164: `name` is the name of the first element found, and the empty string if there is none or it is the root. -/
theorem C164_name (E : Env F) (hd : E.doc.NoEmptyText) (hdict : E.doc.Dicts) (n : Nat) {p : CorePath} (hp : p.Ok) {u : Spot} (hu : E.doc.Place u)
    {vs : List Spot} (h : p.Gives E.doc u vs) {m : Str} (hm : E.doc.FirstName vs m) :
    E.Yields n (.call "name".toList [p.expr]) u.item [.str m] := by
  have hy : E.run n p.expr u.item = ⟨vs.map Spot.item, .done⟩ := (C162_exactly E hd hdict n hp hu _).2 ⟨vs, h, rfl⟩
  rw [Env.Yields, run_name, List.map_cons, List.map_nil, fnName, hy]
  cases vs with
  | nil => rw [show m = [] from hm]; rfl
  | cons v vs =>
    cases v with
    | root => rw [show m = [] from hm]; rfl
    | «at» q =>
      obtain ⟨as, cs, hq⟩ := (show E.doc.Named m q from hm)
      show Res.one (Item.str ((Item.node q : Item F).nameOf E.doc)) = _
      rw [Item.nameOf, hq]
      rfl

/-- C164: the text of such a query on the text of a document. -/
theorem C164_on_a_text (fo : FloatOps F) (vars : Str → Option (Item F)) (n : Nat) {e : Node} {w : Str} (h : IsDoc e w)
    {s : Str} {l : CoreList} (hl : l.Ok) (hs : X.xparse fo s = some (.ok l.expr)) {fs : List Found} (hf : l.Gives e .root fs) (a : Answer F) :
    QQuery fo vars n (.str w) (.str s) a ↔ a = .items e ⟨fs.map Found.item, .done⟩ := by
  have h1 := (C164_exactly (queryEnv fo vars e) (doc_noEmpty h) (fun p m as cs hp => doc_dicts h hp) n hl (u := .root) trivial _).2 ⟨fs, hf, rfl⟩
  rw [C83_query_of_a_text fo vars n h hs, show (queryEnv fo vars e).run n l.expr .root = _ from h1]

/-- C164: the method `xml_xpath` of an element; from the document element the query starts at the root. -/
theorem C164_from_an_element (fo : FloatOps F) (vars : Str → Option (Item F)) (n : Nat) {e : Node} {w : Str} (h : IsDoc e w) {q : Path}
    (hq : e.ElemAt q) {s : Str} {l : CoreList} (hl : l.Ok) (hs : X.xparse fo s = some (.ok l.expr)) {fs : List Found}
    (hf : l.Gives e (if q = [] then .root else .at q) fs) : xmlXPath fo vars n e q (.str s) = ⟨fs.map Found.item, .done⟩ := by
  have h1 := (C164_exactly (queryEnv fo vars e) (doc_noEmpty h) (fun p m as cs hp => doc_dicts h hp) n hl
    (u := if q = [] then .root else .at q) (by split <;> first | trivial | exact hq) _).2 ⟨fs, hf, rfl⟩
  simp only [xmlXPath, parseText_eq hs, contextItem]
  rw [← h1]
  by_cases hq' : q = [] <;> simp only [hq', if_true, if_false] <;> rfl

/-! ### what is printed -/

/-- Something that can be printed. -/
def Found.Printable (doc : Node) : Found → Prop
  | .node .root => False
  | .node (.at q) => doc.Has q
  | .attr _ _ _ => True

theorem line_found (E : Env F) {f : Found} (h : f.Printable E.doc) (l : Str) : E.doc.LineOf f l ↔ l = E.line f.item := by
  match f, h with
  | .attr p k v, _ => exact Iff.rfl
  | .node (.at q), ⟨x, hx⟩ =>
    have hl : E.line (Found.node (.at q)).item = (match E.doc.at? q with | some (.text s) => s | some x => x.encode | none => []) := rfl
    rw [hl, Node.LineOf, hx]
    cases x with
    | text s =>
      constructor
      · rintro (h | ⟨m, as, cs, h, _⟩)
        · cases h; rfl
        · cases h
      · rintro rfl; exact .inl rfl
    | elem m as cs =>
      constructor
      · rintro (h | ⟨m, as, cs, h, rfl⟩)
        · cases h
        · cases h; rfl
      · rintro rfl; exact .inr ⟨m, as, cs, rfl, rfl⟩

theorem lines_found (E : Env F) : ∀ {fs : List Found}, (∀ f ∈ fs, f.Printable E.doc) → ∀ ls : List Str,
    E.doc.LinesOf fs ls ↔ ls = (fs.map Found.item).map E.line
  | [], _, ls => Iff.rfl
  | f :: fs, h, ls => by
    have ih := lines_found E (fs := fs) fun g hg => h g (by simp [hg])
    have hl := line_found E (h f (by simp))
    rw [Node.LinesOf, List.map_cons, List.map_cons]
    constructor
    · rintro ⟨l, ls', rfl, h1, h2⟩
      rw [(hl l).1 h1, (ih ls').1 h2]
    · rintro rfl
      exact ⟨_, _, rfl, (hl _).2 rfl, (ih _).2 rfl⟩

theorem inTurn_each {α : Type} {R : Spot → List α → Prop} {P : α → Prop} : ∀ {ws : List Spot} {vs : List α},
    (∀ w xs, R w xs → ∀ x ∈ xs, P x) → InTurn R ws vs → ∀ v ∈ vs, P v
  | [], vs, _, h, v, hv => by rw [InTurn] at h; subst h; cases hv
  | w :: ws, vs, hg, h, v, hv => by
    obtain ⟨xs, ys, rfl, h1, h2⟩ := h
    rcases List.mem_append.1 hv with hv | hv
    · exact hg w xs h1 v hv
    · exact inTurn_each hg h2 v hv

theorem inTurn_each_of {α : Type} {R : Spot → List α → Prop} {P : α → Prop} {Q : Spot → Prop} : ∀ {ws : List Spot} {vs : List α},
    (∀ w ∈ ws, Q w) → (∀ w, Q w → ∀ xs, R w xs → ∀ x ∈ xs, P x) → InTurn R ws vs → ∀ v ∈ vs, P v
  | [], vs, _, _, h, v, hv => by rw [InTurn] at h; subst h; cases hv
  | w :: ws, vs, hq, hg, h, v, hv => by
    obtain ⟨xs, ys, rfl, h1, h2⟩ := h
    rcases List.mem_append.1 hv with hv | hv
    · exact hg w (hq w (by simp)) xs h1 v hv
    · exact inTurn_each_of (fun x hx => hq x (by simp [hx])) hg h2 v hv

theorem end_printable {doc : Node} {e : CoreEnd} {u : Spot} {fs : List Found} (h : e.Gives doc u fs) : ∀ f ∈ fs, f.Printable doc := by
  intro f hf
  cases e with
  | texts =>
    obtain ⟨qs, rfl, h⟩ := h
    obtain ⟨q, hq, rfl⟩ := List.mem_map.1 hf
    obtain ⟨_, s, hs⟩ := (h.2 q).1 hq
    exact ⟨_, hs⟩
  | nodes =>
    obtain ⟨qs, rfl, h⟩ := h
    obtain ⟨q, hq, rfl⟩ := List.mem_map.1 hf
    exact ((h.2 q).1 hq).2
  | attr k =>
    rcases h with ⟨p, v, rfl, hv, rfl⟩ | ⟨hv, rfl⟩
    · rw [List.mem_singleton.1 hf]; trivial
    · cases hf
  | attrs =>
    cases u with
    | root => rw [show fs = [] from h] at hf; cases hf
    | «at» p =>
      obtain ⟨m, as, cs, hp, rfl⟩ := h
      obtain ⟨kv, _, rfl⟩ := List.mem_map.1 hf
      trivial

theorem list_printable {doc : Node} {l : CoreList} (hl : l.Ok) (hn : l.neverRoot = true) {u : Spot} (hu : doc.Place u) {fs : List Found} (h : l.Gives doc u fs) :
    ∀ f ∈ fs, f.Printable doc := by
  induction l generalizing u fs with
  | path p =>
    obtain ⟨vs, h, rfl⟩ := h
    intro f hf
    obtain ⟨v, hv, rfl⟩ := List.mem_map.1 hf
    have hv := (gives_leads p h v).1 hv
    cases v with
    | root => exact leads_no_root p hn hv
    | «at» q => exact (show doc.ElemAt q from leads_place p hu hv).has
  | last e => exact end_printable (e := e) h
  | after p e =>
    obtain ⟨vs, _, h⟩ := h
    exact inTurn_each (R := e.Gives doc) (fun w xs hx => end_printable hx) h
  | allTexts p =>
    obtain ⟨vs, _, h⟩ := h
    refine inTurn_each ?_ h
    rintro w xs ⟨qs, rfl, h⟩ f hf
    obtain ⟨q, hq, rfl⟩ := List.mem_map.1 hf
    obtain ⟨_, s, hs⟩ := (h.2 q).1 hq
    exact ⟨_, hs⟩
  | abs l ih => exact ih hl.1 hn (u := .root) trivial h
  | anywhere l ih =>
    obtain ⟨es, he, h⟩ := h
    have hpl : ∀ w ∈ Spot.root :: es.map Spot.at, doc.Place w := by
      intro w hw
      rcases List.mem_cons.1 hw with rfl | hw
      · trivial
      · obtain ⟨q, hq, rfl⟩ := List.mem_map.1 hw
        exact (he.2 q).1 hq
    exact inTurn_each_of hpl (R := l.Gives doc) (fun w hw xs hx => ih hl.1 hn hw hx) h

theorem printable_no_root {doc : Node} {fs : List Found} (h : ∀ f ∈ fs, f.Printable doc) : (Item.root : Item F) ∉ fs.map Found.item := by
  intro hr
  obtain ⟨f, hf, he⟩ := List.mem_map.1 hr
  match f, h f hf, he with
  | .node (.at q), _, he => cases he
  | .attr _ _ _, _, he => cases he

/-- What a query yields at a place, and the lines for it. -/
theorem query_prints (E : Env F) (hd : E.doc.NoEmptyText) (hdict : E.doc.Dicts) (n : Nat) {q : CoreQuery} (hq : q.Fine) {u : Spot} (hu : E.doc.Place u) :
    ∃ ys, E.Yields n q.expr u.item ys ∧ .root ∉ ys ∧ ∀ ls, q.Prints E.doc u ls ↔ ls = ys.map E.line := by
  cases q with
  | list l =>
    have hl : l.Ok := hq.1
    obtain ⟨fs, h1, h2⟩ := list_gives E hd hdict n hl hu
    have hp := list_printable hq.1 hq.2 hu h2
    refine ⟨_, h1, printable_no_root hp, fun ls => ?_⟩
    constructor
    · rintro ⟨gs, h3, h4⟩
      rw [list_unique hdict hl h3 h2] at h4
      exact (lines_found E hp ls).1 h4
    · rintro rfl
      exact ⟨fs, h2, (lines_found E hp _).2 rfl⟩
  | count l =>
    obtain ⟨fs, _, h2⟩ := list_gives E hd hdict n hq hu
    refine ⟨_, (C164_count_and_string E hd hdict n hq hu h2).1, by simp, fun ls => ?_⟩
    constructor
    · rintro ⟨gs, h3, rfl⟩
      rw [list_unique hdict hq h3 h2]
      rfl
    · rintro rfl
      exact ⟨fs, h2, rfl⟩
  | string l =>
    obtain ⟨fs, h1, h2⟩ := list_gives E hd hdict n hq hu
    obtain ⟨r, h3, h4⟩ := (C164_count_and_string E hd hdict n hq hu h2).2
    -- the item is a string, or a text node, which is printed as its characters
    have hr : r ≠ .root ∧ E.line r = E.strVal r := by
      have h5 := h3
      rw [Env.Yields, run_string, show E.run n l.expr u.item = _ from h1] at h5
      cases fs with
      | nil =>
        have : (⟨[.str []], .done⟩ : Res F) = ⟨[r], .done⟩ := h5
        cases this
        exact ⟨by simp, rfl⟩
      | cons f fs =>
        have h6 : r = (f.item : Item F).toStrItem E.fo E.doc := by
          have : Res.one ((f.item : Item F).toStrItem E.fo E.doc) = ⟨[r], .done⟩ := h5
          cases this; rfl
        rw [h6, Item.toStrItem]
        split
        · next h7 =>
          match f, h7 with
          | .node (.at q), h7 =>
            refine ⟨by simp [Found.item, Spot.item], ?_⟩
            simp only [Found.item, Spot.item, Item.strOf, Item.textOf] at h7
            simp only [Found.item, Spot.item, Env.line, Env.strVal]
            split at h7
            · next s hs => rw [hs]; simp [Node.texts]
            · cases h7
        · exact ⟨by simp, rfl⟩
    refine ⟨_, h3, by simpa [eq_comm] using hr.1, fun ls => ?_⟩
    rw [List.map_singleton, hr.2, h4]
    constructor
    · rintro ⟨gs, h5, rfl⟩
      rw [list_unique hdict hq h5 h2]
    · rintro rfl
      exact ⟨fs, h2, rfl⟩
  | name p =>
    obtain ⟨vs, _, h2⟩ := path_gives E hd hdict n p hq u hu
    have hm : ∃ m, E.doc.FirstName vs m ∧ ∀ m', E.doc.FirstName vs m' → m' = m := by
      cases vs with
      | nil => exact ⟨[], rfl, fun m' h => h⟩
      | cons v vs =>
        cases v with
        | root => exact ⟨[], rfl, fun m' h => h⟩
        | «at» q =>
          obtain ⟨m, as, cs, h⟩ := (show E.doc.ElemAt q from leads_place p hu ((gives_leads p h2 (.at q)).1 (by simp)))
          refine ⟨m, ⟨as, cs, h⟩, ?_⟩
          rintro m' ⟨as', cs', h'⟩
          rw [h] at h'
          cases h'
          rfl
    obtain ⟨m, hm, hu'⟩ := hm
    refine ⟨_, C164_name E hd hdict n hq hu h2 hm, by simp, fun ls => ?_⟩
    constructor
    · rintro ⟨ws, h3, m', rfl, h4⟩
      cases gives_unique p hq h3 h2
      rw [hu' m' h4]
      rfl
    · rintro rfl
      exact ⟨vs, h2, m, rfl, hm⟩

theorem inTurn_lines {R : Spot → List Str → Prop} {g : Item F → List Str} : ∀ {ws : List Spot} {ls : List Str},
    (∀ w ∈ ws, ∀ xs, R w xs → xs = g w.item) → InTurn R ws ls → ls = (ws.map Spot.item).flatMap g
  | [], ls, _, h => by rw [InTurn] at h; rw [h]; rfl
  | w :: ws, ls, hg, h => by
    obtain ⟨xs, ys, rfl, h1, h2⟩ := h
    rw [List.map_cons, List.flatMap_cons, hg w (by simp) xs h1, inTurn_lines (fun w hw => hg w (by simp [hw])) h2]

/-- What the command does with one document. -/
theorem value_process (fo : FloatOps F) (n : Nat) (a : MicroxArgs) {k : AskValue} (hk : k.Fine) (hs : k.SaidBy fo a) :
    ∃ cmd fe, a.command.parse fo = .ok cmd ∧ parseForeach fo a.foreach = .ok fe ∧
      ∀ {d : Node}, d.isText = false → d.NoEmptyText → d.Dicts → ∀ {ls}, k.Lines d ls →
        processPartition fo n a.showAttrs cmd fe d = ⟨ls, .done⟩ := by
  have nofe : (a.foreach = none ∨ a.foreach = some []) → parseForeach fo a.foreach = .ok (none : Option (Expr F)) := by
    rintro (h | h) <;> rw [h] <;> rfl
  have somefe : ∀ {t e}, a.foreach = some t → t ≠ [] → X.xparse fo t = some (.ok e) → parseForeach fo a.foreach = .ok (some e) := by
    intro t e h ht he
    rw [h]
    exact foreachIs_parse (.some ht (parseText_eq he))
  -- what the query yields at a place
  have items : ∀ {d : Node}, d.NoEmptyText → d.Dicts → ∀ {q : CoreQuery}, q.Fine → ∃ g : Item F → List (Item F), ∀ w : Spot, d.Place w →
      (queryEnv fo (fun _ => none) d).Yields n q.expr w.item (g w.item) ∧ .root ∉ g w.item ∧
      ∀ xs, q.Prints d w xs → xs = (g w.item).map (queryEnv fo (fun _ => none) d).line := by
    intro d hd hdict q hq
    refine ⟨fun y => ((queryEnv fo (fun _ => none) d).run n q.expr y).items, fun w hw => ?_⟩
    obtain ⟨ys, h1, h2, h3⟩ := query_prints (queryEnv fo (fun _ => none) d) hd hdict n hq hw
    have h1' : (queryEnv fo (fun _ => none) d).run n q.expr w.item = ⟨ys, .done⟩ := h1
    refine ⟨by rw [Env.Yields]; simp only [h1'], by simp only [h1']; exact h2, fun xs hx => ?_⟩
    simp only [h1']
    exact (h3 xs).1 hx
  cases k with
  | expr q =>
    obtain ⟨s, h1, h2, h3⟩ := hs
    refine ⟨.expr q.expr, none, by rw [h1, Command.parse, parseText_eq h2]; rfl, nofe h3, fun {d} ht hd hdict {ls} hl => ?_⟩
    obtain ⟨ys, hy, hr, hp⟩ := query_prints (queryEnv fo (fun _ => none) d) hd hdict n hk (u := .root) trivial
    rw [(hp ls).1 hl]
    exact (C63_expr (queryEnv fo (fun _ => none) d) n q.expr _ _ hy).1 hr
  | every q =>
    obtain ⟨s, h1, h2, h3⟩ := hs
    refine ⟨.match_ q.expr, none, by rw [h1, Command.parse, parseText_eq h2]; rfl, nofe h3, fun {d} ht hd hdict {ls} ⟨es, hes, hl⟩ => ?_⟩
    obtain ⟨g, hg⟩ := items hd hdict hk
    obtain ⟨ps, k1, k2, _, k3, _⟩ := C63_match_partial (queryEnv fo (fun _ => none) d) ht n q.expr (fun q => g (.node q))
      (fun q hq => (hg (.at q) hq).1)
    cases elemList_unique k2 k1 hes.1 hes.2
    refine (k3 fun q hq => (hg (.at q) hq).2.1).trans ?_
    rw [inTurn_lines (g := fun y => (g y).map (queryEnv fo (fun _ => none) d).line) (fun w hw xs hx => (hg w (by
      obtain ⟨q, rfl, hq⟩ := mem_at.1 hw
      exact (k1 q).1 hq)).2.2 xs hx) hl, List.map_map, List.flatMap_map]
    rfl
  | exprEach p q =>
    obtain ⟨s, t, h1, h2, h3, h4, h5⟩ := hs
    refine ⟨.expr p.expr, some q.expr, by rw [h1, Command.parse, parseText_eq h2]; rfl, somefe h3 h4 h5, fun {d} ht hd hdict {ls} ⟨ws, hw, hl⟩ => ?_⟩
    have hwp : ∀ w ∈ ws, d.Place w := fun w h => leads_place p (u := .root) trivial ((gives_leads p hw w).1 h)
    obtain ⟨g, hg⟩ := items hd hdict hk.2
    have hy := (C162_exactly (queryEnv fo (fun _ => none) d) hd hdict n hk.1 (u := .root) trivial _).2 ⟨ws, hw, rfl⟩
    have := (C63_expr (queryEnv fo (fun _ => none) d) n p.expr _ _ hy).2 q.expr g (fun y hy' => by
      obtain ⟨w, hw', rfl⟩ := List.mem_map.1 hy'
      exact ⟨(hg w (hwp w hw')).1, (hg w (hwp w hw')).2.1⟩)
    rw [inTurn_lines (g := fun y => (g y).map (queryEnv fo (fun _ => none) d).line) (fun w hw' xs hx => (hg w (hwp w hw')).2.2 xs hx) hl]
    exact this
  | everyEach p q =>
    obtain ⟨s, t, h1, h2, h3, h4, h5⟩ := hs
    refine ⟨.match_ p.expr, some q.expr, by rw [h1, Command.parse, parseText_eq h2]; rfl, somefe h3 h4 h5,
      fun {d} ht hd hdict {ls} ⟨es, ws, hes, hw, hl⟩ => ?_⟩
    have hep : ∀ w ∈ es.map Spot.at, d.Place w := by
      intro w hw
      obtain ⟨q, rfl, hq⟩ := mem_at.1 hw
      exact (hes.2 q).1 hq
    have hwp : ∀ w ∈ ws, d.Place w := inTurn_all (P := d.Place) (fun w hw xs hx v hv => leads_place p (hep w hw) ((gives_leads p hx v).1 hv)) hw
    obtain ⟨g, hg⟩ := items hd hdict hk.2
    have hf : ∀ w, d.Place w → ∃ vs : List Spot, (queryEnv fo (fun _ => none) d).run n p.expr w.item = ⟨vs.map Spot.item, .done⟩ ∧ p.Gives d w vs :=
      fun w hw => path_gives (queryEnv fo (fun _ => none) d) hd hdict n p hk.1 w hw
    let f : Item F → List (Item F) := fun y => ((queryEnv fo (fun _ => none) d).run n p.expr y).items
    have hf1 : ∀ w, d.Place w → ∀ vs, p.Gives d w vs → f w.item = vs.map Spot.item := by
      intro w hw vs hv
      obtain ⟨vs', h6, h7⟩ := hf w hw
      show ((queryEnv fo (fun _ => none) d).run n p.expr w.item).items = _
      rw [h6, gives_unique p hk.1 hv h7]
    obtain ⟨ps, k1, k2, _, _, k3⟩ := C63_match_partial (queryEnv fo (fun _ => none) d) ht n p.expr (fun q => f (.node q))
      (fun q hq => by
        obtain ⟨vs, h6, h7⟩ := hf (.at q) hq
        rw [Env.Yields, show f (.node q) = _ from hf1 (.at q) hq vs h7]
        exact h6)
    cases elemList_unique k2 k1 hes.1 hes.2
    have := k3 q.expr g (fun r hr y hy => by
      obtain ⟨vs, _, h7⟩ := hf (.at r) hr
      rw [show f (.node r) = _ from hf1 (.at r) hr vs h7] at hy
      obtain ⟨w, hw', rfl⟩ := List.mem_map.1 hy
      have hwp : d.Place w := leads_place p (u := .at r) hr ((gives_leads p h7 w).1 hw')
      exact ⟨(hg w hwp).1, (hg w hwp).2.1⟩)
    rw [inTurn_lines (g := fun y => (g y).map (queryEnv fo (fun _ => none) d).line) (fun w hw' xs hx => (hg w (hwp w hw')).2.2 xs hx) hl, ← inTurn_items (g := f) (fun w hw' xs hx => hf1 w (hep w hw') xs hx) hw]
    refine Eq.trans this ?_
    rw [List.map_map, List.flatMap_map, List.flatMap_assoc]
    rfl

theorem valueLines_inTurn {k : AskValue} {process : Node → Printed} : ∀ {ds : List Node} {ls : List Str},
    (∀ d ∈ ds, ∀ l, k.Lines d l → process d = ⟨l, .done⟩) → k.AllLines ds ls → printedInTurn process ds = ⟨ls, .tail .done⟩
  | [], ls, _, h => by rw [AskValue.AllLines] at h; subst h; rfl
  | d :: ds, ls, hp, h => by
    obtain ⟨l, ls', rfl, h1, h2⟩ := h
    rw [inTurn_cons, hp d (by simp) l h1, valueLines_inTurn (fun d hd => hp d (by simp [hd])) h2]
    rfl

/-- C164: what the tool prints for one source. -/
theorem C164_microx_one_source (fo : FloatOps F) (n : Nat) (a : MicroxArgs) (hp : a.partition = none) {k : AskValue} (hk : k.Fine) (hs : k.SaidBy fo a)
    {s : List XCall × Bool} {d : Node} (hd : SourceOf s d) (hne : d.NoEmptyText) (hdict : d.Dicts) {ls : List Str} (hl : k.Lines d ls)
    (out : RunOut) : MicroxRun fo n a [s] out ↔ out = ⟨ls, .tail .done⟩ := by
  obtain ⟨cmd, fe, h1, h2, h3⟩ := value_process fo n a hk hs
  rw [C94_one_source_partial fo n a hp h1 h2 hd]
  rw [valueLines_inTurn (k := k) (ds := [d]) (ls := ls)
    (fun d' hd' l hl => by rw [List.mem_singleton.1 hd'] at hl ⊢; exact h3 hd.1 hne hdict hl) ⟨ls, [], by simp, hl, rfl⟩]

/-- C164: there is exactly one such list of lines. -/
theorem C164_lines_exist {d : Node} (ht : d.isText = false) (hne : d.NoEmptyText) (hdict : d.Dicts) {k : AskValue} (hk : k.Fine) :
    ∃ ls, ∀ ls', k.Lines d ls' ↔ ls' = ls := by
  let E : Env NoF := queryEnv noFloats (fun _ => none) d
  obtain ⟨es, hes⟩ := allElements_of ht
  have uniqE : ∀ es', d.AllElements es' → es' = es := fun es' h => elemList_unique h.1 h.2 hes.1 hes.2
  have hep : ∀ w ∈ es.map Spot.at, d.Place w := by
    intro w hw
    obtain ⟨q, rfl, hq⟩ := mem_at.1 hw
    exact (hes.2 q).1 hq
  have one : ∀ {q : CoreQuery}, q.Fine → ∀ {u : Spot}, d.Place u → ∃ ls, ∀ ls', q.Prints d u ls' ↔ ls' = ls := fun {q} hq {u} hu => by
    obtain ⟨ys, _, _, h⟩ := query_prints E hne hdict 0 hq hu
    exact ⟨_, h⟩
  have turn : ∀ {q : CoreQuery}, q.Fine → ∀ {ws : List Spot}, (∀ w ∈ ws, d.Place w) → ∃ ls, ∀ ls', InTurn (q.Prints d) ws ls' ↔ ls' = ls := by
    intro q hq ws
    induction ws with
    | nil => intro _; exact ⟨[], fun ls' => Iff.rfl⟩
    | cons w ws ih =>
      intro hw
      obtain ⟨xs, hx⟩ := one hq (hw w (by simp))
      obtain ⟨ys, hy⟩ := ih fun w h => hw w (by simp [h])
      refine ⟨xs ++ ys, fun ls' => ⟨?_, ?_⟩⟩
      · rintro ⟨xs', ys', rfl, h1, h2⟩
        rw [(hx xs').1 h1, (hy ys').1 h2]
      · rintro rfl
        exact ⟨xs, ys, rfl, (hx xs).2 rfl, (hy ys).2 rfl⟩
  cases k with
  | expr q => exact one hk (u := .root) trivial
  | every q =>
    obtain ⟨ls, h⟩ := turn hk hep
    refine ⟨ls, fun ls' => ⟨?_, fun h' => ⟨es, hes, (h ls').2 h'⟩⟩⟩
    rintro ⟨es', h1, h2⟩
    rw [uniqE es' h1] at h2
    exact (h ls').1 h2
  | exprEach p q =>
    obtain ⟨ws, h1, h2⟩ := path_gives E hne hdict 0 p hk.1 .root trivial
    obtain ⟨ls, h⟩ := turn hk.2 (ws := ws) fun w hw => leads_place p (u := .root) trivial ((gives_leads p h2 w).1 hw)
    refine ⟨ls, fun ls' => ⟨?_, fun h' => ⟨ws, h2, (h ls').2 h'⟩⟩⟩
    rintro ⟨ws', h3, h4⟩
    rw [gives_unique p hk.1 h3 h2] at h4
    exact (h ls').1 h4
  | everyEach p q =>
    obtain ⟨ws, h2⟩ := inTurn_make (R := p.Gives d) (es.map Spot.at) fun w hw => by
      obtain ⟨vs, _, h⟩ := path_gives E hne hdict 0 p hk.1 w (hep w hw)
      exact ⟨vs, h⟩
    obtain ⟨ls, h⟩ := turn hk.2 (ws := ws) (inTurn_all (P := d.Place) (fun w hw xs hx v hv => leads_place p (hep w hw) ((gives_leads p hx v).1 hv)) h2)
    refine ⟨ls, fun ls' => ⟨?_, fun h' => ⟨es, ws, hes, h2, (h ls').2 h'⟩⟩⟩
    rintro ⟨es', ws', h3, h4, h5⟩
    rw [uniqE es' h3] at h4
    rw [inTurn_unique (R := p.Gives d) (fun w xs ys hx hy => gives_unique p hk.1 hx hy) h4 h2] at h5
    exact (h ls').1 h5

/-- C164: with `--partition=m`, over any number of sources. -/
theorem C164_microx_partition (fo : FloatOps F) (n : Nat) (a : MicroxArgs) {m : Str} (hp : a.partition = some m) (h0 : m ≠ []) (h1 : m ≠ ['*'])
    (h2 : m ≠ ['*', '*']) {k : AskValue} (hk : k.Fine) (hs : k.SaidBy fo a) {ss : List (List XCall × Bool)} {ds : List Node} (hd : SourcesOf ss ds)
    (hne : ∀ d ∈ ds, d.NoEmptyText) (hdict : ∀ d ∈ ds, d.Dicts) :
    ∃ rs : List (List (Path × Node)), rs.length = ds.length ∧ (∀ (j : Nat) d l, ds[j]? = some d → rs[j]? = some l → OutermostNamed d m l) ∧
      ∀ ls, k.AllLines (rs.flatten.map Prod.snd) ls → ∀ out, MicroxRun fo n a ss out ↔ out = ⟨ls, .tail .done⟩ := by
  obtain ⟨cmd, fe, e1, e2, e3⟩ := value_process fo n a hk hs
  obtain ⟨rs, k1, k2, k3⟩ := C95_partition fo n a hp h0 h1 h2 e1 e2 hd
  refine ⟨rs, k1, k2, fun ls hl out => ?_⟩
  rw [k3, valueLines_inTurn (k := k) (ls := ls) ?_ hl]
  intro x hx l hl
  obtain ⟨⟨q, x'⟩, hx', rfl⟩ := List.mem_map.1 hx
  obtain ⟨r, hr, hx⟩ := List.mem_flatten.1 hx'
  obtain ⟨j, hj, rfl⟩ := List.mem_iff_getElem.1 hr
  have hj' : j < ds.length := by omega
  obtain ⟨h5, ⟨as, cs, h6⟩, _⟩ := ((k2 j ds[j] rs[j] (List.getElem?_eq_getElem hj') (List.getElem?_eq_getElem hj)).2 q x').1 hx
  have hm : ds[j] ∈ ds := List.getElem_mem hj'
  refine e3 ?_ (noEmpty_part (hne _ hm) h5) (dicts_part (hdict _ hm) h5) hl
  rw [h5] at h6
  cases h6
  rfl

/-- C164: with `--html`, over any number of sources. -/
theorem C164_microx_html (fo : FloatOps F) (n : Nat) (a : MicroxArgs) (lax : Bool) (hp : a.partition = none) {k : AskValue} (hk : k.Fine)
    (hs : k.SaidBy fo a) {ss : List AnySource} {ds : List Node} (hd : AllOf HtmlOf ss ds) (ht : ∀ d ∈ ds, d.isText = false)
    (hne : ∀ d ∈ ds, d.NoEmptyText) (hdict : ∀ d ∈ ds, d.Dicts) {ls : List Str} (hl : k.AllLines ds ls) (out : RunOut) :
    MicroxRunAll fo n a true lax ss out ↔ out = ⟨ls, .tail .done⟩ := by
  obtain ⟨cmd, fe, e1, e2, e3⟩ := value_process fo n a hk hs
  rw [C136_html fo n a lax hp e1 e2 hd, valueLines_inTurn (k := k) (ls := ls) (fun d hd l hl => e3 (ht d hd) (hne d hd) (hdict d hd) hl) hl]

/-! ### examples -/

/-- `<a><b>x</b>y</a>` -/
def exOut : Node := .elem ['a'] [] [.elem ['b'] [] [.text ['x']], .text ['y']]
theorem exOut_plain : exOut.NoEmptyText := noEmptyText_of (by decide) (by decide)
theorem exOut_dicts : exOut.Dicts := by
  intro p m as cs h
  rcases at?_nil_text h with h1 | ⟨q, h1, rfl⟩
  · cases h1; exact .nil
  · have : q = [0] ∨ q = [0, 0] ∨ q = [1] := by
      have h : exOut.under [] = [[0], [0, 0], [1]] := by decide
      rw [h] at h1
      simpa using h1
    rcases this with rfl | rfl | rfl <;> cases h
    exact .nil

theorem found_of_items {E : Env F} (hd : E.doc.NoEmptyText) (hdict : E.doc.Dicts) {n : Nat} {l : CoreList} (hl : l.Ok) {u : Spot} (hu : E.doc.Place u)
    {gs : List Found} (h : E.Yields n l.expr u.item (gs.map Found.item)) : l.Gives E.doc u gs := by
  obtain ⟨fs, h1, h2⟩ := (C164_exactly E hd hdict n hl hu _).1 h
  have : ∀ {fs gs : List Found}, (gs.map Found.item : List (Item F)) = fs.map Found.item → gs = fs := by
    intro fs
    induction fs with
    | nil => intro gs h; exact List.map_eq_nil_iff.1 h
    | cons f fs ih =>
      intro gs h
      cases gs with
      | nil => cases h
      | cons g gs =>
        rw [List.map_cons, List.map_cons, List.cons.injEq] at h
        rw [found_inj h.1, ih h.2]
  rw [this h2]
  exact h1

/-- C164: `//text()` gives the texts element by element: in `<a><b>x</b>y</a>` first `y` and then `x`, although `x` comes
first in the document. -/
theorem C164_texts_out_of_order :
    (CoreList.anywhere (.last .texts)).Gives exOut .root [.node (.at [1]), .node (.at [0, 0])] ∧ docLt [0, 0] [1] := by
  refine ⟨?_, by simp [docLt]⟩
  exact found_of_items (E := queryEnv noFloats (fun _ => none) exOut) exOut_plain exOut_dicts (n := 0) (l := .anywhere (.last .texts))
    ⟨trivial, rfl, rfl⟩ (u := .root) trivial (by unfold Env.Yields; decide)

-- ... and `.//text()` gives them in document order
example : (CoreList.allTexts .here).Gives exOut .root [.node (.at [0, 0]), .node (.at [1])] :=
  found_of_items (E := queryEnv noFloats (fun _ => none) exOut) exOut_plain exOut_dicts (n := 0) (l := .allTexts .here)
    (by simp [CoreList.Ok, CorePath.Ok]) (u := .root) trivial (by unfold Env.Yields; decide)
-- `//c/@i` in `<a>x<b/><c i="1"><b>y</b></c></a>`
example : (CoreList.anywhere (.after (.step .child ['c']) (.attr ['i']))).Gives exTree .root [.attr [2] ['i'] ['1']] :=
  found_of_items (E := exEnv) exTree_plain exTree_dicts (n := 0) (by simp [CoreList.Ok, CorePath.Ok, CoreEnd.Ok, CoreList.startsDown, CoreList.notJustNode, CorePath.startsDown]) (u := .root) trivial
    (by unfold Env.Yields; decide)
-- `//@*` and `a/node()`
example : (CoreList.anywhere (.last .attrs)).Gives exTree .root [.attr [2] ['i'] ['1']] ∧
    (CoreList.after (.step .child ['a']) .nodes).Gives exTree .root [.node (.at [0]), .node (.at [1]), .node (.at [2])] :=
  ⟨found_of_items (E := exEnv) exTree_plain exTree_dicts (n := 0) (by simp [CoreList.Ok, CoreEnd.Ok, CoreList.startsDown, CoreList.notJustNode]) (u := .root) trivial (by unfold Env.Yields; decide),
   found_of_items (E := exEnv) exTree_plain exTree_dicts (n := 0) (by simp [CoreList.Ok, CorePath.Ok, CoreEnd.Ok]) (u := .root) trivial
    (by unfold Env.Yields; decide)⟩
-- `microx --match=c --foreach=child::text()` on `<a><c>x</c></a>` prints `x`
example (fo : FloatOps F) (n : Nat) (out : RunOut) :
    MicroxRun fo n { command := .match_ ['c'], foreach := some "child::text()".toList }
      [([.start ['a'] [], .start ['c'] [], .chars ['x'], .stop ['c'], .stop ['a']], false)] out ↔ out = ⟨[['x']], .tail .done⟩ := by
  have hd := exSource 'a' 'c' 'x' (by decide) (by decide)
  have hk : (AskValue.everyEach (.step .child ['c']) (.list (.last .texts))).Fine := by
    simp [AskValue.Fine, CorePath.Ok, CoreQuery.Fine, CoreList.Ok, CoreEnd.Ok, CoreList.neverRoot]
  refine C164_microx_one_source fo n _ rfl hk ⟨_, _, rfl, by with_unfolding_all rfl, rfl, by simp, by with_unfolding_all rfl⟩ hd exAskDoc_plain exAskDoc_dicts ?_ out
  have he : exAskDoc.AllElements [[], [0]] := by
    refine ⟨by simp [docLt], fun q => ?_⟩
    constructor
    · intro h
      rcases List.mem_cons.1 h with rfl | h
      · exact ⟨_, _, _, rfl⟩
      · rw [List.mem_singleton.1 h]; exact ⟨_, _, _, rfl⟩
    · rintro ⟨m, as, cs, h⟩
      cases q with
      | nil => simp
      | cons i q =>
        rcases at?_nil_text h with h1 | ⟨r, h1, h2⟩
        · cases h1
          obtain ⟨y, hy⟩ : ∃ y, (Node.elem ['a'] [] [.elem ['c'] [] [.text ['x']]]).at? (i :: q) = some y := ⟨_, h⟩
          match i, q, h with
          | 0, 0 :: _ :: _, h => cases h
          | 0, (_ + 1) :: _, h => cases h
          | _ + 1, _, h => cases h
        · have hu : exAskDoc.under [] = [[0], [0, 0]] := by decide
          rw [hu] at h1
          rcases List.mem_cons.1 h1 with rfl | h1
          · rw [← h2]; simp
          · rw [List.mem_singleton.1 h1] at h2
            rw [← h2] at h
            cases h
  have hg : ∀ {u : Spot} {gs : List Spot}, exAskDoc.Place u → (queryEnv noFloats (fun _ => none) exAskDoc).Yields 0 (.step .child (.name ['c'])) u.item (gs.map Spot.item) →
      (CorePath.step .child ['c']).Gives exAskDoc u gs := by
    intro u gs hu h
    obtain ⟨vs, h1, h2⟩ := (C162_exactly (queryEnv noFloats (fun _ => none) exAskDoc) exAskDoc_plain exAskDoc_dicts 0 (p := .step .child ['c'])
      (by simp [CorePath.Ok]) hu _).1 h
    have : gs = vs := List.map_inj_right (fun _ _ => spot_item_inj) |>.1 h2
    rw [this]
    exact h1
  refine ⟨[[], [0]], [.at [0]], he, ⟨[.at [0]], [], rfl, ?_, [], [], rfl, ?_, rfl⟩, [['x']], [], rfl, ⟨[.node (.at [0, 0])], ?_, ['x'], [], rfl, .inl rfl, rfl⟩, rfl⟩
  · exact hg ⟨_, _, _, rfl⟩ (by unfold Env.Yields; decide)
  · exact hg (gs := []) ⟨_, _, _, rfl⟩ (by unfold Env.Yields; decide)
  · exact found_of_items (E := queryEnv noFloats (fun _ => none) exAskDoc) exAskDoc_plain exAskDoc_dicts (n := 0) (l := .last .texts) trivial (u := .at [0])
      ⟨_, _, _, rfl⟩ (by unfold Env.Yields; decide)

/-! ### C165 -/

theorem run_nodeTest (E : Env F) (n : Nat) (t : Test) (x : Item F) : E.run n (.test t) x = ⟨t.compute E.doc x, .done⟩ := by
  obtain ⟨dyn, h⟩ := run_eval E n
  simp only [h]; rw [eval]

/-- C165: `text()` as a whole query, asked of an element with `xml_xpath`, finds nothing, and `node()` finds the element
itself, or the root if it is the document element.  Both are applied to the context node, not to its children. -/
theorem C165_alone_partial (fo : FloatOps F) (vars : Str → Option (Item F)) (n : Nat) {e : Node} {q : Path} (hq : e.ElemAt q) :
    xmlXPath fo vars n e q (.str "text()".toList) = ⟨[], .done⟩ ∧
    xmlXPath fo vars n e q (.str "node()".toList) = ⟨[if q = [] then .root else .node q], .done⟩ := by
  have h1 : X.xparse fo "text()".toList = some (.ok (.test .text)) := by with_unfolding_all rfl
  have h2 : X.xparse fo "node()".toList = some (.ok (.test .node)) := by with_unfolding_all rfl
  obtain ⟨m, as, cs, hm⟩ := hq
  simp only [xmlXPath, parseText_eq h1, parseText_eq h2, contextItem]
  have key : ∀ (t : Test) (x : Item F), (queryEnv fo vars e).run n (.test t) x = ⟨t.compute e x, .done⟩ := fun t x => run_nodeTest ..
  constructor
  · by_cases h : q = [] <;> simp only [h, if_true, if_false]
    · exact key .text .root
    · refine (key .text (.node q)).trans ?_
      simp [Test.compute, Item.strOf, Item.textOf, hm]
  · by_cases h : q = [] <;> simp only [h, if_true, if_false]
    · exact key .node .root
    · exact (key .node (.node q)).trans (by simp [Test.compute, Item.isNode])

/-- C165: written as `child::text()` or `./text()` the query finds the texts among the children, each once, in order; likewise
`child::node()` and `./node()` find the children. -/
theorem C165_written_out (fo : FloatOps F) (vars : Str → Option (Item F)) (n : Nat) {e : Node} {w : Str} (h : IsDoc e w) {q : Path}
    (hq : e.ElemAt q) (hq0 : q ≠ []) {fs : List Found} :
    (CoreEnd.texts.Gives e (.at q) fs → xmlXPath fo vars n e q (.str "child::text()".toList) = ⟨fs.map Found.item, .done⟩ ∧
      xmlXPath fo vars n e q (.str "./text()".toList) = ⟨fs.map Found.item, .done⟩) ∧
    (CoreEnd.nodes.Gives e (.at q) fs → xmlXPath fo vars n e q (.str "child::node()".toList) = ⟨fs.map Found.item, .done⟩ ∧
      xmlXPath fo vars n e q (.str "./node()".toList) = ⟨fs.map Found.item, .done⟩) := by
  have here : ∀ {en : CoreEnd}, en.Gives e (.at q) fs → (CoreList.after .here en).Gives e (.at q) fs := fun {en} hf =>
    ⟨[.at q], by rw [CorePath.Gives], fs, [], by simp, hf, rfl⟩
  have hh : CorePath.here.Ok := by simp [CorePath.Ok]
  refine ⟨fun hf => ⟨?_, ?_⟩, fun hf => ⟨?_, ?_⟩⟩
  · exact C164_from_an_element fo vars n h hq (l := .last .texts) trivial (by with_unfolding_all rfl) (by rw [if_neg hq0]; exact hf)
  · exact C164_from_an_element fo vars n h hq (l := .after .here .texts) ⟨hh, trivial⟩ (by with_unfolding_all rfl)
      (by rw [if_neg hq0]; exact here hf)
  · exact C164_from_an_element fo vars n h hq (l := .last .nodes) trivial (by with_unfolding_all rfl) (by rw [if_neg hq0]; exact hf)
  · exact C164_from_an_element fo vars n h hq (l := .after .here .nodes) ⟨hh, trivial⟩ (by with_unfolding_all rfl)
      (by rw [if_neg hq0]; exact here hf)

/-- C165 as stated is false: `<b>` in `<a><b>x</b></a>` has a text, `child::text()` finds it and `text()` does not. -/
theorem C165_full_statement_is_false (fo : FloatOps F) (vars : Str → Option (Item F)) (n : Nat) :
    xmlXPath fo vars n exAskDoc [0] (.str "text()".toList) = ⟨[], .done⟩ ∧
    xmlXPath fo vars n exAskDoc [0] (.str "child::text()".toList) = ⟨[.node [0, 0]], .done⟩ := by
  refine ⟨(C165_alone_partial fo vars n ⟨_, _, _, rfl⟩).1, ?_⟩
  have hg : CoreEnd.texts.Gives exAskDoc (.at [0]) [.node (.at [0, 0])] :=
    found_of_items (E := queryEnv noFloats (fun _ => none) exAskDoc) exAskDoc_plain exAskDoc_dicts (n := 0) (l := .last .texts) trivial (u := .at [0])
      ⟨_, _, _, rfl⟩ (by unfold Env.Yields; decide)
  have h1 := (C164_exactly (queryEnv fo vars exAskDoc) exAskDoc_plain exAskDoc_dicts n (l := .last .texts) trivial (u := .at [0]) ⟨_, _, _, rfl⟩ _).2 ⟨_, hg, rfl⟩
  simp only [xmlXPath, parseText_eq (show X.xparse fo "child::text()".toList = some (.ok (CoreList.last .texts).expr) by with_unfolding_all rfl), contextItem]
  exact h1

end Amara
