import Verif.Spec.MeaningList
import Verif.Props.Meaning
/-
C162: in which order, and how often, queries yield their results.
-/
namespace Amara

variable {F : Type}

/-! ### the list is unique -/

theorem axisBefore_total (a : Axis) (x y : Path) : AxisBefore a x y ∨ x = y ∨ AxisBefore a y x := by
  unfold AxisBefore
  split
  · rcases docLt_total x y with h | h | h
    · exact .inr (.inr h)
    · exact .inr (.inl h)
    · exact .inl h
  · exact docLt_total x y

theorem axisList_unique {a : CoreAxis} {u : Spot} {P : Path → Prop} {qs rs : List Path} (h : u.AxisList a P qs) (h' : u.AxisList a P rs) : qs = rs := by
  have hn : ∀ {l : List Path}, l.Pairwise (AxisBefore a.axis) → l.Nodup := fun h =>
    h.imp fun {x y} h => by rintro rfl; exact axisBefore_irrefl a.axis _ h
  refine List.Perm.eq_of_pairwise ?_ h.1 h'.1 ((List.perm_ext_iff_of_nodup (hn h.1) (hn h'.1)).2 fun q => (h.2 q).trans (h'.2 q).symm)
  intro x y _ _ hxy hyx
  exact absurd hyx (axisBefore_not_both hxy)

theorem inTurn_unique {α : Type} {R : Spot → List α → Prop} : ∀ {ws : List Spot} {vs vs' : List α}, (∀ w xs ys, R w xs → R w ys → xs = ys) →
    InTurn R ws vs → InTurn R ws vs' → vs = vs'
  | [], vs, vs', _, h, h' => by rw [InTurn] at h h'; rw [h, h']
  | w :: ws, vs, vs', hR, h, h' => by
    obtain ⟨xs, ys, rfl, h1, h2⟩ := h
    obtain ⟨xs', ys', rfl, h3, h4⟩ := h'
    rw [hR w _ _ h1 h3, inTurn_unique hR h2 h4]

theorem onlyThose_unique {P : Spot → Prop} : ∀ {ws vs vs' : List Spot}, OnlyThose P ws vs → OnlyThose P ws vs' → vs = vs'
  | [], vs, vs', h, h' => by rw [OnlyThose] at h h'; rw [h, h']
  | w :: ws, vs, vs', h, h' => by
    rw [OnlyThose] at h h'
    rcases h with ⟨hP, xs, rfl, h⟩ | ⟨hP, h⟩ <;> rcases h' with ⟨hP', ys, rfl, h'⟩ | ⟨hP', h'⟩
    · rw [onlyThose_unique h h']
    · exact absurd hP hP'
    · exact absurd hP' hP
    · exact onlyThose_unique h h'

theorem numberK_iff {k : Nat} {vs ws : List Spot} : NumberK k vs ws ↔ ws = (if 1 ≤ k then vs[k - 1]? else none).toList := by
  constructor
  · rintro (⟨l, v, r, rfl, rfl, rfl⟩ | ⟨hk, rfl⟩)
    · simp
    · by_cases h : 1 ≤ k
      · rw [if_pos h, List.getElem?_eq_none (by omega)]; rfl
      · rw [if_neg h]; rfl
  · rintro rfl
    by_cases h : 1 ≤ k
    · rw [if_pos h]
      by_cases hl : k - 1 < vs.length
      · rw [List.getElem?_eq_getElem hl]
        refine .inl ⟨vs.take (k - 1), vs[k - 1], vs.drop k, ?_, ?_, rfl⟩
        · conv => lhs; rw [← List.take_append_drop (k - 1) vs, List.drop_eq_getElem_cons hl]
          rw [Nat.sub_add_cancel h]
        · rw [List.length_take]; omega
      · rw [List.getElem?_eq_none (by omega)]
        exact .inr ⟨.inr (by omega), rfl⟩
    · rw [if_neg h]
      exact .inr ⟨.inl (by omega), rfl⟩

theorem elemList_unique {doc : Node} {qs rs : List Path} (h1 : qs.Pairwise docLt) (h2 : ∀ q, q ∈ qs ↔ doc.ElemAt q) (h3 : rs.Pairwise docLt)
    (h4 : ∀ q, q ∈ rs ↔ doc.ElemAt q) : qs = rs := by
  have hn : ∀ {l : List Path}, l.Pairwise docLt → l.Nodup := fun h => h.imp fun {x y} h => by rintro rfl; exact docLt_irrefl _ h
  refine List.Perm.eq_of_pairwise ?_ h1 h3 ((List.perm_ext_iff_of_nodup (hn h1) (hn h3)).2 fun q => (h2 q).trans (h4 q).symm)
  intro x y _ _ hxy hyx
  exact absurd (docLt_trans hxy hyx) (docLt_irrefl _)

/-- The members of the list a path gives are the places it leads to. -/
theorem gives_leads {doc : Node} : ∀ (p : CorePath) {u : Spot} {vs : List Spot}, p.Gives doc u vs → ∀ v, v ∈ vs ↔ p.Leads doc u v
  | .here, u, vs, h, v => by
    rw [CorePath.Gives] at h
    rw [CorePath.Leads, h, List.mem_singleton]
  | .up, u, vs, h, v => by
    rw [CorePath.Gives.eq_def] at h
    cases u with
    | root =>
      rw [show vs = [.root] from h, List.mem_singleton, CorePath.Leads]
    | «at» p =>
      rw [CorePath.Leads]
      rcases h with ⟨rfl, rfl⟩ | ⟨q, i, rfl, rfl⟩ <;> rw [List.mem_singleton]
      · constructor
        · rintro rfl; exact .inl ⟨rfl, rfl⟩
        · rintro (⟨_, h⟩ | ⟨q, i, h, _⟩)
          · exact h
          · cases q <;> cases h
      · constructor
        · rintro rfl; exact .inr ⟨q, i, rfl, rfl⟩
        · rintro (⟨h, _⟩ | ⟨q', j, h, rfl⟩)
          · cases q <;> cases h
          · rw [(List.append_inj' h rfl).1]
  | .step a m, u, vs, h, v => by
    rw [CorePath.Gives] at h
    obtain ⟨qs, rfl, h⟩ := h
    rw [CorePath.Leads, mem_at]
    simp only [h.2]
  | .children, u, vs, h, v => by
    rw [CorePath.Gives] at h
    obtain ⟨qs, rfl, h⟩ := h
    rw [CorePath.Leads, mem_at]
    simp only [h.2]
  | .nth a m k, u, vs, h, v => by
    rw [CorePath.Gives] at h
    obtain ⟨qs, h, hk⟩ := h
    rw [numberK_iff] at hk
    rw [CorePath.Leads, hk]
    have key : v ∈ (if 1 ≤ k then (qs.map Spot.at)[k - 1]? else none).toList ↔ ∃ q, v = .at q ∧ 1 ≤ k ∧ qs[k - 1]? = some q := by
      by_cases hk : 1 ≤ k
      · rw [if_pos hk, Option.mem_toList, List.getElem?_map]
        cases qs[k - 1]? with
        | none => simp
        | some q => simp [hk, eq_comm]
      · simp [hk]
    rw [key]
    refine ⟨fun ⟨q, h5, h6⟩ => ⟨q, h5, ?_⟩, fun ⟨q, h5, h6, h7, ws, h8, h9, h10⟩ => ⟨q, h5, ?_⟩⟩
    · obtain ⟨h7, ws, h8, h9, h10⟩ := (nth_of_order h.1 k q).1 h6
      exact ⟨((h.2 q).1 h7).1, ((h.2 q).1 h7).2, ws, h8, h9, fun w => by rw [h10, h.2, and_assoc]⟩
    · exact (nth_of_order h.1 k q).2 ⟨(h.2 q).2 ⟨h6, h7⟩, ws, h8, h9, fun w => by rw [h10, h.2, and_assoc]⟩
  | .abs p, u, vs, h, v => by
    rw [CorePath.Gives] at h
    rw [CorePath.Leads]
    exact gives_leads p h v
  | .anywhere p, u, vs, h, v => by
    rw [CorePath.Gives] at h
    obtain ⟨es, _, h2, h3⟩ := h
    rw [CorePath.Leads]
    have hR : ∀ w xs, p.Gives doc w xs → ∀ v, v ∈ xs ↔ p.Leads doc w v := fun w xs h v => gives_leads p h v
    have := inTurn_mem hR h3 v
    rw [this]
    constructor
    · rintro ⟨w, hw, h⟩
      rcases List.mem_cons.1 hw with rfl | hw
      · exact ⟨.root, trivial, h⟩
      · obtain ⟨q, rfl, hq⟩ := mem_at.1 hw
        exact ⟨.at q, (h2 q).1 hq, h⟩
    · rintro ⟨w, hw, h⟩
      refine ⟨w, ?_, h⟩
      cases w with
      | root => exact List.mem_cons_self ..
      | «at» q => exact List.mem_cons_of_mem _ (mem_at.2 ⟨q, rfl, (h2 q).2 hw⟩)
  | .seq p q, u, vs, h, v => by
    rw [CorePath.Gives] at h
    obtain ⟨ws, h1, h2⟩ := h
    rw [CorePath.Leads]
    have hR : ∀ w xs, q.Gives doc w xs → ∀ v, v ∈ xs ↔ q.Leads doc w v := fun w xs h v => gives_leads q h v
    have hw := gives_leads p h1
    rw [inTurn_mem hR h2 v]
    simp only [hw]
  | .deep p m, u, vs, h, v => by
    rw [CorePath.Gives] at h
    obtain ⟨ws, h1, h2⟩ := h
    rw [CorePath.Leads]
    have hw := gives_leads p h1
    rw [inTurn_mem (S := fun w v => ∃ q, v = .at q ∧ w.Reach .descendantOrSelf q ∧ doc.Named m q) ?_ h2 v]
    · simp only [hw]
    · rintro w xs ⟨qs, rfl, h⟩ v
      rw [mem_at]
      simp only [h.2]
  | .filter p c, u, vs, h, v => by
    rw [CorePath.Gives] at h
    obtain ⟨ws, h1, h2⟩ := h
    rw [CorePath.Leads, onlyThose_mem h2, gives_leads p h1]
  | .either p q, u, vs, h, v => by
    rw [CorePath.Gives] at h
    obtain ⟨xs, ys, h1, h2, h3, _⟩ := h
    rw [CorePath.Leads, h3.mem_iff, List.mem_append, gives_leads p h1, gives_leads q h2]
where
  inTurn_mem {R : Spot → List Spot → Prop} {S : Spot → Spot → Prop} (hR : ∀ w xs, R w xs → ∀ v, v ∈ xs ↔ S w v) {ws vs : List Spot}
      (h : InTurn R ws vs) (v : Spot) : v ∈ vs ↔ ∃ w, w ∈ ws ∧ S w v := by
    induction ws generalizing vs with
    | nil => rw [InTurn] at h; simp [h]
    | cons w ws ih =>
      obtain ⟨xs, ys, rfl, h1, h2⟩ := h
      rw [List.mem_append, hR w xs h1, ih h2]
      simp
  onlyThose_mem {P : Spot → Prop} {ws vs : List Spot} (h : OnlyThose P ws vs) {v : Spot} : v ∈ vs ↔ v ∈ ws ∧ P v := by
    induction ws generalizing vs with
    | nil => rw [OnlyThose] at h; simp [h]
    | cons w ws ih =>
      rw [OnlyThose] at h
      rcases h with ⟨hP, xs, rfl, h⟩ | ⟨hP, h⟩
      · rw [List.mem_cons, List.mem_cons, ih h]
        constructor
        · rintro (rfl | h)
          · exact ⟨.inl rfl, hP⟩
          · exact ⟨.inr h.1, h.2⟩
        · rintro ⟨rfl | h, h'⟩
          · exact .inl rfl
          · exact .inr ⟨h, h'⟩
      · rw [ih h, List.mem_cons]
        constructor
        · rintro ⟨h, h'⟩; exact ⟨.inr h, h'⟩
        · rintro ⟨rfl | h, h'⟩
          · exact absurd h' hP
          · exact ⟨h, h'⟩

/-- A path gives one list only. -/
theorem gives_unique {doc : Node} : ∀ (p : CorePath) {u : Spot} {vs ws : List Spot}, p.Ok → p.Gives doc u vs → p.Gives doc u ws → vs = ws
  | .here, u, vs, ws, _, h, h' => by rw [CorePath.Gives] at h h'; rw [h, h']
  | .up, u, vs, ws, _, h, h' => by
    rw [CorePath.Gives.eq_def] at h h'
    cases u with
    | root => exact (show vs = _ from h).trans (show ws = _ from h').symm
    | «at» p =>
      rcases h with ⟨rfl, rfl⟩ | ⟨q, i, rfl, rfl⟩ <;> rcases h' with ⟨h, rfl⟩ | ⟨q', j, h, rfl⟩
      · rfl
      · cases q' <;> cases h
      · cases q <;> cases h
      · rw [(List.append_inj' h rfl).1]
  | .step a m, u, vs, ws, _, h, h' => by
    rw [CorePath.Gives] at h h'
    obtain ⟨qs, rfl, h⟩ := h
    obtain ⟨rs, rfl, h'⟩ := h'
    rw [axisList_unique h h']
  | .children, u, vs, ws, _, h, h' => by
    rw [CorePath.Gives] at h h'
    obtain ⟨qs, rfl, h⟩ := h
    obtain ⟨rs, rfl, h'⟩ := h'
    rw [axisList_unique h h']
  | .nth a m k, u, vs, ws, _, h, h' => by
    rw [CorePath.Gives] at h h'
    obtain ⟨qs, h, hk⟩ := h
    obtain ⟨rs, h', hk'⟩ := h'
    rw [numberK_iff] at hk hk'
    rw [hk, hk', axisList_unique h h']
  | .abs p, u, vs, ws, hok, h, h' => by
    rw [CorePath.Ok] at hok
    rw [CorePath.Gives] at h h'
    exact gives_unique p hok h h'
  | .anywhere p, u, vs, ws, hok, h, h' => by
    rw [CorePath.Ok] at hok
    rw [CorePath.Gives] at h h'
    obtain ⟨es, h1, h2, h3⟩ := h
    obtain ⟨es', h4, h5, h6⟩ := h'
    rw [elemList_unique h1 h2 h4 h5] at h3
    exact inTurn_unique (R := p.Gives doc) (fun w xs ys hx hy => gives_unique p hok.1 hx hy) h3 h6
  | .seq p q, u, vs, ws, hok, h, h' => by
    rw [CorePath.Ok] at hok
    rw [CorePath.Gives] at h h'
    obtain ⟨xs, h1, h2⟩ := h
    obtain ⟨ys, h3, h4⟩ := h'
    rw [gives_unique p hok.1 h1 h3] at h2
    exact inTurn_unique (R := q.Gives doc) (fun w xs ys hx hy => gives_unique q hok.2 hx hy) h2 h4
  | .deep p m, u, vs, ws, hok, h, h' => by
    rw [CorePath.Ok] at hok
    rw [CorePath.Gives] at h h'
    obtain ⟨xs, h1, h2⟩ := h
    obtain ⟨ys, h3, h4⟩ := h'
    rw [gives_unique p hok h1 h3] at h2
    refine inTurn_unique ?_ h2 h4
    rintro w xs ys ⟨qs, rfl, h⟩ ⟨rs, rfl, h'⟩
    rw [axisList_unique h h']
  | .filter p c, u, vs, ws, hok, h, h' => by
    rw [CorePath.Ok] at hok
    rw [CorePath.Gives] at h h'
    obtain ⟨xs, h1, h2⟩ := h
    obtain ⟨ys, h3, h4⟩ := h'
    rw [gives_unique p hok.1 h1 h3] at h2
    exact onlyThose_unique h2 h4
  | .either p q, u, vs, ws, hok, h, h' => by
    rw [CorePath.Ok] at hok
    have hl := gives_leads (.either p q) h
    rw [CorePath.Gives] at h h'
    obtain ⟨xs, ys, h1, h2, h3, h4⟩ := h
    obtain ⟨xs', ys', h5, h6, h7, h8⟩ := h'
    rw [gives_unique p hok.1 h1 h5, gives_unique q hok.2.1 h2 h6] at h3
    refine List.Perm.eq_of_pairwise ?_ h4 h8 (h3.trans h7.symm)
    have hroot : ∀ v ∈ vs, v ≠ .root := by
      rintro v hv rfl
      exact leads_no_root (.either p q) (by rw [CorePath.neverRoot, hok.2.2.1, hok.2.2.2]; rfl) ((hl _).1 hv)
    intro v w hv hw hvw hwv
    have hv' := hroot v hv
    have hw' := hroot w ((h3.trans h7.symm).mem_iff.2 hw)
    cases v with
    | root => exact absurd rfl hv'
    | «at» a =>
      cases w with
      | root => exact absurd rfl hw'
      | «at» b =>
        rcases docLt_total a b with h | h | h
        · exact absurd h (hwv b a rfl rfl)
        · rw [h]
        · exact absurd h (hvw a b rfl rfl)

/-! ### the evaluator yields it -/

/-- What is to be shown of a path. -/
def Env.PathGives (E : Env F) (n : Nat) (p : CorePath) : Prop := ∀ u, E.doc.Place u →
  ∃ vs : List Spot, E.Yields n p.expr u.item (vs.map Spot.item) ∧ p.Gives E.doc u vs

theorem inTurn_flatMap {α : Type} {R : Spot → List α → Prop} {g : Spot → List α} : ∀ {ws : List Spot}, (∀ w ∈ ws, R w (g w)) → InTurn R ws (ws.flatMap g)
  | [], _ => rfl
  | w :: ws, h => ⟨g w, ws.flatMap g, by simp, h w (by simp), inTurn_flatMap fun x hx => h x (by simp [hx])⟩

theorem onlyThose_filter {P : Spot → Prop} [DecidablePred P] : ∀ ws : List Spot, OnlyThose P ws (ws.filter fun v => decide (P v))
  | [] => rfl
  | w :: ws => by
    rw [OnlyThose]
    by_cases h : P w
    · exact .inl ⟨h, _, by rw [List.filter_cons_of_pos (by simpa using h)], onlyThose_filter ws⟩
    · exact .inr ⟨h, by rw [List.filter_cons_of_neg (by simpa using h)]; exact onlyThose_filter ws⟩

/-- `l/r` where the list of `l` and the lists of `r` are known. -/
theorem after_list (E : Env F) (n : Nat) {l r : Expr F} {x : Item F} {ws : List Spot} (h1 : E.Yields n l x (ws.map Spot.item))
    (hpl : ∀ w ∈ ws, E.doc.Place w) (f : Spot → List (Item F)) (hr : ∀ w, E.doc.Place w → E.Yields n r w.item (f w)) :
    E.Yields n (.slash l r) x (ws.flatMap f) := by
  have := C45_steps_compose E n l r x (ws.map Spot.item)
    (fun y => match y with | .root => f .root | .node q => f (.at q) | _ => []) h1
    (by
      intro y hy
      obtain ⟨w, hw, rfl⟩ := List.mem_map.1 hy
      exact spot_truthy E w (hpl w hw))
    (by
      intro y hy
      obtain ⟨w, hw, rfl⟩ := List.mem_map.1 hy
      have := hr w (hpl w hw)
      cases w <;> exact this)
  rw [List.flatMap_map] at this
  rw [show ws.flatMap f = ws.flatMap fun w => (match (w.item : Item F) with | .root => f .root | .node q => f (.at q) | _ => []) by
    congr 1; funext w; cases w <;> rfl]
  exact this

/-- `*` from a place, in order. -/
theorem children_list (E : Env F) (hd : E.doc.NoEmptyText) (n : Nat) {u : Spot} (hu : E.doc.Place u) :
    ∃ qs : List Path, E.Yields n (.step .child .star) u.item (qs.map .node) ∧ u.AxisList .child E.doc.ElemAt qs := by
  cases u with
  | «at» p =>
    obtain ⟨qs, h1, h2, h3⟩ := C47_star_partial E hd hu n
    exact ⟨qs, h1, h3.imp fun {_ _} h => by simpa [AxisBefore, CoreAxis.axis] using h, h2⟩
  | root =>
    refine ⟨([[]] : List Path).filter fun q => (Item.node q : Item F).isElem E.doc, ?_, List.Pairwise.filter _ (by simp), fun q => ?_⟩
    · rw [Env.Yields]
      show E.run n (.step .child .star) .root = _
      rw [run_step]
      simp only [stepRes, Item.children, Test.isName, if_true]
      rw [show (List.filter (fun x => x.isElem E.doc) [Item.node []] : List (Item F)) =
          (([[]] : List Path).filter fun q => (Item.node q : Item F).isElem E.doc).map .node from filter_map_node _ [[]], visit_nodes E.fo hd, List.filter_filter]
      simp [Test.sel]
    · rw [List.mem_filter, isElem_iff]
      simp [Spot.Reach]

theorem path_gives (E : Env F) (hd : E.doc.NoEmptyText) (hdict : E.doc.Dicts) (n : Nat) : ∀ p : CorePath, p.Ok → E.PathGives n p
  | .here, _ => fun u hu => ⟨[u], by rw [CorePath.expr]; exact run_dot .., by rw [CorePath.Gives]⟩
  | .up, _ => fun u hu => by
    rw [CorePath.expr]
    obtain ⟨dyn, h⟩ := run_eval E n
    cases u with
    | root =>
      refine ⟨[.root], ?_, by rw [CorePath.Gives]⟩
      rw [Env.Yields, h, eval]
      rfl
    | «at» p =>
      by_cases hp : p = []
      · subst hp
        refine ⟨[.root], ?_, by rw [CorePath.Gives]; exact .inl ⟨rfl, rfl⟩⟩
        rw [Env.Yields, h, eval]
        exact getRoot_elem hu
      · refine ⟨[.at p.dropLast], ?_, by
          rw [CorePath.Gives]; exact .inr ⟨_, p.getLast hp, (List.dropLast_concat_getLast hp).symm, rfl⟩⟩
        rw [Env.Yields, h, eval]
        simp only [Spot.item, Item.parent, if_neg hp]
        rfl
  | .step a m, _ => fun u hu => by
    obtain ⟨qs, h1, h2, h3⟩ := step_from E hd n a m hu
    exact ⟨qs.map .at, by rw [CorePath.expr, ← nodes_as_spots]; exact h1, by rw [CorePath.Gives]; exact ⟨qs, rfl, h3, h2⟩⟩
  | .children, _ => fun u hu => by
    obtain ⟨qs, h1, h2⟩ := children_list E hd n hu
    exact ⟨qs.map .at, by rw [CorePath.expr, ← nodes_as_spots]; exact h1, by rw [CorePath.Gives]; exact ⟨qs, rfl, h2⟩⟩
  | .nth a m k, _ => fun u hu => by
    obtain ⟨qs, h1, h2, h3⟩ := step_from E hd n a m hu
    have h4 := C49_positional E n _ u.item k _ _ h1
    refine ⟨(if 1 ≤ k then (qs.map Spot.at)[k - 1]? else none).toList, ?_, by
      rw [CorePath.Gives]; exact ⟨qs, ⟨h3, h2⟩, numberK_iff.2 rfl⟩⟩
    rw [CorePath.expr, Env.Yields, h4]
    congr 1
    have : (1 ≤ (k : Int)) ↔ 1 ≤ k := by omega
    by_cases hk : 1 ≤ k
    · rw [if_pos hk, if_pos (this.2 hk)]
      simp only [Int.toNat_natCast, List.getElem?_map]
      cases qs[k - 1]? <;> rfl
    · rw [if_neg hk, if_neg (fun h => hk (this.1 h))]
      rfl
  | .abs p, hok => fun u hu => by
    rw [CorePath.Ok] at hok
    obtain ⟨vs, h1, h2⟩ := path_gives E hd hdict n p hok .root trivial
    refine ⟨vs, ?_, by rw [CorePath.Gives]; exact h2⟩
    rw [CorePath.expr, Env.Yields, run_abs, spot_getRoot hu, bind_one, expr_notJustNode]
    rw [show E.run n p.expr .root = _ from h1]
    rfl
  | .anywhere p, hok => fun u hu => by
    rw [CorePath.Ok] at hok
    have hp := path_gives E hd hdict n p hok.1
    have hex : ∀ q : Path, ∃ vs : List Spot, (E.doc.ElemAt q → p.Gives E.doc (.at q) vs) ∧
        (¬ E.doc.ElemAt q → vs = []) ∧ (E.doc.Has q → E.Yields n p.expr (.node q) (vs.map Spot.item)) := by
      intro q
      by_cases hq : E.doc.ElemAt q
      · obtain ⟨vs, h1, h2⟩ := hp (.at q) hq
        exact ⟨vs, fun _ => h2, fun h => absurd hq h, fun _ => h1⟩
      · refine ⟨[], fun h => absurd h hq, fun _ => rfl, fun ⟨x, hx⟩ => ?_⟩
        cases x with
        | elem m as cs => exact absurd ⟨m, as, cs, hx⟩ hq
        | text s => exact startsDown_text E n hx p hok.2
    obtain ⟨g, hg⟩ := Classical.axiomOfChoice hex
    obtain ⟨vs, h1, h2⟩ := hp .root trivial
    have hhas : ∀ q, q ∈ [] :: E.doc.under [] ↔ E.doc.Has q := by
      intro q
      rw [List.mem_cons, mem_under (p := []) rfl]
      constructor
      · rintro (rfl | h)
        · exact ⟨_, rfl⟩
        · exact h.2
      · intro h
        cases q with
        | nil => exact .inl rfl
        | cons i q => exact .inr ⟨⟨i :: q, by simp, rfl⟩, h⟩
    have hord : ([] :: E.doc.under []).Pairwise docLt := by
      refine List.pairwise_cons.2 ⟨?_, under_order.1 _ _⟩
      intro q hq
      obtain ⟨r, y, h1, h2, _⟩ := (under_mem.1 _ _ _).1 hq
      cases r with
      | nil => exact absurd rfl h1
      | cons i r => rw [h2]; trivial
    classical
    refine ⟨vs ++ ([] :: E.doc.under []).flatMap g, ?_, ?_⟩
    · rw [CorePath.expr, Env.Yields, run_absAll, spot_getRoot hu, bind_one, expr_notJustNode]
      rw [show E.run n p.expr .root = _ from h1]
      have hb := bindList_done (f := fun z => E.run n p.expr (z.orElse E.fo E.doc u.item))
        (g := fun z => match z with | .node q => (g q).map Spot.item | _ => []) (.done : Tail) (([] :: E.doc.under []).map .node) (by
          intro y hy
          obtain ⟨q, hq, rfl⟩ := List.mem_map.1 hy
          rw [orElse_truthy (truthy_node E.fo hd q)]
          exact (hg q).2.2 ((hhas q).1 hq))
      simp only [Item.below]
      rw [show (Item.node [] :: (E.doc.under []).map .node : List (Item F)) = ([] :: E.doc.under []).map .node from rfl, hb,
        List.flatMap_map, List.map_append, List.map_flatMap]
      rfl
    · rw [CorePath.Gives]
      refine ⟨([] :: E.doc.under []).filter fun q => decide (E.doc.ElemAt q), hord.filter _, fun q => ?_, vs, _, rfl, h2, ?_⟩
      · rw [List.mem_filter, hhas, decide_eq_true_iff]
        exact ⟨fun h => h.2, fun h => ⟨h.has, h⟩⟩
      · have hf : ∀ l : List Path, InTurn (p.Gives E.doc) ((l.filter fun q => decide (E.doc.ElemAt q)).map Spot.at) (l.flatMap g) := by
          intro l
          induction l with
          | nil => rfl
          | cons q l ih =>
            by_cases hq : E.doc.ElemAt q
            · rw [List.filter_cons_of_pos (by simpa using hq), List.map_cons]
              exact ⟨g q, _, by simp, (hg q).1 hq, ih⟩
            · rw [List.filter_cons_of_neg (by simpa using hq), List.flatMap_cons, (hg q).2.1 hq]
              exact ih
        exact hf _
  | .seq p q, hok => fun u hu => by
    rw [CorePath.Ok] at hok
    obtain ⟨ws, h1, h2⟩ := path_gives E hd hdict n p hok.1 u hu
    have hq := path_gives E hd hdict n q hok.2
    have hpl : ∀ w ∈ ws, E.doc.Place w := fun w hw => leads_place p hu ((gives_leads p h2 w).1 hw)
    have hex : ∀ w : Spot, ∃ vs : List Spot, E.doc.Place w → E.Yields n q.expr w.item (vs.map Spot.item) ∧ q.Gives E.doc w vs := by
      intro w
      by_cases hw : E.doc.Place w
      · obtain ⟨vs, h⟩ := hq w hw
        exact ⟨vs, fun _ => h⟩
      · exact ⟨[], fun h => absurd h hw⟩
    obtain ⟨g, hg⟩ := Classical.axiomOfChoice hex
    refine ⟨ws.flatMap g, ?_, by rw [CorePath.Gives]; exact ⟨ws, h2, inTurn_flatMap fun w hw => (hg w (hpl w hw)).2⟩⟩
    rw [CorePath.expr, List.map_flatMap]
    exact after_list E n h1 hpl (fun w => (g w).map Spot.item) fun w hw => (hg w hw).1
  | .deep p m, hok => fun u hu => by
    rw [CorePath.Ok] at hok
    obtain ⟨ws, h1, h2⟩ := path_gives E hd hdict n p hok u hu
    have hpl : ∀ w ∈ ws, E.doc.Place w := fun w hw => leads_place p hu ((gives_leads p h2 w).1 hw)
    have hex : ∀ w : Spot, ∃ qs : List Path, E.doc.Place w →
        E.Yields n (.step .descendantOrSelf (.name m)) w.item (qs.map .node) ∧ w.AxisList .descendantOrSelf (E.doc.Named m) qs := by
      intro w
      by_cases hw : E.doc.Place w
      · obtain ⟨qs, h, h', h''⟩ := step_from E hd n .descendantOrSelf m hw
        exact ⟨qs, fun _ => ⟨h, h'', h'⟩⟩
      · exact ⟨[], fun h => absurd h hw⟩
    obtain ⟨g, hg⟩ := Classical.axiomOfChoice hex
    refine ⟨ws.flatMap fun w => (g w).map .at, ?_, by
      rw [CorePath.Gives]; exact ⟨ws, h2, inTurn_flatMap fun w hw => ⟨g w, rfl, (hg w (hpl w hw)).2⟩⟩⟩
    rw [CorePath.expr, Env.Yields, run_dslash, List.map_flatMap]
    exact after_list E n h1 hpl (fun w => ((g w).map .at).map Spot.item) fun w hw => by rw [← nodes_as_spots]; exact (hg w hw).1
  | .filter p c, hok => fun u hu => by
    rw [CorePath.Ok] at hok
    obtain ⟨vs, h1, h2⟩ := path_gives E hd hdict n p hok.1 u hu
    have hc := test_means E hd hdict n c hok.2
    have hpl : ∀ w ∈ vs, E.doc.Place w := fun w hw => leads_place p hu ((gives_leads p h2 w).1 hw)
    have hex : ∀ y : Item F, ∃ ys, ∀ w : Spot, y = w.item → E.doc.Place w → E.Yields n c.expr y ys ∧ NotNumber ys ∧ (E.Ebv ys ↔ c.Holds E.doc w) := by
      intro y
      by_cases hy : ∃ w : Spot, y = w.item ∧ E.doc.Place w
      · obtain ⟨w, rfl, hw⟩ := hy
        obtain ⟨ys, h3, h4, _, h5⟩ := hc w hw
        exact ⟨ys, fun w' he hw' => by cases spot_item_inj he; exact ⟨h3, h4, h5⟩⟩
      · exact ⟨[], fun w h h' => absurd ⟨w, h, h'⟩ hy⟩
    obtain ⟨g, hg⟩ := Classical.axiomOfChoice hex
    classical
    refine ⟨vs.filter fun v => decide (c.Holds E.doc v), ?_, by rw [CorePath.Gives]; exact ⟨vs, h2, onlyThose_filter vs⟩⟩
    have := C50_boolean_predicate E n p.expr c.expr u.item (vs.map Spot.item) .done h1
      (fun y hy => by obtain ⟨w, hw, rfl⟩ := List.mem_map.1 hy; exact spot_truthy E w (hpl w hw)) g
      (fun y hy => by obtain ⟨w, hw, rfl⟩ := List.mem_map.1 hy; exact (hg _ w rfl (hpl w hw)).1)
      (fun y hy => by obtain ⟨w, hw, rfl⟩ := List.mem_map.1 hy; exact (hg _ w rfl (hpl w hw)).2.1)
      (fun y => decide (E.Ebv (g y))) (fun y _ => decide_eq_true_iff)
    rw [CorePath.expr, Env.Yields, this, List.filter_map]
    congr 2
    refine List.filter_congr fun w hw => ?_
    rw [Function.comp_apply, decide_eq_decide]
    exact (hg _ w rfl (hpl w hw)).2.2
  | .either p q, hok => fun u hu => by
    rw [CorePath.Ok] at hok
    obtain ⟨vs, h1, h2⟩ := path_gives E hd hdict n p hok.1 u hu
    obtain ⟨ws, h3, h4⟩ := path_gives E hd hdict n q hok.2.1 u hu
    have hnode : (u.item : Item F).isNode = true := by cases u <;> rfl
    have hplaced : ∀ y ∈ (vs.map Spot.item ++ ws.map Spot.item : List (Item F)), E.Placed u.item y := by
      intro y hy
      have : ∃ w, y = w.item ∧ E.doc.Place w ∧ w ≠ .root := by
        rcases List.mem_append.1 hy with hy | hy <;> obtain ⟨w, hw, rfl⟩ := List.mem_map.1 hy
        · exact ⟨w, rfl, leads_place p hu ((gives_leads p h2 w).1 hw), by
            rintro rfl; exact leads_no_root p hok.2.2.1 ((gives_leads p h2 _).1 hw)⟩
        · exact ⟨w, rfl, leads_place q hu ((gives_leads q h4 w).1 hw), by
            rintro rfl; exact leads_no_root q hok.2.2.2 ((gives_leads q h4 _).1 hw)⟩
      obtain ⟨w, rfl, hw, hr⟩ := this
      cases w with
      | root => exact absurd rfl hr
      | «at» p => exact hw
    obtain ⟨zs, h5, h6, h8⟩ := (C51_union_exactly E n p.expr q.expr u.item _ _ hnode h1 h3).1 hplaced
    rw [← List.map_append] at h6
    have hzs : ∃ zs' : List Spot, zs = zs'.map Spot.item ∧ zs'.Perm (vs ++ ws) := by
      refine ⟨zs.map fun y => match y with | .node p => .at p | _ => .root, ?_, ?_⟩
      · rw [List.map_map]
        conv => lhs; rw [← List.map_id zs]
        refine List.map_congr_left fun y hy => ?_
        obtain ⟨w, _, rfl⟩ := List.mem_map.1 (h6.mem_iff.1 hy)
        cases w <;> rfl
      · refine (h6.map _).trans ?_
        rw [List.map_map]
        conv => rhs; rw [← List.map_id (vs ++ ws)]
        rw [show ((fun y : Item F => match y with | .node p => Spot.at p | _ => .root) ∘ Spot.item) = id by
          funext w; cases w <;> rfl]
    obtain ⟨zs', rfl, h7⟩ := hzs
    refine ⟨zs', by rw [CorePath.expr]; exact h5, ?_⟩
    rw [CorePath.Gives]
    refine ⟨vs, ws, h2, h4, h7, ?_⟩
    rw [List.pairwise_map] at h8
    exact h8.imp fun {v w} h p q hv hw hlt => by subst hv hw; exact h hlt

/-! ### C162 -/

/-- C162: a path, evaluated at the root or at an element, yields exactly the list it gives: these places, in this order, each
as often as it stands there. -/
theorem C162_exactly (E : Env F) (hd : E.doc.NoEmptyText) (hdict : E.doc.Dicts) (n : Nat) {p : CorePath} (hok : p.Ok) {u : Spot} (hu : E.doc.Place u)
    (ys : List (Item F)) : E.Yields n p.expr u.item ys ↔ ∃ vs : List Spot, p.Gives E.doc u vs ∧ ys = vs.map Spot.item := by
  obtain ⟨vs, h1, h2⟩ := path_gives E hd hdict n p hok u hu
  constructor
  · intro h
    refine ⟨vs, h2, ?_⟩
    rw [Env.Yields] at h h1
    rw [h] at h1
    cases h1
    rfl
  · rintro ⟨ws, h3, rfl⟩
    rw [gives_unique p hok h3 h2]
    exact h1

/-- C162: there is one such list, and its members are the places of C156. -/
theorem C162_one_list {doc : Node} (hd : doc.NoEmptyText) (hdict : doc.Dicts) {p : CorePath} (hok : p.Ok) {u : Spot} (hu : doc.Place u) :
    ∃ vs : List Spot, (∀ ws, p.Gives doc u ws ↔ ws = vs) ∧ ∀ v, v ∈ vs ↔ p.Leads doc u v := by
  obtain ⟨vs, _, h2⟩ := path_gives (queryEnv noFloats (fun _ => none) doc) hd hdict 0 p hok u hu
  exact ⟨vs, fun ws => ⟨fun h => gives_unique p hok h h2, fun h => h ▸ h2⟩, gives_leads p h2⟩

/-- C162: `count(p)` is the length of the list, and `(p)[k]` its item number `k`. -/
theorem C162_count_and_number (E : Env F) (hd : E.doc.NoEmptyText) (hdict : E.doc.Dicts) (n : Nat) {p : CorePath} (hok : p.Ok) {u : Spot} (hu : E.doc.Place u)
    {vs : List Spot} (h : p.Gives E.doc u vs) :
    E.Yields n (.call "count".toList [p.expr]) u.item [.int vs.length] ∧
    ∀ (k : Nat) (ws : List Spot), NumberK k vs ws → E.Yields n (.pred p.expr [.lit (.int k)]) u.item (ws.map Spot.item) := by
  have hy := (C162_exactly E hd hdict n hok hu _).2 ⟨vs, h, rfl⟩
  refine ⟨?_, fun k ws hk => ?_⟩
  · have := C54_count E n p.expr u.item _ hy
    rwa [List.length_map] at this
  · rw [numberK_iff.1 hk, Env.Yields, C49_positional E n _ u.item k _ _ hy]
    congr 1
    by_cases h1 : 1 ≤ k
    · rw [if_pos h1, if_pos (show 1 ≤ (k : Int) by omega)]
      simp only [Int.toNat_natCast, List.getElem?_map]
      cases vs[k - 1]? <;> rfl
    · rw [if_neg h1, if_neg (show ¬ 1 ≤ (k : Int) by omega)]
      rfl

/-- C162: a text of a query on the text of a document. -/
theorem C162_on_a_text (fo : FloatOps F) (vars : Str → Option (Item F)) (n : Nat) {e : Node} {w : Str} (h : IsDoc e w)
    {s : Str} {p : CorePath} (hok : p.Ok) (hs : X.xparse fo s = some (.ok p.expr)) {vs : List Spot} (hv : p.Gives e .root vs) (a : Answer F) :
    QQuery fo vars n (.str w) (.str s) a ↔ a = .items e ⟨vs.map Spot.item, .done⟩ := by
  have h1 := (C162_exactly (queryEnv fo vars e) (doc_noEmpty h) (fun p m as cs hp => doc_dicts h hp) n hok (u := .root) trivial _).2 ⟨vs, hv, rfl⟩
  rw [C83_query_of_a_text fo vars n h hs, show (queryEnv fo vars e).run n p.expr .root = _ from h1]

/-- C162: the method `xml_xpath` of an element; from the document element the query starts at the root. -/
theorem C162_from_an_element (fo : FloatOps F) (vars : Str → Option (Item F)) (n : Nat) {e : Node} {w : Str} (h : IsDoc e w) {q : Path}
    (hq : e.ElemAt q) {s : Str} {p : CorePath} (hok : p.Ok) (hs : X.xparse fo s = some (.ok p.expr)) {vs : List Spot}
    (hv : p.Gives e (if q = [] then .root else .at q) vs) : xmlXPath fo vars n e q (.str s) = ⟨vs.map Spot.item, .done⟩ := by
  have h1 := (C162_exactly (queryEnv fo vars e) (doc_noEmpty h) (fun p m as cs hp => doc_dicts h hp) n hok
    (u := if q = [] then .root else .at q) (by split <;> first | trivial | exact hq) _).2 ⟨vs, hv, rfl⟩
  simp only [xmlXPath, parseText_eq hs, contextItem]
  rw [← h1]
  by_cases hq' : q = [] <;> simp only [hq', if_true, if_false] <;> rfl

/-! ### examples -/

-- `//c[@i='1' and boolean(b)]/b[not(c)] | /a/b` in `<a>x<b/><c i="1"><b>y</b></c></a>` gives this list
example : exCore.Gives exTree .root [.at [1], .at [2, 0]] := by
  have hok : exCore.Ok := by simp [exCore, CorePath.Ok, CoreTest.Ok, CorePath.neverRoot, CorePath.startsDown]
  obtain ⟨vs, h1, h2⟩ := (C162_exactly exEnv exTree_plain exTree_dicts 0 hok (u := .root) trivial [.node [1], .node [2, 0]]).1 (by
    unfold Env.Yields; decide)
  have : vs = [.at [1], .at [2, 0]] := by
    match vs, h2 with
    | [.at _, .at _], h2 => cases h2; rfl
  exact this ▸ h1
-- siblings before the last child are given backwards
example : (CorePath.step .precedingSibling ['b']).Gives exTree (.at [2]) [.at [1]] := by
  refine ⟨[[1]], rfl, by simp, fun q => ?_⟩
  rw [List.mem_singleton]
  constructor
  · rintro rfl; exact ⟨⟨[], 2, 1, rfl, rfl, by decide⟩, _, _, rfl⟩
  · rintro ⟨⟨p, i, j, h, rfl, hlt⟩, as, cs, h'⟩
    have h0 := List.append_inj' (show ([] : Path) ++ [2] = p ++ [i] from h) rfl
    obtain ⟨rfl, h1⟩ := h0
    cases h1
    match j, hlt with
    | 0, _ => cases h'
    | 1, _ => rfl
-- a union keeps what both sides give: `b | *` gives the first `b` twice
example : (CorePath.either (.step .child ['b']) .children).Gives exTree (.at []) [.at [1], .at [1], .at [2]] := by
  have hok : (CorePath.either (.step .child ['b']) .children).Ok := by simp [CorePath.Ok, CorePath.neverRoot]
  obtain ⟨vs, h1, h2⟩ := (C162_exactly exEnv exTree_plain exTree_dicts 0 hok (u := .at []) ⟨_, _, _, rfl⟩ [.node [1], .node [1], .node [2]]).1 (by
    unfold Env.Yields; decide)
  have : vs = [.at [1], .at [1], .at [2]] := by
    match vs, h2 with
    | [.at _, .at _, .at _], h2 => cases h2; rfl
  exact this ▸ h1

end Amara
