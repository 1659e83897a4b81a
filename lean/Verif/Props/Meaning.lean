import Verif.Lemmas.Meaning
import Verif.Props.QueryAttr
/-
C156: what queries mean.
-/
namespace Amara

variable {F : Type}

theorem named_place {doc : Node} {m : Str} {q : Path} (h : doc.Named m q) : doc.Place (.at q) := h.elemAt

theorem elemAt_parent {doc : Node} {q : Path} {i : Nat} (h : doc.ElemAt (q ++ [i])) : doc.ElemAt q := h.has.parent

/-- A path leads to elements, or to the root. -/
theorem leads_place {doc : Node} : ∀ (p : CorePath) {u v : Spot}, doc.Place u → p.Leads doc u v → doc.Place v
  | .here, u, v, hu, h => by rw [CorePath.Leads] at h; exact h ▸ hu
  | .up, u, v, hu, h => by
    rw [CorePath.Leads.eq_def] at h
    cases u with
    | root => rw [show v = .root from h]; trivial
    | «at» p =>
      rcases h with ⟨_, rfl⟩ | ⟨q, i, rfl, rfl⟩
      · trivial
      · exact elemAt_parent hu
  | .step a m, u, v, _, h => by
    rw [CorePath.Leads] at h
    obtain ⟨q, rfl, _, h⟩ := h
    exact h.elemAt
  | .children, u, v, _, h => by
    rw [CorePath.Leads] at h
    obtain ⟨q, rfl, _, h⟩ := h
    exact h
  | .nth a m k, u, v, _, h => by
    rw [CorePath.Leads] at h
    obtain ⟨q, rfl, _, h, _⟩ := h
    exact h.elemAt
  | .abs p, u, v, _, h => by
    rw [CorePath.Leads] at h
    exact leads_place p (u := .root) trivial h
  | .anywhere p, u, v, _, h => by
    rw [CorePath.Leads] at h
    obtain ⟨w, hw, h⟩ := h
    exact leads_place p hw h
  | .seq p q, u, v, hu, h => by
    rw [CorePath.Leads] at h
    obtain ⟨w, h1, h2⟩ := h
    exact leads_place q (leads_place p hu h1) h2
  | .deep p m, u, v, _, h => by
    rw [CorePath.Leads] at h
    obtain ⟨w, _, q, rfl, _, h⟩ := h
    exact h.elemAt
  | .filter p c, u, v, hu, h => by
    rw [CorePath.Leads] at h
    exact leads_place p hu h.1
  | .either p q, u, v, hu, h => by
    rw [CorePath.Leads] at h
    rcases h with h | h
    · exact leads_place p hu h
    · exact leads_place q hu h

theorem leads_no_root {doc : Node} : ∀ (p : CorePath) {u : Spot}, p.neverRoot = true → ¬ p.Leads doc u .root
  | .here, u, hc, _ => by cases hc
  | .up, u, hc, _ => by cases hc
  | .step a m, u, _, h => by rw [CorePath.Leads] at h; obtain ⟨q, h, _⟩ := h; cases h
  | .children, u, _, h => by rw [CorePath.Leads] at h; obtain ⟨q, h, _⟩ := h; cases h
  | .nth a m k, u, _, h => by rw [CorePath.Leads] at h; obtain ⟨q, h, _⟩ := h; cases h
  | .abs p, u, hc, h => by rw [CorePath.Leads] at h; exact leads_no_root p hc h
  | .anywhere p, u, hc, h => by rw [CorePath.Leads] at h; obtain ⟨w, _, h⟩ := h; exact leads_no_root p hc h
  | .seq p q, u, hc, h => by
    rw [CorePath.Leads] at h
    obtain ⟨w, h1, h2⟩ := h
    exact leads_no_root q hc h2
  | .deep p m, u, _, h => by rw [CorePath.Leads] at h; obtain ⟨w, _, q, h, _⟩ := h; cases h
  | .filter p c, u, hc, h => by
    rw [CorePath.Leads] at h
    exact leads_no_root p hc h.1
  | .either p q, u, hc, h => by
    rw [CorePath.Leads] at h
    rw [CorePath.neverRoot, Bool.and_eq_true] at hc
    rcases h with h | h
    · exact leads_no_root p hc.1 h
    · exact leads_no_root q hc.2 h

theorem step_text (E : Env F) (n : Nat) {t : Path} {s : Str} (ht : E.doc.at? t = some (.text s)) (a : CoreAxis) (m : Str)
    (hc : (CorePath.step a m).startsDown = true) : E.Yields n (.step a.axis (.name m)) (.node t) [] := by
  rw [Env.Yields, run_step]
  cases a with
  | followingSibling => exact absurd hc (by rw [CorePath.startsDown]; decide)
  | precedingSibling => exact absurd hc (by rw [CorePath.startsDown]; decide)
  | _ => simp [CoreAxis.axis, stepRes, Test.compute, Item.children, Item.below, ht, visit, Node.under, Res.append]

/-- From a text node there is nothing to find further down. -/
theorem startsDown_text (E : Env F) (n : Nat) {t : Path} {s : Str} (ht : E.doc.at? t = some (.text s)) : ∀ (p : CorePath),
    p.startsDown = true → E.Yields n p.expr (.node t) []
  | .here, hc => by cases hc
  | .up, hc => by cases hc
  | .step a m, hc => by
    rw [CorePath.expr]
    exact step_text E n ht a m hc
  | .children, _ => by
    rw [CorePath.expr, Env.Yields, run_step]
    simp [stepRes, Item.children, ht, visit]
  | .nth a m k, hc => by
    have h : E.Yields n (.step a.axis (.name m)) (.node t) [] := step_text E n ht a m hc
    rw [CorePath.expr, Env.Yields, C49_positional E n _ _ k _ _ h]
    simp
  | .abs p, hc => by cases hc
  | .anywhere p, hc => by cases hc
  | .seq p q, hc => by
    rw [CorePath.expr]
    exact C45_empty E n _ _ _ (startsDown_text E n ht p hc)
  | .deep p m, hc => by
    rw [CorePath.expr, Env.Yields, run_dslash]
    exact C45_empty E n _ _ _ (startsDown_text E n ht p hc)
  | .filter p c, hc => by
    have h : E.run n p.expr (.node t) = ⟨[], .done⟩ := startsDown_text E n ht p hc
    rw [CorePath.expr, Env.Yields, run_pred, h]
    rfl
  | .either p q, hc => by cases hc

theorem expr_notJustNode (p : CorePath) : (p.expr : Expr F).isJustNode = false := by
  cases p <;> rw [CorePath.expr] <;> rfl

theorem spot_getRoot {E : Env F} {u : Spot} (hu : E.doc.Place u) : (u.item : Item F).getRoot E.doc = Res.one .root := by
  cases u with
  | root => rfl
  | «at» p => exact getRoot_elem hu

/-- What is to be shown of a path. -/
def Env.PathMeans (E : Env F) (n : Nat) (p : CorePath) : Prop := ∀ u, E.doc.Place u →
  ∃ vs : List Spot, E.Yields n p.expr u.item (vs.map Spot.item) ∧ ∀ v, v ∈ vs ↔ p.Leads E.doc u v

/-- What is to be shown of a test. -/
def Env.TestMeans (E : Env F) (n : Nat) (c : CoreTest) : Prop := ∀ u, E.doc.Place u →
  ∃ ys, E.Yields n c.expr u.item ys ∧ NotNumber ys ∧ (c.mayBeEmpty = false → ∃ b, ys = [.bool b]) ∧ (E.Ebv ys ↔ c.Holds E.doc u)

theorem nodes_as_spots (qs : List Path) : (qs.map .node : List (Item F)) = (qs.map Spot.at).map Spot.item := by
  rw [List.map_map]; rfl

theorem mem_at {qs : List Path} {v : Spot} : v ∈ qs.map Spot.at ↔ ∃ q, v = .at q ∧ q ∈ qs := by
  rw [List.mem_map]
  exact ⟨fun ⟨q, h1, h2⟩ => ⟨q, h2.symm, h1⟩, fun ⟨q, h1, h2⟩ => ⟨q, h2, h1.symm⟩⟩

/-- Steps after a path: `l/r` where `r` is known at each place. -/
theorem after_path (E : Env F) (n : Nat) {p : CorePath} (hp : E.PathMeans n p) (r : Expr F) (f : Spot → List (Item F))
    (hr : ∀ w, E.doc.Place w → E.Yields n r w.item (f w)) {u : Spot} (hu : E.doc.Place u) :
    ∃ ws : List Spot, E.Yields n (.slash p.expr r) u.item (ws.flatMap f) ∧ ∀ w, w ∈ ws ↔ p.Leads E.doc u w := by
  obtain ⟨ws, h1, h2⟩ := hp u hu
  refine ⟨ws, ?_, h2⟩
  have hpl : ∀ w ∈ ws, E.doc.Place w := fun w hw => leads_place p hu ((h2 w).1 hw)
  have := C45_steps_compose E n p.expr r u.item (ws.map Spot.item)
    (fun y => match y with | .root => f .root | .node q => f (.at q) | _ => []) h1
    (by
      intro y hy
      obtain ⟨w, hw, rfl⟩ := List.mem_map.1 hy
      exact spot_truthy E w (hpl w hw))
    (by
      intro y hy
      obtain ⟨w, hw, rfl⟩ := List.mem_map.1 hy
      have := hr w (hpl w hw)
      cases w <;> exact this)
  rw [List.flatMap_map] at this
  rw [show ws.flatMap f = ws.flatMap fun w => (match (w.item : Item F) with | .root => f .root | .node q => f (.at q) | _ => []) by
    congr 1; funext w; cases w <;> rfl]
  exact this

theorem ebv_spots (E : Env F) {vs : List Spot} (h : ∀ v ∈ vs, E.doc.Place v) : E.Ebv (vs.map Spot.item) ↔ ∃ v, v ∈ vs := by
  cases vs with
  | nil => simp [Env.Ebv]
  | cons v vs =>
    refine ⟨fun _ => ⟨v, by simp⟩, fun _ => ?_⟩
    cases v with
    | root => trivial
    | «at» p =>
      obtain ⟨m, as, cs, hp⟩ := h (.at p) (by simp)
      show E.doc.at? p ≠ some (.text [])
      rw [hp]
      simp

theorem notNumber_spots (vs : List Spot) : NotNumber (vs.map Spot.item : List (Item F)) := by
  cases vs with
  | nil => trivial
  | cons v vs => cases v <;> trivial

theorem strVal_spot (E : Env F) (u : Spot) : E.strVal u.item = E.doc.valueAt u := by cases u <;> rfl

/-- An operand of `and` or `or`. -/
theorem operand (E : Env F) (n : Nat) {c : CoreTest} (hc : E.TestMeans n c) {u : Spot} (hu : E.doc.Place u) :
    ∃ b : Bool, E.Yields n (if c.mayBeEmpty then .call "boolean".toList [c.expr] else c.expr) u.item [.bool b] ∧
      (b = true ↔ c.Holds E.doc u) := by
  obtain ⟨ys, h1, h2, h3, h4⟩ := hc u hu
  by_cases hm : c.mayBeEmpty = true
  · rw [if_pos hm]
    obtain ⟨b, h5, h6, _⟩ := C53_boolean_and_not E n c.expr u.item ys h1
    exact ⟨_, h6, h5.trans h4⟩
  · rw [if_neg hm]
    obtain ⟨b, rfl⟩ := h3 (by simpa using hm)
    exact ⟨b, h1, h4⟩

/-- A test that yields one boolean. -/
theorem testMeans_bool {E : Env F} {n : Nat} {c : CoreTest} {u : Spot} {b : Bool} (h : E.Yields n c.expr u.item [.bool b])
    (hb : b = true ↔ c.Holds E.doc u) :
    ∃ ys, E.Yields n c.expr u.item ys ∧ NotNumber ys ∧ (c.mayBeEmpty = false → ∃ b, ys = [.bool b]) ∧ (E.Ebv ys ↔ c.Holds E.doc u) :=
  ⟨_, h, trivial, fun _ => ⟨b, rfl⟩, hb⟩

mutual
  theorem path_means (E : Env F) (hd : E.doc.NoEmptyText) (hdict : E.doc.Dicts) (n : Nat) : ∀ p : CorePath, p.Ok → E.PathMeans n p
    | .here, _ => fun u hu => ⟨[u], by rw [CorePath.expr]; exact run_dot .., fun v => by rw [CorePath.Leads, List.mem_singleton]⟩
    | .up, _ => fun u hu => by
      rw [CorePath.expr]
      cases u with
      | root =>
        refine ⟨[.root], ?_, fun v => by rw [CorePath.Leads, List.mem_singleton]⟩
        obtain ⟨dyn, h⟩ := run_eval E n
        rw [Env.Yields, h, eval]
        rfl
      | «at» p =>
        obtain ⟨dyn, h⟩ := run_eval E n
        by_cases hp : p = []
        · subst hp
          refine ⟨[.root], ?_, fun v => ?_⟩
          · rw [Env.Yields, h, eval]
            exact getRoot_elem hu
          · rw [CorePath.Leads, List.mem_singleton]
            constructor
            · rintro rfl; exact .inl ⟨rfl, rfl⟩
            · rintro (⟨_, h⟩ | ⟨q, i, h, _⟩)
              · exact h
              · cases q <;> cases h
        · refine ⟨[.at p.dropLast], ?_, fun v => ?_⟩
          · rw [Env.Yields, h, eval]
            simp only [Spot.item, Item.parent, if_neg hp]
            rfl
          · rw [CorePath.Leads, List.mem_singleton]
            constructor
            · rintro rfl
              exact .inr ⟨_, p.getLast hp, (List.dropLast_concat_getLast hp).symm, rfl⟩
            · rintro (⟨h, _⟩ | ⟨q, i, rfl, rfl⟩)
              · exact absurd h hp
              · simp
    | .step a m, _ => fun u hu => by
      obtain ⟨qs, h1, h2, _⟩ := step_from E hd n a m hu
      refine ⟨qs.map .at, by rw [CorePath.expr, ← nodes_as_spots]; exact h1, fun v => ?_⟩
      rw [CorePath.Leads, mem_at]
      simp only [h2]
    | .children, _ => fun u hu => by
      obtain ⟨qs, h1, h2⟩ := children_from E hd n hu
      refine ⟨qs.map .at, by rw [CorePath.expr, ← nodes_as_spots]; exact h1, fun v => ?_⟩
      rw [CorePath.Leads, mem_at]
      simp only [h2]
    | .nth a m k, _ => fun u hu => by
      obtain ⟨qs, h1, h2, h3⟩ := step_from E hd n a m hu
      have h4 := C49_positional E n _ u.item k _ _ h1
      refine ⟨((if 1 ≤ k then qs[k - 1]? else none).toList).map .at, ?_, fun v => ?_⟩
      · rw [CorePath.expr, ← nodes_as_spots, Env.Yields, h4]
        congr 1
        have : (1 ≤ (k : Int)) ↔ 1 ≤ k := by omega
        by_cases hk : 1 ≤ k
        · rw [if_pos hk, if_pos (this.2 hk)]
          simp only [Int.toNat_natCast, List.getElem?_map]
          cases qs[k - 1]? <;> rfl
        · rw [if_neg hk, if_neg (fun h => hk (this.1 h))]
          rfl
      · rw [CorePath.Leads, mem_at]
        have key : ∀ q, q ∈ (if 1 ≤ k then qs[k - 1]? else none).toList ↔ 1 ≤ k ∧ qs[k - 1]? = some q := by
          intro q
          by_cases hk : 1 ≤ k
          · rw [if_pos hk, Option.mem_toList]
            exact ⟨fun h => ⟨hk, h⟩, fun h => h.2⟩
          · rw [if_neg hk]
            simp [hk]
        refine ⟨fun ⟨q, h5, h6⟩ => ⟨q, h5, ?_⟩, fun ⟨q, h5, h6, h7, ws, h8, h9, h10⟩ => ⟨q, h5, ?_⟩⟩
        · obtain ⟨h7, ws, h8, h9, h10⟩ := (nth_of_order h3 k q).1 ((key q).1 h6)
          exact ⟨((h2 q).1 h7).1, ((h2 q).1 h7).2, ws, h8, h9, fun w => by rw [h10, h2, and_assoc]⟩
        · exact (key q).2 ((nth_of_order h3 k q).2 ⟨(h2 q).2 ⟨h6, h7⟩, ws, h8, h9, fun w => by rw [h10, h2, and_assoc]⟩)
    | .abs p, hok => fun u hu => by
      rw [CorePath.Ok] at hok
      obtain ⟨vs, h1, h2⟩ := path_means E hd hdict n p hok .root trivial
      refine ⟨vs, ?_, fun v => by rw [CorePath.Leads]; exact h2 v⟩
      rw [CorePath.expr, Env.Yields, run_abs, spot_getRoot hu, bind_one, expr_notJustNode]
      rw [show E.run n p.expr .root = _ from h1]
      rfl
    | .anywhere p, hok => fun u hu => by
      rw [CorePath.Ok] at hok
      have hp := path_means E hd hdict n p hok.1
      have hex : ∀ q : Path, ∃ vs : List Spot, (E.doc.ElemAt q → ∀ v, v ∈ vs ↔ p.Leads E.doc (.at q) v) ∧
          (¬ E.doc.ElemAt q → vs = []) ∧ (E.doc.Has q → E.Yields n p.expr (.node q) (vs.map Spot.item)) := by
        intro q
        by_cases hq : E.doc.ElemAt q
        · obtain ⟨vs, h1, h2⟩ := hp (.at q) hq
          exact ⟨vs, fun _ => h2, fun h => absurd hq h, fun _ => h1⟩
        · refine ⟨[], fun h => absurd h hq, fun _ => rfl, fun ⟨x, hx⟩ => ?_⟩
          cases x with
          | elem m as cs => exact absurd ⟨m, as, cs, hx⟩ hq
          | text s => exact startsDown_text E n hx p hok.2
      obtain ⟨g, hg⟩ := Classical.axiomOfChoice hex
      obtain ⟨vs, h1, h2⟩ := hp .root trivial
      have hhas : ∀ q, q ∈ [] :: E.doc.under [] ↔ E.doc.Has q := by
        intro q
        rw [List.mem_cons, mem_under (p := []) rfl]
        constructor
        · rintro (rfl | h)
          · exact ⟨_, rfl⟩
          · exact h.2
        · intro h
          cases q with
          | nil => exact .inl rfl
          | cons i q => exact .inr ⟨⟨i :: q, by simp, rfl⟩, h⟩
      refine ⟨vs ++ ([] :: E.doc.under []).flatMap g, ?_, fun v => ?_⟩
      · rw [CorePath.expr, Env.Yields, run_absAll, spot_getRoot hu, bind_one, expr_notJustNode]
        rw [show E.run n p.expr .root = _ from h1]
        have hb := bindList_done (f := fun z => E.run n p.expr (z.orElse E.fo E.doc u.item))
          (g := fun z => match z with | .node q => (g q).map Spot.item | _ => []) (.done : Tail) (([] :: E.doc.under []).map .node) (by
            intro y hy
            obtain ⟨q, hq, rfl⟩ := List.mem_map.1 hy
            rw [orElse_truthy (truthy_node E.fo hd q)]
            exact (hg q).2.2 ((hhas q).1 hq))
        simp only [Item.below]
        rw [show (Item.node [] :: (E.doc.under []).map .node : List (Item F)) = ([] :: E.doc.under []).map .node from rfl, hb,
          List.flatMap_map, List.map_append, List.map_flatMap]
        rfl
      · rw [CorePath.Leads, List.mem_append, h2, List.mem_flatMap]
        constructor
        · rintro (h | ⟨q, hq, h⟩)
          · exact ⟨.root, trivial, h⟩
          · by_cases he : E.doc.ElemAt q
            · exact ⟨.at q, he, ((hg q).1 he v).1 h⟩
            · rw [(hg q).2.1 he] at h; cases h
        · rintro ⟨w, hw, h⟩
          cases w with
          | root => exact .inl h
          | «at» q => exact .inr ⟨q, (hhas q).2 (Node.ElemAt.has hw), ((hg q).1 hw v).2 h⟩
    | .seq p q, hok => fun u hu => by
      rw [CorePath.Ok] at hok
      have hp := path_means E hd hdict n p hok.1
      have hq := path_means E hd hdict n q hok.2
      have hex : ∀ w : Spot, ∃ vs : List Spot, E.doc.Place w →
          E.Yields n q.expr w.item (vs.map Spot.item) ∧ ∀ v, v ∈ vs ↔ q.Leads E.doc w v := by
        intro w
        by_cases hw : E.doc.Place w
        · obtain ⟨vs, h⟩ := hq w hw
          exact ⟨vs, fun _ => h⟩
        · exact ⟨[], fun h => absurd h hw⟩
      obtain ⟨g, hg⟩ := Classical.axiomOfChoice hex
      obtain ⟨ws, h1, h2⟩ := after_path E n hp q.expr (fun w => (g w).map Spot.item) (fun w hw => (hg w hw).1) hu
      refine ⟨ws.flatMap g, by rw [CorePath.expr, List.map_flatMap]; exact h1, fun v => ?_⟩
      rw [CorePath.Leads, List.mem_flatMap]
      constructor
      · rintro ⟨w, hw, hv⟩
        have hl := (h2 w).1 hw
        exact ⟨w, hl, ((hg w (leads_place p hu hl)).2 v).1 hv⟩
      · rintro ⟨w, hl, hv⟩
        exact ⟨w, (h2 w).2 hl, ((hg w (leads_place p hu hl)).2 v).2 hv⟩
    | .deep p m, hok => fun u hu => by
      rw [CorePath.Ok] at hok
      have hp := path_means E hd hdict n p hok
      have hex : ∀ w : Spot, ∃ qs : List Path, E.doc.Place w →
          E.Yields n (.step .descendantOrSelf (.name m)) w.item (qs.map .node) ∧
            ∀ q, q ∈ qs ↔ w.Reach .descendantOrSelf q ∧ E.doc.Named m q := by
        intro w
        by_cases hw : E.doc.Place w
        · obtain ⟨qs, h, h', _⟩ := step_from E hd n .descendantOrSelf m hw
          exact ⟨qs, fun _ => ⟨h, h'⟩⟩
        · exact ⟨[], fun h => absurd h hw⟩
      obtain ⟨g, hg⟩ := Classical.axiomOfChoice hex
      obtain ⟨ws, h1, h2⟩ := after_path E n hp (.step .descendantOrSelf (.name m)) (fun w => (g w).map .node) (fun w hw => (hg w hw).1) hu
      refine ⟨(ws.flatMap g).map .at, ?_, fun v => ?_⟩
      · rw [CorePath.expr, ← nodes_as_spots, Env.Yields, run_dslash, List.map_flatMap]
        exact h1
      · rw [CorePath.Leads, mem_at]
        constructor
        · rintro ⟨q, rfl, hq⟩
          obtain ⟨w, hw, hv⟩ := List.mem_flatMap.1 hq
          have hl := (h2 w).1 hw
          have := ((hg w (leads_place p hu hl)).2 q).1 hv
          exact ⟨w, hl, q, rfl, this⟩
        · rintro ⟨w, hl, q, rfl, hv⟩
          exact ⟨q, rfl, List.mem_flatMap.2 ⟨w, (h2 w).2 hl, ((hg w (leads_place p hu hl)).2 q).2 hv⟩⟩
    | .filter p c, hok => fun u hu => by
      rw [CorePath.Ok] at hok
      obtain ⟨vs, h1, h2⟩ := path_means E hd hdict n p hok.1 u hu
      have hc := test_means E hd hdict n c hok.2
      have hpl : ∀ w ∈ vs, E.doc.Place w := fun w hw => leads_place p hu ((h2 w).1 hw)
      have hex : ∀ y : Item F, ∃ ys, ∀ w : Spot, y = w.item → E.doc.Place w → E.Yields n c.expr y ys ∧ NotNumber ys ∧ (E.Ebv ys ↔ c.Holds E.doc w) := by
        intro y
        by_cases hy : ∃ w : Spot, y = w.item ∧ E.doc.Place w
        · obtain ⟨w, rfl, hw⟩ := hy
          obtain ⟨ys, h3, h4, _, h5⟩ := hc w hw
          exact ⟨ys, fun w' he hw' => by cases spot_item_inj he; exact ⟨h3, h4, h5⟩⟩
        · exact ⟨[], fun w h h' => absurd ⟨w, h, h'⟩ hy⟩
      obtain ⟨g, hg⟩ := Classical.axiomOfChoice hex
      classical
      refine ⟨vs.filter fun v => decide (c.Holds E.doc v), ?_, fun v => ?_⟩
      · have := C50_boolean_predicate E n p.expr c.expr u.item (vs.map Spot.item) .done h1
          (fun y hy => by obtain ⟨w, hw, rfl⟩ := List.mem_map.1 hy; exact spot_truthy E w (hpl w hw)) g
          (fun y hy => by obtain ⟨w, hw, rfl⟩ := List.mem_map.1 hy; exact (hg _ w rfl (hpl w hw)).1)
          (fun y hy => by obtain ⟨w, hw, rfl⟩ := List.mem_map.1 hy; exact (hg _ w rfl (hpl w hw)).2.1)
          (fun y => decide (E.Ebv (g y))) (fun y _ => decide_eq_true_iff)
        rw [CorePath.expr, Env.Yields, this, List.filter_map]
        congr 2
        refine List.filter_congr fun w hw => ?_
        rw [Function.comp_apply, decide_eq_decide]
        exact (hg _ w rfl (hpl w hw)).2.2
      · rw [List.mem_filter, decide_eq_true_iff, h2, CorePath.Leads]
    | .either p q, hok => fun u hu => by
      rw [CorePath.Ok] at hok
      obtain ⟨vs, h1, h2⟩ := path_means E hd hdict n p hok.1 u hu
      obtain ⟨ws, h3, h4⟩ := path_means E hd hdict n q hok.2.1 u hu
      have hnode : (u.item : Item F).isNode = true := by cases u <;> rfl
      have hplaced : ∀ y ∈ (vs.map Spot.item ++ ws.map Spot.item : List (Item F)), E.Placed u.item y := by
        intro y hy
        have : ∃ w, y = w.item ∧ E.doc.Place w ∧ w ≠ .root := by
          rcases List.mem_append.1 hy with hy | hy <;> obtain ⟨w, hw, rfl⟩ := List.mem_map.1 hy
          · exact ⟨w, rfl, leads_place p hu ((h2 w).1 hw), by rintro rfl; exact leads_no_root p hok.2.2.1 ((h2 _).1 hw)⟩
          · exact ⟨w, rfl, leads_place q hu ((h4 w).1 hw), by rintro rfl; exact leads_no_root q hok.2.2.2 ((h4 _).1 hw)⟩
        obtain ⟨w, rfl, hw, hr⟩ := this
        cases w with
        | root => exact absurd rfl hr
        | «at» p => exact hw
      obtain ⟨zs, h5, h6, _⟩ := (C51_union_exactly E n p.expr q.expr u.item _ _ hnode h1 h3).1 hplaced
      rw [← List.map_append] at h6
      have hzs : ∃ zs' : List Spot, zs = zs'.map Spot.item ∧ zs'.Perm (vs ++ ws) := by
        refine ⟨zs.map fun y => match y with | .node p => .at p | _ => .root, ?_, ?_⟩
        · rw [List.map_map]
          conv => lhs; rw [← List.map_id zs]
          refine List.map_congr_left fun y hy => ?_
          obtain ⟨w, _, rfl⟩ := List.mem_map.1 (h6.mem_iff.1 hy)
          cases w <;> rfl
        · refine (h6.map _).trans ?_
          rw [List.map_map]
          conv => rhs; rw [← List.map_id (vs ++ ws)]
          rw [show ((fun y : Item F => match y with | .node p => Spot.at p | _ => .root) ∘ Spot.item) = id by
            funext w; cases w <;> rfl]
      obtain ⟨zs', rfl, h7⟩ := hzs
      refine ⟨zs', by rw [CorePath.expr]; exact h5, fun v => ?_⟩
      rw [h7.mem_iff, List.mem_append, h2, h4, CorePath.Leads]
  theorem test_means (E : Env F) (hd : E.doc.NoEmptyText) (hdict : E.doc.Dicts) (n : Nat) : ∀ c : CoreTest, c.Ok → E.TestMeans n c
    | .found p, hok => fun u hu => by
      rw [CoreTest.Ok] at hok
      obtain ⟨vs, h1, h2⟩ := path_means E hd hdict n p hok u hu
      refine ⟨_, by rw [CoreTest.expr]; exact h1, notNumber_spots vs, by simp [CoreTest.mayBeEmpty], ?_⟩
      rw [ebv_spots E fun v hv => leads_place p hu ((h2 v).1 hv), CoreTest.Holds]
      simp only [h2]
    | .attr k, hok => fun u hu => by
      rw [CoreTest.Ok] at hok
      obtain ⟨vs, h1, _, h2⟩ := attr_from E hdict n hok hu
      refine ⟨_, by rw [CoreTest.expr]; exact h1, ?_, by simp [CoreTest.mayBeEmpty], ?_⟩
      · cases u with
        | root => trivial
        | «at» p => cases vs <;> trivial
      · rw [CoreTest.Holds]
        simp only [← h2]
        cases u with
        | root =>
          refine ⟨fun h => False.elim h, ?_⟩
          rintro ⟨v, hv⟩
          exact ((h2 v).1 hv).elim
        | «at» p =>
          cases vs with
          | nil => exact ⟨fun h => False.elim h, fun ⟨v, hv⟩ => by cases hv⟩
          | cons v vs => exact ⟨fun _ => ⟨v, by simp⟩, fun _ => trivial⟩
    | .foundAttr p k, hok => fun u hu => by
      rw [CoreTest.Ok] at hok
      have hex : ∀ w : Spot, ∃ vs : List Str, E.doc.Place w →
          E.Yields n (.step .attribute (.name k)) w.item (w.attrs k vs) ∧
            ∀ v, v ∈ vs ↔ E.doc.AttrAt w k v := by
        intro w
        by_cases hw : E.doc.Place w
        · obtain ⟨vs, h1, _, h2⟩ := attr_from E hdict n hok.2 hw
          exact ⟨vs, fun _ => ⟨h1, h2⟩⟩
        · exact ⟨[], fun h => absurd h hw⟩
      obtain ⟨g, hg⟩ := Classical.axiomOfChoice hex
      obtain ⟨ws, h1, h2⟩ := after_path E n (path_means E hd hdict n p hok.1) (.step .attribute (.name k))
        (fun w => w.attrs k (g w))
        (fun w hw => (hg w hw).1) hu
      have hattr : ∀ y ∈ (ws.flatMap fun w => w.attrs k (g w) : List (Item F)),
          ∃ p v, y = .attr p k v := by
        intro y hy
        obtain ⟨w, _, hy⟩ := List.mem_flatMap.1 hy
        cases w with
        | root => cases hy
        | «at» p =>
          obtain ⟨v, _, rfl⟩ := List.mem_map.1 hy
          exact ⟨p, v, rfl⟩
      have hne : (∃ y, y ∈ (ws.flatMap fun w => w.attrs k (g w) : List (Item F))) ↔
          ∃ w, p.Leads E.doc u w ∧ ∃ v, E.doc.AttrAt w k v := by
        constructor
        · rintro ⟨y, hy⟩
          obtain ⟨w, hw, hy⟩ := List.mem_flatMap.1 hy
          have hl := (h2 w).1 hw
          cases w with
          | root => cases hy
          | «at» q =>
            obtain ⟨v, hv, rfl⟩ := List.mem_map.1 hy
            exact ⟨_, hl, v, ((hg _ (leads_place p hu hl)).2 v).1 hv⟩
        · rintro ⟨w, hl, v, hv⟩
          cases w with
          | root => exact hv.elim
          | «at» q =>
            exact ⟨.attr q k v, List.mem_flatMap.2 ⟨_, (h2 _).2 hl, List.mem_map.2 ⟨v, ((hg _ (leads_place p hu hl)).2 v).2 hv, rfl⟩⟩⟩
      refine ⟨_, by rw [CoreTest.expr]; exact h1, ?_, by simp [CoreTest.mayBeEmpty], ?_⟩
      · revert hattr
        generalize (ws.flatMap fun w => w.attrs k (g w) : List (Item F)) = l
        intro hattr
        cases l with
        | nil => trivial
        | cons y l => obtain ⟨p, v, rfl⟩ := hattr y (by simp); trivial
      · rw [CoreTest.Holds, ← hne]
        revert hattr
        generalize (ws.flatMap fun w => w.attrs k (g w) : List (Item F)) = l
        intro hattr
        cases l with
        | nil => simp [Env.Ebv]
        | cons y l =>
          obtain ⟨p, v, rfl⟩ := hattr y (by simp)
          exact ⟨fun _ => ⟨_, List.mem_cons_self ..⟩, fun _ => trivial⟩
    | .attrIs k v, hok => fun u hu => by
      rw [CoreTest.Ok] at hok
      obtain ⟨vs, h1, hl, h2⟩ := attr_from E hdict n hok hu
      obtain ⟨b, h3, h4⟩ := C52_equality_partial E n (.step .attribute (.name k)) u.item _ v h1
        (by cases u with | root => exact Nat.zero_le _ | «at» p => rw [Spot.attrs, List.length_map]; exact hl) (by
          intro y hy
          cases u with
          | root => cases hy
          | «at» p => obtain ⟨v, _, rfl⟩ := List.mem_map.1 hy; trivial)
      refine testMeans_bool (by rw [CoreTest.expr]; exact h3) (h4.trans ?_)
      rw [CoreTest.Holds, ← h2]
      cases u with
      | root =>
        constructor
        · rintro ⟨y, hy, _⟩; cases hy
        · intro h; exact ((h2 v).1 h).elim
      | «at» p =>
        constructor
        · rintro ⟨y, hy, he⟩
          obtain ⟨v', hv', rfl⟩ := List.mem_map.1 hy
          rw [← he]
          exact hv'
        · intro h
          exact ⟨_, List.mem_map.2 ⟨v, h, rfl⟩, rfl⟩
    | .valueIs s, _ => fun u hu => by
      obtain ⟨b, h3, h4⟩ := C52_equality_partial E n .dot u.item [u.item] s (run_dot ..) (by simp)
        (by intro y hy; rw [List.mem_singleton.1 hy]; cases u <;> trivial)
      refine testMeans_bool (by rw [CoreTest.expr]; exact h3) (h4.trans ?_)
      rw [CoreTest.Holds, ← strVal_spot]
      simp
    | .contains s, _ => fun u hu => by
      obtain ⟨_, b, h3, h4⟩ := C55_starts_with_contains E n .dot (.lit (.str s)) u.item (E.doc.valueAt u) s
        ⟨u.item, by rw [run_dot]; rfl, strVal_spot E u⟩ ⟨.str s, by rw [run_lit]; rfl, rfl⟩
      refine testMeans_bool (by rw [CoreTest.expr]; exact h3) (h4.trans ?_)
      rw [CoreTest.Holds]
    | .startsWith s, _ => fun u hu => by
      obtain ⟨⟨b, h3, h4⟩, _⟩ := C55_starts_with_contains E n .dot (.lit (.str s)) u.item (E.doc.valueAt u) s
        ⟨u.item, by rw [run_dot]; rfl, strVal_spot E u⟩ ⟨.str s, by rw [run_lit]; rfl, rfl⟩
      refine testMeans_bool (by rw [CoreTest.expr]; exact h3) (h4.trans ?_)
      rw [CoreTest.Holds]
    | .not c, hok => fun u hu => by
      rw [CoreTest.Ok] at hok
      obtain ⟨ys, h1, _, _, h2⟩ := test_means E hd hdict n c hok u hu
      obtain ⟨b, h3, _, h4⟩ := C53_boolean_and_not E n c.expr u.item ys h1
      refine testMeans_bool (by rw [CoreTest.expr]; exact h4) ?_
      rw [CoreTest.Holds, ← h2, ← h3]
      cases b <;> simp
    | .and c d, hok => fun u hu => by
      rw [CoreTest.Ok] at hok
      obtain ⟨b1, h1, h3⟩ := operand E n (test_means E hd hdict n c hok.1) hu
      obtain ⟨b2, h4, h6⟩ := operand E n (test_means E hd hdict n d hok.2) hu
      refine testMeans_bool (by rw [CoreTest.expr]; exact (and_bools E n h1 h4).1) ?_
      rw [CoreTest.Holds, ← h3, ← h6, Bool.and_eq_true]
    | .or c d, hok => fun u hu => by
      rw [CoreTest.Ok] at hok
      obtain ⟨b1, h1, h3⟩ := operand E n (test_means E hd hdict n c hok.1) hu
      obtain ⟨b2, h4, h6⟩ := operand E n (test_means E hd hdict n d hok.2) hu
      refine testMeans_bool (by rw [CoreTest.expr]; exact (and_bools E n h1 h4).2) ?_
      rw [CoreTest.Holds, ← h3, ← h6, Bool.or_eq_true]
    | .yes, _ => fun u hu => testMeans_bool (by rw [CoreTest.expr]; exact (C53_constants E n u.item).1) (by rw [CoreTest.Holds]; simp)
    | .no, _ => fun u hu => testMeans_bool (by rw [CoreTest.expr]; exact (C53_constants E n u.item).2) (by rw [CoreTest.Holds]; simp)
end

/-! ### C156 -/

/-- C156: a path, evaluated at the root or at an element of a document, raises nothing and yields exactly the places it leads
to; each of them is the root or an element. -/
theorem C156_paths (E : Env F) (hd : E.doc.NoEmptyText) (hdict : E.doc.Dicts) (n : Nat) {p : CorePath} (hok : p.Ok) {u : Spot} (hu : E.doc.Place u) :
    ∃ vs : List Spot, E.Yields n p.expr u.item (vs.map Spot.item) ∧ ∀ v, v ∈ vs ↔ p.Leads E.doc u v :=
  path_means E hd hdict n p hok u hu

/-- C156: a test raises nothing either; `boolean()` of it is true exactly where it holds. -/
theorem C156_tests (E : Env F) (hd : E.doc.NoEmptyText) (hdict : E.doc.Dicts) (n : Nat) {c : CoreTest} (hok : c.Ok) {u : Spot} (hu : E.doc.Place u) :
    ∃ b : Bool, E.Yields n (.call "boolean".toList [c.expr]) u.item [.bool b] ∧ (b = true ↔ c.Holds E.doc u) := by
  obtain ⟨ys, h1, _, _, h2⟩ := test_means E hd hdict n c hok u hu
  obtain ⟨b, h3, h4, _⟩ := C53_boolean_and_not E n c.expr u.item ys h1
  exact ⟨b, h4, h3.trans h2⟩

/-- C156: a text of a query on the text of a document. -/
theorem C156_on_a_text (fo : FloatOps F) (vars : Str → Option (Item F)) (n : Nat) {e : Node} {w : Str} (h : IsDoc e w)
    {s : Str} {p : CorePath} (hok : p.Ok) (hs : X.xparse fo s = some (.ok p.expr)) :
    ∃ vs : List Spot, (∀ a, QQuery fo vars n (.str w) (.str s) a ↔ a = .items e ⟨vs.map Spot.item, .done⟩) ∧
      ∀ v, v ∈ vs ↔ p.Leads e .root v := by
  obtain ⟨vs, h1, h2⟩ := path_means (queryEnv fo vars e) (doc_noEmpty h) (fun p m as cs hp => doc_dicts h hp) n p hok .root trivial
  refine ⟨vs, fun a => ?_, h2⟩
  rw [C83_query_of_a_text fo vars n h hs, show (queryEnv fo vars e).run n p.expr .root = _ from h1]

/-- C156: the method `xml_xpath` of an element; from the document element the query starts at the root. -/
theorem C156_from_an_element (fo : FloatOps F) (vars : Str → Option (Item F)) (n : Nat) {e : Node} {w : Str} (h : IsDoc e w) {q : Path}
    (hq : e.ElemAt q) {s : Str} {p : CorePath} (hok : p.Ok) (hs : X.xparse fo s = some (.ok p.expr)) :
    ∃ vs : List Spot, xmlXPath fo vars n e q (.str s) = ⟨vs.map Spot.item, .done⟩ ∧
      ∀ v, v ∈ vs ↔ p.Leads e (if q = [] then .root else .at q) v := by
  obtain ⟨vs, h1, h2⟩ := path_means (queryEnv fo vars e) (doc_noEmpty h) (fun p m as cs hp => doc_dicts h hp) n p hok
    (if q = [] then .root else .at q) (by split <;> first | trivial | exact hq)
  refine ⟨vs, ?_, h2⟩
  simp only [xmlXPath, parseText_eq hs, contextItem]
  rw [← h1]
  by_cases hq' : q = [] <;> simp only [hq', if_true, if_false] <;> rfl

/-- C156: two paths that lead to the same places find the same, and tests that hold at the same places can replace each
other: queries are determined by their meaning. -/
theorem C156_same_meaning (E : Env F) (hd : E.doc.NoEmptyText) (hdict : E.doc.Dicts) (n : Nat) {p q : CorePath} (hp : p.Ok) (hq : q.Ok)
    (h : ∀ u v, p.Leads E.doc u v ↔ q.Leads E.doc u v) {u : Spot} (hu : E.doc.Place u) :
    ∃ vs ws : List (Item F), E.Yields n p.expr u.item vs ∧ E.Yields n q.expr u.item ws ∧ ∀ y, y ∈ vs ↔ y ∈ ws := by
  obtain ⟨vs, h1, h2⟩ := path_means E hd hdict n p hp u hu
  obtain ⟨ws, h3, h4⟩ := path_means E hd hdict n q hq u hu
  refine ⟨_, _, h1, h3, fun y => ?_⟩
  rw [List.mem_map, List.mem_map]
  constructor
  · rintro ⟨v, hv, rfl⟩; exact ⟨v, (h4 v).2 ((h u v).1 ((h2 v).1 hv)), rfl⟩
  · rintro ⟨v, hv, rfl⟩; exact ⟨v, (h2 v).2 ((h u v).2 ((h4 v).1 hv)), rfl⟩

/-! ### examples -/

/-- `//c[@i='1' and boolean(b)]/b[not(c)] | /a/b` -/
def exCore : CorePath :=
  .either (.filter (.seq (.filter (.anywhere (.step .child ['c'])) (.and (.attrIs ['i'] ['1']) (.found (.step .child ['b']))))
    (.step .child ['b'])) (.not (.found (.step .child ['c'])))) (.abs (.seq (.step .child ['a']) (.step .child ['b'])))

-- the text is read as this expression
example : X.xparse noFloats "//c[@i='1' and boolean(b)]/b[not(c)] | /a/b".toList = some (.ok exCore.expr) := by
  with_unfolding_all rfl
example : exCore.Ok := by simp [exCore, CorePath.Ok, CoreTest.Ok, CorePath.neverRoot, CorePath.startsDown]
-- in `<a>x<b/><c i="1"><b>y</b></c></a>`, from the root, it finds both elements `b`
example : exEnv.Yields 0 exCore.expr .root [.node [1], .node [2, 0]] := by unfold Env.Yields; decide
theorem exTree_dicts : exTree.Dicts := by
  intro p m as cs h
  rcases at?_nil_text h with h1 | ⟨q, h1, rfl⟩
  · cases h1; simp
  · have : ∀ q ∈ exTree.under [], ∀ m as cs, exTree.at? q = some (.elem m as cs) → as.length ≤ 1 := by
      intro q hq
      have : q = [0] ∨ q = [1] ∨ q = [2] ∨ q = [2, 0] ∨ q = [2, 0, 0] := by
        have h : exTree.under [] = [[0], [1], [2], [2, 0], [2, 0, 0]] := by decide
        rw [h] at hq
        simpa using hq
      rcases this with rfl | rfl | rfl | rfl | rfl <;> intro m as cs h <;> cases h <;> decide
    have := this _ h1 m as cs h
    match as, this with
    | [], _ => exact .nil
    | [_], _ => exact List.pairwise_singleton ..
-- what the meaning says of the second of them
example : exCore.Leads exTree .root (.at [2, 0]) := by
  refine .inl ⟨⟨.at [2], ⟨⟨.at [], ⟨_, _, _, rfl⟩, [2], rfl, ⟨2, rfl⟩, _, _, rfl⟩, ⟨_, _, _, rfl, by simp⟩, .at [2, 0], [2, 0], rfl, ⟨0, rfl⟩, _, _, rfl⟩,
    [2, 0], rfl, ⟨0, rfl⟩, _, _, rfl⟩, ?_⟩
  rintro ⟨v, q, rfl, ⟨i, rfl⟩, as, cs, h⟩
  match i with
  | 0 => cases h
  | i + 1 => cases h
-- the first child `b` of the document element
example : exEnv.Yields 0 (CorePath.nth .child ['b'] 1).expr (.node []) [.node [1]] := by unfold Env.Yields; decide

end Amara
