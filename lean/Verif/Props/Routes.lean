import Verif.Spec.Routes
import Verif.Props.XPathMore
import Verif.Props.Query
/-
C141: what a path of several steps yields.
-/
namespace Amara

variable {F : Type}

/-- The expression of a step by itself. -/
def PathStep.expr : PathStep F → Expr F
  | .plain a m => .step a (.name m)
  | .tested a m t => .pred (.step a (.name m)) [t]
  | .deep m => .step .descendantOrSelf (.name m)

theorem run_stepAfter (E : Env F) (n : Nat) (e : Expr F) (s : PathStep F) (x : Item F) :
    E.run n (s.after e) x = E.run n (.slash e s.expr) x := by
  cases s with
  | plain a m => rfl
  | tested a m t => rfl
  | deep m => exact run_dslash ..

theorem notNumber_of_head {ys : List (Item F)} (h : ∀ y, ys.head? = some y → (∀ i, y ≠ .int i) ∧ ∀ f, y ≠ .float f) :
    NotNumber ys := by
  cases ys with
  | nil => trivial
  | cons y ys =>
    have := h y rfl
    cases y <;> first | trivial | exact absurd rfl (this.1 _) | exact absurd rfl (this.2 _)

theorem yields_unique {E : Env F} {n : Nat} {e : Expr F} {x : Item F} {ys zs : List (Item F)} (h1 : E.Yields n e x ys)
    (h2 : E.Yields n e x zs) : ys = zs := by
  unfold Env.Yields at h1 h2
  rw [h1] at h2
  cases h2
  rfl

/-- What a step yields at an element. -/
theorem step_yields (E : Env F) (hd : E.doc.NoEmptyText) (n : Nat) {s : PathStep F} (hs : E.StepOk n s) {p : Path} (hp : E.doc.ElemAt p) :
    ∃ qs : List Path, E.Yields n s.expr (.node p) (qs.map .node) ∧ (∀ q, q ∈ qs ↔ E.Leads n s p q) ∧ qs.Pairwise (AxisBefore s.axis) := by
  have key : ∀ a m, ElementAxis a → ∃ qs : List Path, E.Yields n (.step a (.name m)) (.node p) (qs.map .node) ∧
      (∀ q, q ∈ qs ↔ OnAxis a p q ∧ E.doc.Named m q) ∧ qs.Pairwise (AxisBefore a) := fun a m ha => C47_name_tests E hd hp n a ha m
  cases s with
  | plain a m =>
    obtain ⟨qs, h1, h2, h3⟩ := key a m hs
    exact ⟨qs, h1, fun q => (h2 q).trans ⟨fun ⟨h4, h5⟩ => ⟨h4, h5, fun _ _ _ h => (by cases h)⟩, fun ⟨h4, h5, _⟩ => ⟨h4, h5⟩⟩, h3⟩
  | deep m =>
    obtain ⟨qs, h1, h2, h3⟩ := key .descendantOrSelf m (by simp [ElementAxis])
    exact ⟨qs, h1, fun q => (h2 q).trans ⟨fun ⟨h4, h5⟩ => ⟨h4, h5, fun _ _ _ h => (by cases h)⟩, fun ⟨h4, h5, _⟩ => ⟨h4, h5⟩⟩, h3⟩
  | tested a m t =>
    obtain ⟨ha, ht⟩ := hs
    obtain ⟨qs, h1, h2, h3⟩ := key a m ha
    have hex : ∀ y : Item F, ∃ ys, ∀ q, y = .node q → E.doc.ElemAt q → E.Yields n t y ys ∧ NotNumber ys := by
      intro y
      by_cases hy : ∃ q, y = .node q ∧ E.doc.ElemAt q
      · obtain ⟨q, rfl, hq⟩ := hy
        obtain ⟨ys, h4, h5⟩ := ht q hq
        exact ⟨ys, fun q' h' _ => by cases h'; exact ⟨h4, notNumber_of_head h5⟩⟩
      · exact ⟨[], fun q h' h'' => absurd ⟨q, h', h''⟩ hy⟩
    obtain ⟨g, hg⟩ := Classical.axiomOfChoice hex
    have hq : ∀ y ∈ (qs.map .node : List (Item F)), ∃ q, y = .node q ∧ E.doc.ElemAt q := by
      intro y hy
      obtain ⟨q, hq, rfl⟩ := List.mem_map.1 hy
      exact ⟨q, rfl, ((h2 q).1 hq).2.elemAt⟩
    classical
    refine ⟨qs.filter fun q => decide (E.Ebv (g (.node q))), ?_, fun q => ?_, h3.filter _⟩
    · have := C50_boolean_predicate E n (.step a (.name m)) t (.node p) (qs.map .node) .done h1
        (fun y hy => by obtain ⟨q, rfl, h4⟩ := hq y hy; exact truthy_elem E.fo h4) g
        (fun y hy => by obtain ⟨q, rfl, h4⟩ := hq y hy; exact (hg _ q rfl h4).1)
        (fun y hy => by obtain ⟨q, rfl, h4⟩ := hq y hy; exact (hg _ q rfl h4).2)
        (fun y => decide (E.Ebv (g y))) (fun y _ => decide_eq_true_iff)
      rw [Env.Yields, PathStep.expr, this, List.filter_map]
      rfl
    · rw [List.mem_filter, h2, decide_eq_true_iff]
      constructor
      · rintro ⟨⟨h4, h5⟩, h6⟩
        refine ⟨h4, h5, ?_⟩
        intro a' m' t' h'
        cases h'
        exact ⟨_, (hg _ q rfl h5.elemAt).1, h6⟩
      · rintro ⟨h4, h5, h6⟩
        obtain ⟨ys, h7, h8⟩ := h6 a m t rfl
        have h5' : E.doc.Named m q := h5
        rw [yields_unique h7 (hg _ q rfl h5'.elemAt).1] at h8
        exact ⟨⟨h4, h5⟩, h8⟩

theorem flatMap_pairwise_cons {ss : List (PathStep F)} {s : PathStep F} {qs : List Path} (hq : qs.Pairwise (AxisBefore s.axis))
    {R : Path → List (List Path)} (hR : ∀ q ∈ qs, (R q).Pairwise (RouteBefore ss)) :
    (qs.flatMap fun q => (R q).map (q :: ·)).Pairwise (RouteBefore (s :: ss)) := by
  rw [List.pairwise_flatMap]
  refine ⟨fun q hqm => ?_, hq.imp fun {a b} hab x hx y hy => ?_⟩
  · rw [List.pairwise_map]
    exact (hR q hqm).imp fun {_ _} h => .inr ⟨rfl, h⟩
  · obtain ⟨x', _, rfl⟩ := List.mem_map.1 hx
    obtain ⟨y', _, rfl⟩ := List.mem_map.1 hy
    exact .inl hab

theorem routeEnd_cons (p q : Path) (r : List Path) : routeEnd p (q :: r) = routeEnd q r := by
  cases r with
  | nil => rfl
  | cons a r =>
    simp only [routeEnd, List.getLast?_cons_cons]
    rw [List.getLast?_eq_some_getLast (List.cons_ne_nil a r)]
    rfl

/-- All routes from each element, in order, and what the path yields. -/
theorem routes_exist (E : Env F) (hd : E.doc.NoEmptyText) (n : Nat) : ∀ (ss : List (PathStep F)), (∀ s ∈ ss, E.StepOk n s) →
    ∃ R : Path → List (List Path), (∀ p, E.doc.ElemAt p → (∀ r, r ∈ R p ↔ E.Route n ss p r) ∧ (R p).Pairwise (RouteBefore ss)) ∧
      ∀ e x (ps : List Path), (∀ p ∈ ps, E.doc.ElemAt p) → E.Yields n e x (ps.map .node) →
        E.Yields n (pathFrom e ss) x ((ps.flatMap fun p => (R p).map (routeEnd p)).map .node) := by
  intro ss
  induction ss with
  | nil =>
    intro _
    refine ⟨fun _ => [[]], fun p _ => ⟨fun r => by simp [Env.Route], by simp⟩, fun e x ps _ h => ?_⟩
    have : (ps.flatMap fun p => ([[]] : List (List Path)).map (routeEnd p)) = ps := by
      simp [routeEnd, List.flatMap_singleton']
    rw [this]
    exact h
  | cons s ss ih =>
    intro hss
    obtain ⟨R, hR, hy⟩ := ih fun s' h => hss s' (by simp [h])
    have hex : ∀ p : Path, ∃ qs : List Path, E.doc.ElemAt p → E.Yields n s.expr (.node p) (qs.map .node) ∧
        (∀ q, q ∈ qs ↔ E.Leads n s p q) ∧ qs.Pairwise (AxisBefore s.axis) := by
      intro p
      by_cases hp : E.doc.ElemAt p
      · obtain ⟨qs, h⟩ := step_yields E hd n (hss s (by simp)) hp
        exact ⟨qs, fun _ => h⟩
      · exact ⟨[], fun h => absurd h hp⟩
    obtain ⟨g, hg⟩ := Classical.axiomOfChoice hex
    have hel : ∀ p, E.doc.ElemAt p → ∀ q ∈ g p, E.doc.ElemAt q := fun p hp q hq => (((hg p hp).2.1 q).1 hq).2.1.elemAt
    refine ⟨fun p => (g p).flatMap fun q => (R q).map (q :: ·), fun p hp => ⟨fun r => ?_, ?_⟩, fun e x ps hps he => ?_⟩
    · rw [List.mem_flatMap]
      constructor
      · rintro ⟨q, hq, hr⟩
        obtain ⟨r', hr', rfl⟩ := List.mem_map.1 hr
        exact ⟨q, r', rfl, ((hg p hp).2.1 q).1 hq, ((hR q (hel p hp q hq)).1 r').1 hr'⟩
      · rintro ⟨q, r', rfl, h1, h2⟩
        have hq := ((hg p hp).2.1 q).2 h1
        exact ⟨q, hq, List.mem_map.2 ⟨r', ((hR q (hel p hp q hq)).1 r').2 h2, rfl⟩⟩
    · exact flatMap_pairwise_cons (hg p hp).2.2 fun q hq => (hR q (hel p hp q hq)).2
    · have h1 : E.Yields n (s.after e) x ((ps.flatMap g).map .node) := by
        rw [Env.Yields, run_stepAfter]
        have := C45_steps_compose E n e s.expr x (ps.map .node)
          (fun y => match y with | .node p => (g p).map .node | _ => []) he
          (by
            intro y hy
            obtain ⟨p, hp', rfl⟩ := List.mem_map.1 hy
            exact truthy_elem E.fo (hps p hp'))
          (by
            intro y hy
            obtain ⟨p, hp', rfl⟩ := List.mem_map.1 hy
            exact (hg p (hps p hp')).1)
        rw [Env.Yields] at this
        rw [this, List.flatMap_map, List.map_flatMap]
      have h2 := hy (s.after e) x (ps.flatMap g) (by
        intro q hq
        obtain ⟨p, hp, hq⟩ := List.mem_flatMap.1 hq
        exact hel p (hps p hp) q hq) h1
      have h3 : ((ps.flatMap g).flatMap fun p => (R p).map (routeEnd p)) =
          ps.flatMap fun p => ((g p).flatMap fun q => (R q).map (q :: ·)).map (routeEnd p) := by
        rw [List.flatMap_assoc]
        congr 1
        funext p
        rw [List.map_flatMap]
        congr 1
        funext q
        rw [List.map_map]
        refine List.map_congr_left fun r _ => ?_
        exact (routeEnd_cons p q r).symm
      rw [pathFrom, ← h3]
      exact h2

/-- C141: a path that begins with any expression that yields elements gives, for each of these in turn, one item for
each route along the path, the element the route ends at; routes that differ at an earlier step first, and at that step
in the order of its axis. -/
theorem C141_one_item_per_route (E : Env F) (hd : E.doc.NoEmptyText) (n : Nat) {ss : List (PathStep F)} (hss : ∀ s ∈ ss, E.StepOk n s) :
    ∃ R : Path → List (List Path),
      (∀ p, E.doc.ElemAt p → (∀ r, r ∈ R p ↔ E.Route n ss p r) ∧ (R p).Pairwise (RouteBefore ss)) ∧
      ∀ e x (ps : List Path), (∀ p ∈ ps, E.doc.ElemAt p) → E.Yields n e x (ps.map .node) →
        E.Yields n (pathFrom e ss) x ((ps.flatMap fun p => (R p).map (routeEnd p)).map .node) := routes_exist E hd n ss hss

/-- C141: the same for a path from an element. -/
theorem C141_from_an_element (E : Env F) (hd : E.doc.NoEmptyText) (n : Nat) {a : Axis} (ha : ElementAxis a) (m : Str)
    {ss : List (PathStep F)} (hss : ∀ s ∈ ss, E.StepOk n s) {p : Path} (hp : E.doc.ElemAt p) :
    ∃ rs : List (List Path), E.Yields n (relPath a m ss) (.node p) ((rs.map (routeEnd p)).map .node) ∧
      (∀ r, r ∈ rs ↔ E.Route n (.plain a m :: ss) p r) ∧ rs.Pairwise (RouteBefore (.plain a m :: ss)) := by
  obtain ⟨R, hR, hy⟩ := routes_exist E hd n ss hss
  obtain ⟨qs, h1, h2, h3⟩ := step_yields E hd n (s := .plain a m) ha hp
  have hel : ∀ q ∈ qs, E.doc.ElemAt q := fun q hq => ((h2 q).1 hq).2.1.elemAt
  refine ⟨qs.flatMap fun q => (R q).map (q :: ·), ?_, fun r => ?_, flatMap_pairwise_cons h3 fun q hq => (hR q (hel q hq)).2⟩
  · have := hy _ _ qs hel h1
    rw [relPath]
    rw [show (qs.flatMap fun q => (R q).map (q :: ·)).map (routeEnd p) = qs.flatMap fun p => (R p).map (routeEnd p) by
      rw [List.map_flatMap]
      congr 1
      funext q
      rw [List.map_map]
      exact List.map_congr_left fun r _ => routeEnd_cons p q r]
    exact this
  · rw [List.mem_flatMap]
    constructor
    · rintro ⟨q, hq, hr⟩
      obtain ⟨r', hr', rfl⟩ := List.mem_map.1 hr
      exact ⟨q, r', rfl, (h2 q).1 hq, ((hR q (hel q hq)).1 r').1 hr'⟩
    · rintro ⟨q, r', rfl, h4, h5⟩
      have hq := (h2 q).2 h4
      exact ⟨q, hq, List.mem_map.2 ⟨r', ((hR q (hel q hq)).1 r').2 h5, rfl⟩⟩

/-! ### routes, from the end -/

theorem routeEnd_snoc (p m : Path) (r : List Path) : routeEnd p (r ++ [m]) = m := by simp [routeEnd]

theorem route_snoc (E : Env F) (n : Nat) (s : PathStep F) : ∀ (ss : List (PathStep F)) (p : Path) (r : List Path),
    E.Route n (ss ++ [s]) p r ↔ ∃ r0 m, r = r0 ++ [m] ∧ E.Route n ss p r0 ∧ E.Leads n s (routeEnd p r0) m := by
  intro ss
  induction ss with
  | nil =>
    intro p r
    constructor
    · rintro ⟨q, r', rfl, h1, rfl⟩; exact ⟨[], q, rfl, rfl, h1⟩
    · rintro ⟨r0, m, rfl, rfl, h2⟩; exact ⟨m, [], rfl, h2, rfl⟩
  | cons t ss ih =>
    intro p r
    constructor
    · rintro ⟨q, r', rfl, h1, h2⟩
      obtain ⟨r0, m, rfl, h3, h4⟩ := (ih q r').1 h2
      exact ⟨q :: r0, m, rfl, ⟨q, r0, rfl, h1, h3⟩, by rw [routeEnd_cons]; exact h4⟩
    · rintro ⟨r0, m, rfl, ⟨q, r', rfl, h1, h2⟩, h4⟩
      rw [routeEnd_cons] at h4
      exact ⟨q, r' ++ [m], rfl, h1, (ih q _).2 ⟨r', m, rfl, h2, h4⟩⟩

theorem routeBefore_snoc {s : PathStep F} : ∀ {ss : List (PathStep F)} {r r' : List Path} {m m' : Path},
    r.length = ss.length → r'.length = ss.length → RouteBefore (ss ++ [s]) (r ++ [m]) (r' ++ [m']) →
    RouteBefore ss r r' ∨ (r = r' ∧ AxisBefore s.axis m m') := by
  intro ss
  induction ss with
  | nil =>
    intro r r' m m' h1 h2 h
    obtain rfl := List.length_eq_zero_iff.1 h1
    obtain rfl := List.length_eq_zero_iff.1 h2
    rcases h with h | ⟨_, h⟩
    · exact .inr ⟨rfl, h⟩
    · exact absurd h (by simp [RouteBefore])
  | cons t ss ih =>
    intro r r' m m' h1 h2 h
    cases r with
    | nil => simp at h1
    | cons x r =>
      cases r' with
      | nil => simp at h2
      | cons y r' =>
        rcases h with h | ⟨rfl, h⟩
        · exact .inl (.inl h)
        · rcases ih (by simpa using h1) (by simpa using h2) h with h' | ⟨rfl, h'⟩
          · exact .inl (.inr ⟨rfl, h'⟩)
          · exact .inr ⟨rfl, h'⟩

theorem route_length (E : Env F) (n : Nat) : ∀ (ss : List (PathStep F)) {p : Path} {r : List Path}, E.Route n ss p r → r.length = ss.length := by
  intro ss
  induction ss with
  | nil => rintro p r rfl; rfl
  | cons s ss ih => rintro p r ⟨q, r', rfl, _, h⟩; simp [ih h]

/-- Down steps lead to something below. -/
theorem leads_down {E : Env F} {n : Nat} {s : PathStep F} (hs : s.Down) {p q : Path} (h : E.Leads n s p q) : ∃ x, q = p ++ x := by
  have h := h.1
  rcases hs with h' | h' | h' | h' <;> rw [h'] at h
  · exact ⟨[], by rw [List.append_nil]; exact h⟩
  · obtain ⟨i, h⟩ := h; exact ⟨[i], h⟩
  · obtain ⟨r, _, h⟩ := h; exact ⟨r, h⟩
  · exact h

/-- With steps of fixed depth all routes end on one level. -/
theorem route_level (E : Env F) (n : Nat) : ∀ (ss : List (PathStep F)), (∀ s ∈ ss, s.Level) → ∃ k, ∀ p r, E.Route n ss p r →
    (routeEnd p r).length = p.length + k := by
  intro ss
  induction ss with
  | nil => intro _; exact ⟨0, fun p r h => by cases h; rfl⟩
  | cons s ss ih =>
    intro hs
    obtain ⟨k, hk⟩ := ih fun s' h => hs s' (by simp [h])
    rcases hs s (by simp) with h | h
    · refine ⟨k, ?_⟩
      rintro p r ⟨q, r', rfl, h1, h2⟩
      rw [routeEnd_cons, hk q r' h2]
      have h1 := h1.1
      rw [h] at h1
      rw [show q = p from h1]
    · refine ⟨1 + k, ?_⟩
      rintro p r ⟨q, r', rfl, h1, h2⟩
      rw [routeEnd_cons, hk q r' h2]
      have h1 := h1.1
      rw [h] at h1
      obtain ⟨i, rfl⟩ := h1
      simp
      omega

theorem docLt_extend : ∀ {p q : Path}, p.length = q.length → docLt p q → ∀ x y, docLt (p ++ x) (q ++ y)
  | [], [], _, h, _, _ => absurd h (by simp [docLt])
  | [], _ :: _, h, _, _, _ => by simp at h
  | _ :: _, [], h, _, _, _ => by simp at h
  | i :: p, j :: q, hl, h, x, y => by
    rcases h with h | ⟨rfl, h⟩
    · exact .inl h
    · exact .inr ⟨rfl, docLt_extend (by simpa using hl) h x y⟩

/-- Routes in order end in order, if all steps but the last are of fixed depth and all go down. -/
theorem order_level (E : Env F) (n : Nat) (p : Path) (ss : List (PathStep F)) (hss : ∀ s ∈ ss, s.Level) : ∀ {r r'},
    E.Route n ss p r → E.Route n ss p r' → RouteBefore ss r r' → docLt (routeEnd p r) (routeEnd p r') := by
  induction ss using list_snoc_induct with
  | h0 => intro r r' h1 h2 h; cases h1; exact absurd h (by simp [RouteBefore])
  | h1 ss s ih =>
    intro r r' h1 h2 h
    obtain ⟨r0, m, rfl, h3, h4⟩ := (route_snoc E n s ss p r).1 h1
    obtain ⟨r1, m', rfl, h5, h6⟩ := (route_snoc E n s ss p r').1 h2
    have hlev : ∀ s ∈ ss, s.Level := fun s' h => hss s' (by simp [h])
    have hs : s.Level := hss s (by simp)
    have hdown : s.Down := by rcases hs with h | h <;> simp [PathStep.Down, h]
    rw [routeEnd_snoc, routeEnd_snoc]
    rcases routeBefore_snoc (route_length E n _ h3) (route_length E n _ h5) h with h' | ⟨rfl, h'⟩
    · obtain ⟨x, rfl⟩ := leads_down hdown h4
      obtain ⟨y, rfl⟩ := leads_down hdown h6
      obtain ⟨k, hk⟩ := route_level E n ss hlev
      exact docLt_extend (by rw [hk p _ h3, hk p _ h5]) (ih hlev h3 h5 h') x y
    · rw [AxisBefore, if_neg (by rcases hs with h | h <;> rw [h] <;> simp)] at h'
      exact h'

theorem order_down (E : Env F) (n : Nat) (p : Path) {ss : List (PathStep F)} (hss : ∀ s ∈ ss, s.Level) {s : PathStep F} (hs : s.Down)
    {r r'} (h1 : E.Route n (ss ++ [s]) p r) (h2 : E.Route n (ss ++ [s]) p r') (h : RouteBefore (ss ++ [s]) r r') :
    docLt (routeEnd p r) (routeEnd p r') := by
  obtain ⟨r0, m, rfl, h3, h4⟩ := (route_snoc E n s ss p r).1 h1
  obtain ⟨r1, m', rfl, h5, h6⟩ := (route_snoc E n s ss p r').1 h2
  rw [routeEnd_snoc, routeEnd_snoc]
  rcases routeBefore_snoc (route_length E n _ h3) (route_length E n _ h5) h with h' | ⟨rfl, h'⟩
  · obtain ⟨x, rfl⟩ := leads_down hs h4
    obtain ⟨y, rfl⟩ := leads_down hs h6
    obtain ⟨k, hk⟩ := route_level E n ss hss
    exact docLt_extend (by rw [hk p _ h3, hk p _ h5]) (order_level E n p ss hss h3 h5 h') x y
  · rw [AxisBefore, if_neg (by rcases hs with h | h | h | h <;> rw [h] <;> simp)] at h'
    exact h'

/-- A route is known from its end, if one step at most is not of fixed depth. -/
theorem route_of_end (E : Env F) (n : Nat) (p : Path) {ss : List (PathStep F)} (hss : ∀ s ∈ ss, s.Level) {s : PathStep F} (hs : s.Down)
    (us : List (PathStep F)) (hus : ∀ s ∈ us, s.Level) : ∀ {r r'}, E.Route n (ss ++ s :: us) p r → E.Route n (ss ++ s :: us) p r' →
    routeEnd p r = routeEnd p r' → r = r' := by
  have level : ∀ (ss : List (PathStep F)) (s : PathStep F), s.Level →
      (∀ {r r'}, E.Route n ss p r → E.Route n ss p r' → routeEnd p r = routeEnd p r' → r = r') →
      ∀ {r r'}, E.Route n (ss ++ [s]) p r → E.Route n (ss ++ [s]) p r' → routeEnd p r = routeEnd p r' → r = r' := by
    intro ss s hs ih r r' h1 h2 h
    obtain ⟨r0, m, rfl, h3, h4⟩ := (route_snoc E n s ss p r).1 h1
    obtain ⟨r1, m', rfl, h5, h6⟩ := (route_snoc E n s ss p r').1 h2
    rw [routeEnd_snoc, routeEnd_snoc] at h
    subst h
    have : routeEnd p r0 = routeEnd p r1 := by
      have h4 := h4.1
      have h6 := h6.1
      rcases hs with h | h <;> rw [h] at h4 h6
      · exact (show m = _ from h4).symm.trans h6
      · obtain ⟨i, h4⟩ := h4
        obtain ⟨j, h6⟩ := h6
        rw [h4] at h6
        exact (List.append_inj' h6 rfl).1
    rw [ih h3 h5 this]
  have flat : ∀ (ss : List (PathStep F)), (∀ s ∈ ss, s.Level) → ∀ {r r'}, E.Route n ss p r → E.Route n ss p r' →
      routeEnd p r = routeEnd p r' → r = r' := by
    intro ss
    induction ss using list_snoc_induct with
    | h0 => intro _ r r' h1 h2 _; rw [show r = [] from h1, show r' = [] from h2]
    | h1 ss s ih => intro hss; exact level ss s (hss s (by simp)) (ih fun s' h => hss s' (by simp [h]))
  induction us using list_snoc_induct with
  | h0 =>
    intro r r' h1 h2 h
    obtain ⟨r0, m, rfl, h3, h4⟩ := (route_snoc E n s ss p r).1 h1
    obtain ⟨r1, m', rfl, h5, h6⟩ := (route_snoc E n s ss p r').1 h2
    rw [routeEnd_snoc, routeEnd_snoc] at h
    subst h
    obtain ⟨x, hx⟩ := leads_down hs h4
    obtain ⟨y, hy⟩ := leads_down hs h6
    obtain ⟨k, hk⟩ := route_level E n ss hss
    have : routeEnd p r0 = routeEnd p r1 :=
      (List.append_inj (hx.symm.trans hy) (by rw [hk p _ h3, hk p _ h5])).1
    rw [flat ss hss h3 h5 this]
  | h1 us u ih =>
    intro r r' h1 h2 h
    have := @level (ss ++ s :: us) u (hus u (by simp)) (ih fun s' h => hus s' (by simp [h])) r r'
    rw [List.append_assoc] at this
    exact this h1 h2 h

theorem axisBefore_irrefl (a : Axis) (x : Path) : ¬ AxisBefore a x x := by
  unfold AxisBefore; split <;> exact docLt_irrefl x

theorem routeBefore_irrefl : ∀ (ss : List (PathStep F)) (r : List Path), ¬ RouteBefore ss r r
  | [], r => by simp [RouteBefore]
  | s :: ss, [] => by simp [RouteBefore]
  | s :: ss, x :: r => by
    rintro (h | ⟨_, h⟩)
    · exact axisBefore_irrefl _ _ h
    · exact routeBefore_irrefl ss r h

/-- C141: exactly the elements at the end of a route are yielded. -/
theorem C141_finds_what_is_along_it (E : Env F) (hd : E.doc.NoEmptyText) (n : Nat) {a : Axis} (ha : ElementAxis a) (m : Str)
    {ss : List (PathStep F)} (hss : ∀ s ∈ ss, E.StepOk n s) {p : Path} (hp : E.doc.ElemAt p) :
    ∃ qs : List Path, E.Yields n (relPath a m ss) (.node p) (qs.map .node) ∧
      ∀ q, q ∈ qs ↔ ∃ r, E.Route n (.plain a m :: ss) p r ∧ routeEnd p r = q := by
  obtain ⟨rs, h1, h2, _⟩ := C141_from_an_element E hd n ha m hss hp
  refine ⟨_, h1, fun q => ?_⟩
  rw [List.mem_map]
  exact ⟨fun ⟨r, h3, h4⟩ => ⟨r, (h2 r).1 h3, h4⟩, fun ⟨r, h3, h4⟩ => ⟨r, (h2 r).2 h3, h4⟩⟩

/-- C141, what holds: steps along `self` and `child`, and then one step along any axis that goes down, give elements in
document order, each once. -/
theorem C141_in_order_partial (E : Env F) (hd : E.doc.NoEmptyText) (n : Nat) {a : Axis} (ha : ElementAxis a) (m : Str)
    {ss : List (PathStep F)} (hss : ∀ s ∈ ss, E.StepOk n s) {p : Path} (hp : E.doc.ElemAt p)
    {us : List (PathStep F)} {s : PathStep F} (hu : .plain a m :: ss = us ++ [s]) (hus : ∀ s ∈ us, s.Level) (hs : s.Down) :
    ∃ qs : List Path, E.Yields n (relPath a m ss) (.node p) (qs.map .node) ∧ qs.Pairwise docLt := by
  obtain ⟨rs, h1, h2, h3⟩ := C141_from_an_element E hd n ha m hss hp
  refine ⟨_, h1, ?_⟩
  rw [List.pairwise_map]
  rw [hu] at h2 h3
  exact h3.imp_of_mem fun {r r'} hr hr' h => order_down E n p hus hs ((h2 r).1 hr) ((h2 r').1 hr') h

/-- C141, what holds: if at most one step is along `descendant`, `descendant-or-self` or `//` and the others are along `self`
and `child`, each element is yielded once. -/
theorem C141_each_once_partial (E : Env F) (hd : E.doc.NoEmptyText) (n : Nat) {a : Axis} (ha : ElementAxis a) (m : Str)
    {ss : List (PathStep F)} (hss : ∀ s ∈ ss, E.StepOk n s) {p : Path} (hp : E.doc.ElemAt p)
    {us vs : List (PathStep F)} {s : PathStep F} (hu : .plain a m :: ss = us ++ s :: vs) (hus : ∀ s ∈ us, s.Level) (hs : s.Down)
    (hvs : ∀ s ∈ vs, s.Level) :
    ∃ qs : List Path, E.Yields n (relPath a m ss) (.node p) (qs.map .node) ∧ qs.Nodup := by
  obtain ⟨rs, h1, h2, h3⟩ := C141_from_an_element E hd n ha m hss hp
  refine ⟨_, h1, ?_⟩
  rw [List.Nodup, List.pairwise_map]
  have hirr := routeBefore_irrefl (F := F)
  refine h3.imp_of_mem fun {r r'} hr hr' h he => ?_
  rw [hu] at h2
  have := route_of_end E n p hus hs vs hvs ((h2 r).1 hr) ((h2 r').1 hr') he
  subst this
  exact hirr _ _ h

/-- `<a><b><b><c/></b><c/></b></a>`, seen from `a`: `descendant::b/child::c` yields the later `c` first, and
`descendant::b/descendant::c` the inner one twice; so does `child::b//b//c`. -/
theorem C141_full_statement_is_false :
    let doc : Node := .elem ['a'] [] [.elem ['b'] [] [.elem ['b'] [] [.elem ['c'] [] []], .elem ['c'] [] []]]
    let E : Env NoF := { exEnv with doc := doc }
    E.Yields 0 (relPath .descendant ['b'] [.plain .child ['c']]) (.node []) [.node [0, 1], .node [0, 0, 0]] ∧
    docLt [0, 0, 0] [0, 1] ∧
    E.Yields 0 (relPath .descendant ['b'] [.plain .descendant ['c']]) (.node []) [.node [0, 0, 0], .node [0, 1], .node [0, 0, 0]] ∧
    E.Yields 0 (relPath .child ['b'] [.deep ['b'], .deep ['c']]) (.node []) [.node [0, 0, 0], .node [0, 1], .node [0, 0, 0]] := by
  refine ⟨by unfold Env.Yields; decide, by simp [docLt], by unfold Env.Yields; decide, by unfold Env.Yields; decide⟩

-- the hypotheses are met: `child::c/child::b[self::b]` and `child::c/descendant::b` in the example document
example : exEnv.StepOk 0 (.plain .child ['b']) := by simp [Env.StepOk, ElementAxis]
example : exEnv.TestOk 0 (.step .self (.name ['b'])) := by
  intro p hp
  by_cases h : exEnv.doc.Named ['b'] p
  all_goals
    obtain ⟨qs, h1, _⟩ := C47_name_tests exEnv (by
      intro p h
      match p with
      | [] => simp [exEnv, exTree, Node.at?] at h
      | 0 :: q => cases q <;> simp [exEnv, exTree, Node.at?, Node.xmlChildren] at h
      | 1 :: q => cases q <;> simp [exEnv, exTree, Node.at?, Node.xmlChildren] at h
      | [2] => simp [exEnv, exTree, Node.at?, Node.xmlChildren] at h
      | 2 :: 0 :: [] => simp [exEnv, exTree, Node.at?, Node.xmlChildren] at h
      | 2 :: 0 :: 0 :: q => cases q <;> simp [exEnv, exTree, Node.at?, Node.xmlChildren] at h
      | 2 :: 0 :: (k + 1) :: q => simp [exEnv, exTree, Node.at?, Node.xmlChildren] at h
      | 2 :: (k + 1) :: q => simp [exEnv, exTree, Node.at?, Node.xmlChildren] at h
      | (k + 3) :: q => simp [exEnv, exTree, Node.at?, Node.xmlChildren] at h) hp 0 .self (by simp) ['b']
    refine ⟨_, h1, ?_⟩
    intro y hy
    cases qs with
    | nil => cases hy
    | cons q qs => cases hy; exact ⟨fun _ h => (by cases h), fun _ h => (by cases h)⟩
example : exEnv.Yields 0 (relPath .child ['c'] [.tested .child ['b'] (.step .self (.name ['b']))]) (.node []) [.node [2, 0]] := by
  unfold Env.Yields; decide

end Amara
