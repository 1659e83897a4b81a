import Verif.Spec.MeaningTests
import Verif.Props.MeaningValues
/-
C166: queries with tests on what other queries find.
-/
namespace Amara

variable {F : Type}

/-! ### lists -/

theorem inTurn_iff {α : Type} {R : Spot → List α → Prop} {g : Spot → List α} : ∀ {ws : List Spot}, (∀ w ∈ ws, ∀ xs, R w xs ↔ xs = g w) →
    ∀ vs, InTurn R ws vs ↔ vs = ws.flatMap g
  | [], _, vs => Iff.rfl
  | w :: ws, h, vs => by
    have ih := inTurn_iff (ws := ws) (fun x hx => h x (by simp [hx]))
    rw [InTurn, List.flatMap_cons]
    constructor
    · rintro ⟨xs, ys, rfl, h1, h2⟩
      rw [(h w (by simp) xs).1 h1, (ih ys).1 h2]
    · rintro rfl
      exact ⟨_, _, rfl, (h w (by simp) _).2 rfl, (ih _).2 rfl⟩

theorem onlyThose_iff {P : Spot → Prop} [DecidablePred P] (ws vs : List Spot) : OnlyThose P ws vs ↔ vs = ws.filter fun v => decide (P v) :=
  ⟨fun h => onlyThose_unique h (onlyThose_filter ws), fun h => h ▸ onlyThose_filter ws⟩

/-- `l[c]` where the list of `l` and the tests are known. -/
theorem filter_list (E : Env F) (n : Nat) {l c : Expr F} {x : Item F} {vs : List Spot} (h1 : E.Yields n l x (vs.map Spot.item))
    (hpl : ∀ w ∈ vs, E.doc.Place w) {P : Spot → Prop} [DecidablePred P]
    (hc : ∀ w, E.doc.Place w → ∃ ys, E.Yields n c w.item ys ∧ NotNumber ys ∧ (E.Ebv ys ↔ P w)) :
    E.Yields n (.pred l [c]) x ((vs.filter fun v => decide (P v)).map Spot.item) := by
  have hex : ∀ y : Item F, ∃ ys, ∀ w : Spot, y = w.item → E.doc.Place w → E.Yields n c y ys ∧ NotNumber ys ∧ (E.Ebv ys ↔ P w) := by
    intro y
    by_cases hy : ∃ w : Spot, y = w.item ∧ E.doc.Place w
    · obtain ⟨w, rfl, hw⟩ := hy
      obtain ⟨ys, h3, h4, h5⟩ := hc w hw
      exact ⟨ys, fun w' he hw' => by cases spot_item_inj he; exact ⟨h3, h4, h5⟩⟩
    · exact ⟨[], fun w h h' => absurd ⟨w, h, h'⟩ hy⟩
  obtain ⟨g, hg⟩ := Classical.axiomOfChoice hex
  classical
  have := C50_boolean_predicate E n l c x (vs.map Spot.item) .done h1
    (fun y hy => by obtain ⟨w, hw, rfl⟩ := List.mem_map.1 hy; exact spot_truthy E w (hpl w hw)) g
    (fun y hy => by obtain ⟨w, hw, rfl⟩ := List.mem_map.1 hy; exact (hg _ w rfl (hpl w hw)).1)
    (fun y hy => by obtain ⟨w, hw, rfl⟩ := List.mem_map.1 hy; exact (hg _ w rfl (hpl w hw)).2.1)
    (fun y => decide (E.Ebv (g y))) (fun y _ => decide_eq_true_iff)
  rw [Env.Yields, this, List.filter_map]
  congr 2
  refine List.filter_congr fun w hw => ?_
  rw [Function.comp_apply, decide_eq_decide]
  exact (hg _ w rfl (hpl w hw)).2.2

/-- What was found is in the document. -/
def Found.In (doc : Node) : Found → Prop
  | .node .root => True
  | .node (.at q) => doc.Has q
  | .attr _ _ _ => True

theorem found_in_spot {doc : Node} {v : Spot} (h : doc.Place v) : (Found.node v).In doc := by
  cases v with
  | root => trivial
  | «at» q => exact Node.ElemAt.has h

theorem end_in {doc : Node} {e : CoreEnd} {u : Spot} {fs : List Found} (h : e.Gives doc u fs) : ∀ f ∈ fs, f.In doc := by
  cases e with
  | texts =>
    obtain ⟨qs, rfl, h⟩ := h
    intro f hf
    obtain ⟨q, hq, rfl⟩ := List.mem_map.1 hf
    obtain ⟨s, hs⟩ := ((h.2 q).1 hq).2
    exact ⟨_, hs⟩
  | nodes =>
    obtain ⟨qs, rfl, h⟩ := h
    intro f hf
    obtain ⟨q, hq, rfl⟩ := List.mem_map.1 hf
    exact ((h.2 q).1 hq).2
  | attr k =>
    rcases h with ⟨p, v, rfl, hv, rfl⟩ | ⟨hv, rfl⟩ <;> intro f hf
    · rw [List.mem_singleton.1 hf]; trivial
    · cases hf
  | attrs =>
    cases u with
    | root => rw [show fs = [] from h]; intro f hf; cases hf
    | «at» p =>
      obtain ⟨m, as, cs, hp, rfl⟩ := h
      intro f hf
      obtain ⟨kv, _, rfl⟩ := List.mem_map.1 hf
      trivial

theorem list_in {doc : Node} {l : CoreList} {u : Spot} (hu : doc.Place u) {fs : List Found} (h : l.Gives doc u fs) : ∀ f ∈ fs, f.In doc := by
  induction l generalizing u fs with
  | path p =>
    obtain ⟨vs, h, rfl⟩ := h
    intro f hf
    obtain ⟨v, hv, rfl⟩ := List.mem_map.1 hf
    exact found_in_spot (leads_place p hu ((gives_leads p h v).1 hv))
  | last e => exact end_in (e := e) h
  | after p e =>
    obtain ⟨vs, _, h⟩ := h
    exact inTurn_each (R := e.Gives doc) (fun w xs hx => end_in hx) h
  | allTexts p =>
    obtain ⟨vs, _, h⟩ := h
    refine inTurn_each ?_ h
    rintro w xs ⟨qs, rfl, h⟩ f hf
    obtain ⟨q, hq, rfl⟩ := List.mem_map.1 hf
    obtain ⟨_, s, hs⟩ := (h.2 q).1 hq
    exact ⟨_, hs⟩
  | abs l ih => exact ih (u := .root) trivial h
  | anywhere l ih =>
    obtain ⟨es, he, h⟩ := h
    have hpl : ∀ w ∈ Spot.root :: es.map Spot.at, doc.Place w := by
      intro w hw
      rcases List.mem_cons.1 hw with rfl | hw
      · trivial
      · obtain ⟨q, hq, rfl⟩ := List.mem_map.1 hw
        exact (he.2 q).1 hq
    exact inTurn_each_of hpl (R := l.Gives doc) (fun w hw xs hx => ih hw hx) h

theorem ebv_found (E : Env F) (hd : E.doc.NoEmptyText) {fs : List Found} (h : ∀ f ∈ fs, f.In E.doc) :
    E.Ebv (fs.map Found.item) ↔ fs ≠ [] := by
  cases fs with
  | nil => simp [Env.Ebv]
  | cons f fs =>
    refine ⟨fun _ => by simp, fun _ => ?_⟩
    match f with
    | .attr p k v => trivial
    | .node .root => trivial
    | .node (.at q) =>
      show E.doc.at? q ≠ some (.text [])
      exact fun h => hd q h

theorem notNumber_found (fs : List Found) : NotNumber (fs.map Found.item : List (Item F)) := by
  match fs with
  | [] => trivial
  | .node .root :: _ => trivial
  | .node (.at _) :: _ => trivial
  | .attr _ _ _ :: _ => trivial

theorem found_stringy (f : Found) : (f.item : Item F).Stringy := by
  match f with
  | .node .root => trivial
  | .node (.at _) => trivial
  | .attr _ _ _ => trivial

/-- The first argument of `contains` and `starts-with`. -/
theorem strArg_found (E : Env F) (n : Nat) {e : Expr F} {x : Item F} {fs : List Found} (h : E.Yields n e x (fs.map Found.item)) (f : Str → Res F) :
    strArg E.fo E.doc (E.run n e x) f = f (E.doc.argText fs) := by
  cases fs with
  | nil => rw [Env.Yields] at h; rw [h]; rfl
  | cons g fs =>
    refine firstStr_strArg ⟨g.item, ?_, strVal_found E g⟩ f
    rw [Env.Yields] at h
    rw [h]
    rfl

/-! ### the evaluator -/

/-- What is to be shown of a path, a list and a test. -/
def Env.TestedGives (E : Env F) (n : Nat) (p : TestedPath) : Prop := ∀ u, E.doc.Place u →
  ∃ vs : List Spot, E.Yields n p.expr u.item (vs.map Spot.item) ∧ (∀ ws, p.Gives E.doc u ws ↔ ws = vs) ∧ ∀ v ∈ vs, E.doc.Place v

def Env.ListGives (E : Env F) (n : Nat) (l : TestedList) : Prop := ∀ u, E.doc.Place u →
  ∃ fs : List Found, E.Yields n l.expr u.item (fs.map Found.item) ∧ (∀ gs, l.Gives E.doc u gs ↔ gs = fs) ∧ ∀ f ∈ fs, f.In E.doc

def Env.ValueTestMeans (E : Env F) (n : Nat) (t : ValueTest) : Prop := ∀ u, E.doc.Place u →
  ∃ ys, E.Yields n t.expr u.item ys ∧ NotNumber ys ∧ (t.mayBeEmpty = false → ∃ b, ys = [.bool b]) ∧ (E.Ebv ys ↔ t.Holds E.doc u)

/-- What is to be shown of several tests, after any list of places. -/
def Env.TestsMean (E : Env F) (n : Nat) (ts : Tests) : Prop :=
  (∀ c ∈ (ts.exprs : List (Expr F)), ∀ w, E.doc.Place w → NotNumber (E.run n c w.item).items) ∧
  ∀ (l : Expr F) (x : Item F) (vs : List Spot), E.Yields n l x (vs.map Spot.item) → (∀ v ∈ vs, E.doc.Place v) →
    ∃ ws : List Spot, E.Yields n (.pred l ts.exprs) x (ws.map Spot.item) ∧ (∀ xs, OnlyThose (ts.Hold E.doc) vs xs ↔ xs = ws) ∧ ∀ w ∈ ws, w ∈ vs

/-- Another test before these, or a number. -/
theorem pred_more {E : Env F} {n : Nat} {ts : Tests} (h : E.TestsMean n ts) (l c : Expr F) (x : Item F) {vs : List Spot}
    (h1 : E.Yields n l x (vs.map Spot.item)) (h3 : ∀ v ∈ vs, E.doc.Place v) :
    E.run n (.pred l (c :: ts.exprs)) x = E.run n (.pred (.pred l [c]) ts.exprs) x := by
  refine C68_successive_predicates_partial E n l c ts.exprs x ?_ ?_ <;> rw [show E.run n l x = _ from h1]
  · intro y hy
    obtain ⟨w, hw, rfl⟩ := List.mem_map.1 hy
    exact spot_truthy E w (h3 w hw)
  · intro q hq y hy
    obtain ⟨w, hw, rfl⟩ := List.mem_map.1 hy
    exact h.1 q hq w (h3 w hw)

/-- Number `k` of a list. -/
theorem number_list (E : Env F) (n : Nat) {l : Expr F} {x : Item F} {vs : List Spot} (h1 : E.Yields n l x (vs.map Spot.item)) (k : Nat) :
    ∃ ws : List Spot, E.Yields n (.pred l [.lit (.int k)]) x (ws.map Spot.item) ∧ (∀ xs, NumberK k vs xs ↔ xs = ws) ∧ ∀ w ∈ ws, w ∈ vs := by
  refine ⟨(if 1 ≤ k then vs[k - 1]? else none).toList, ?_, fun xs => numberK_iff, fun v hv => ?_⟩
  · rw [Env.Yields, C49_positional E n _ x k _ _ h1]
    congr 1
    by_cases h1 : 1 ≤ k
    · rw [if_pos h1, if_pos (show 1 ≤ (k : Int) by omega)]
      simp only [Int.toNat_natCast, List.getElem?_map]
      cases vs[k - 1]? <;> rfl
    · rw [if_neg h1, if_neg (show ¬ 1 ≤ (k : Int) by omega)]
      rfl
  · by_cases h1 : 1 ≤ k
    · rw [if_pos h1, Option.mem_toList] at hv
      exact List.mem_of_getElem? hv
    · rw [if_neg h1] at hv
      cases hv

theorem valueOperand (E : Env F) (n : Nat) {c : ValueTest} (hc : E.ValueTestMeans n c) {u : Spot} (hu : E.doc.Place u) :
    ∃ b : Bool, E.Yields n (if c.mayBeEmpty then .call "boolean".toList [c.expr] else c.expr) u.item [.bool b] ∧
      (b = true ↔ c.Holds E.doc u) := by
  obtain ⟨ys, h1, h2, h3, h4⟩ := hc u hu
  by_cases hm : c.mayBeEmpty = true
  · rw [if_pos hm]
    obtain ⟨b, h5, h6, _⟩ := C53_boolean_and_not E n c.expr u.item ys h1
    exact ⟨_, h6, h5.trans h4⟩
  · rw [if_neg hm]
    obtain ⟨b, rfl⟩ := h3 (by simpa using hm)
    exact ⟨b, h1, h4⟩

theorem valueTest_bool {E : Env F} {n : Nat} {c : ValueTest} {u : Spot} {b : Bool} (h : E.Yields n c.expr u.item [.bool b])
    (hb : b = true ↔ c.Holds E.doc u) :
    ∃ ys, E.Yields n c.expr u.item ys ∧ NotNumber ys ∧ (c.mayBeEmpty = false → ∃ b, ys = [.bool b]) ∧ (E.Ebv ys ↔ c.Holds E.doc u) :=
  ⟨_, h, trivial, fun _ => ⟨b, rfl⟩, hb⟩

/-- Lists after a path. -/
theorem after_tested {E : Env F} {n : Nat} {α : Type} (item : α → Item F) {l r : Expr F} {u : Spot} {R : Spot → List Spot → Prop}
    {S : Spot → List α → Prop} {vs : List Spot} (h1 : E.Yields n l u.item (vs.map Spot.item)) (h2 : ∀ ws, R u ws ↔ ws = vs)
    (hpl : ∀ v ∈ vs, E.doc.Place v) {Q : α → Prop}
    (hr : ∀ w, E.doc.Place w → ∃ fs : List α, E.Yields n r w.item (fs.map item) ∧ (∀ gs, S w gs ↔ gs = fs) ∧ ∀ f ∈ fs, Q f) :
    ∃ fs : List α, E.Yields n (.slash l r) u.item (fs.map item) ∧ (∀ gs, (∃ ws, R u ws ∧ InTurn S ws gs) ↔ gs = fs) ∧ ∀ f ∈ fs, Q f := by
  obtain ⟨g, hg⟩ := Classical.axiomOfChoice (r := fun w fs => E.doc.Place w → E.Yields n r w.item (fs.map item) ∧ (∀ gs, S w gs ↔ gs = fs) ∧
      ∀ f ∈ fs, Q f) fun w => by
    by_cases hw : E.doc.Place w
    · obtain ⟨fs, h⟩ := hr w hw
      exact ⟨fs, fun _ => h⟩
    · exact ⟨[], fun h => absurd h hw⟩
  refine ⟨vs.flatMap g, ?_, fun gs => ?_, fun f hf => ?_⟩
  · rw [List.map_flatMap]
    exact after_list E n h1 hpl _ fun w hw => (hg w hw).1
  · have := inTurn_iff (R := S) (g := g) (ws := vs) (fun w hw => (hg w (hpl w hw)).2.1)
    constructor
    · rintro ⟨ws, h, h'⟩
      rw [(h2 ws).1 h] at h'
      exact (this gs).1 h'
    · rintro rfl
      exact ⟨vs, (h2 vs).2 rfl, (this _).2 rfl⟩
  · obtain ⟨w, hw, hf⟩ := List.mem_flatMap.1 hf
    exact (hg w (hpl w hw)).2.2 f hf

mutual
  theorem tested_gives (E : Env F) (hd : E.doc.NoEmptyText) (hdict : E.doc.Dicts) (n : Nat) : ∀ p : TestedPath, p.Ok → E.TestedGives n p
    | .core p, hok => fun u hu => by
      rw [TestedPath.Ok] at hok
      obtain ⟨vs, h1, h2⟩ := path_gives E hd hdict n p hok u hu
      refine ⟨vs, by rw [TestedPath.expr]; exact h1, fun ws => ?_, fun v hv => leads_place p hu ((gives_leads p h2 v).1 hv)⟩
      rw [TestedPath.Gives]
      exact ⟨fun h => gives_unique p hok h h2, fun h => h ▸ h2⟩
    | .seq p q, hok => fun u hu => by
      rw [TestedPath.Ok] at hok
      obtain ⟨vs, h1, h2, h3⟩ := tested_gives E hd hdict n p hok.1 u hu
      have hq := tested_gives E hd hdict n q hok.2
      obtain ⟨fs, h4, h5, h6⟩ := after_tested (n := n) (r := q.expr) Spot.item (R := p.Gives E.doc) (S := q.Gives E.doc) (Q := E.doc.Place) h1 h2 h3 hq
      exact ⟨fs, by rw [TestedPath.expr]; exact h4, fun ws => by rw [TestedPath.Gives]; exact h5 ws, h6⟩
    | .deep p m, hok => fun u hu => by
      rw [TestedPath.Ok] at hok
      obtain ⟨vs, h1, h2, h3⟩ := tested_gives E hd hdict n p hok u hu
      obtain ⟨fs, h4, h5, h6⟩ := after_tested (n := n) (r := .step .descendantOrSelf (.name m)) Spot.item (R := p.Gives E.doc)
        (S := fun w xs => ∃ qs : List Path, xs = qs.map .at ∧ w.AxisList .descendantOrSelf (E.doc.Named m) qs) (Q := E.doc.Place) h1 h2 h3 fun w hw => by
          obtain ⟨qs, h, h', h''⟩ := step_from E hd n .descendantOrSelf m hw
          refine ⟨qs.map .at, by rw [← nodes_as_spots]; exact h, fun gs => ?_, fun v hv => ?_⟩
          · constructor
            · rintro ⟨rs, rfl, hr⟩
              rw [axisList_unique hr ⟨h'', h'⟩]
            · rintro rfl
              exact ⟨qs, rfl, h'', h'⟩
          · obtain ⟨q, hq, rfl⟩ := List.mem_map.1 hv
            obtain ⟨as, cs, hm⟩ := ((h' q).1 hq).2
            exact ⟨m, as, cs, hm⟩
      refine ⟨fs, ?_, fun ws => by rw [TestedPath.Gives]; exact h5 ws, h6⟩
      rw [TestedPath.expr, Env.Yields, run_dslash]
      exact h4
    | .filter p ts, hok => fun u hu => by
      rw [TestedPath.Ok] at hok
      obtain ⟨vs, h1, h2, h3⟩ := tested_gives E hd hdict n p hok.1 u hu
      obtain ⟨ws, h4, h5, h6⟩ := (tests_mean E hd hdict n ts hok.2).2 p.expr u.item vs h1 h3
      refine ⟨ws, by rw [TestedPath.expr]; exact h4, fun xs => ?_, fun v hv => h3 v (h6 v hv)⟩
      rw [TestedPath.Gives]
      constructor
      · rintro ⟨ys, h, h'⟩
        rw [(h2 ys).1 h] at h'
        exact (h5 xs).1 h'
      · rintro rfl
        exact ⟨vs, (h2 vs).2 rfl, (h5 _).2 rfl⟩
    | .number p k, hok => fun u hu => by
      rw [TestedPath.Ok] at hok
      obtain ⟨vs, h1, h2, h3⟩ := tested_gives E hd hdict n p hok u hu
      obtain ⟨ws, h4, h5, h6⟩ := number_list E n h1 k
      refine ⟨ws, by rw [TestedPath.expr]; exact h4, fun xs => ?_, fun v hv => h3 v (h6 v hv)⟩
      rw [TestedPath.Gives]
      constructor
      · rintro ⟨ys, h, h'⟩
        rw [(h2 ys).1 h] at h'
        exact (h5 xs).1 h'
      · rintro rfl
        exact ⟨vs, (h2 vs).2 rfl, (h5 _).2 rfl⟩
    | .numberThen p k ts, hok => fun u hu => by
      rw [TestedPath.Ok] at hok
      obtain ⟨vs, h1, h2, h3⟩ := tested_gives E hd hdict n p hok.1 u hu
      obtain ⟨ws, h4, h5, h6⟩ := number_list E n h1 k
      have ht := tests_mean E hd hdict n ts hok.2
      obtain ⟨zs, h7, h8, h9⟩ := ht.2 _ u.item ws h4 fun v hv => h3 v (h6 v hv)
      refine ⟨zs, ?_, fun xs => ?_, fun v hv => h3 v (h6 v (h9 v hv))⟩
      · rw [TestedPath.expr, Env.Yields, pred_more ht _ _ _ h1 h3]
        exact h7
      · rw [TestedPath.Gives]
        constructor
        · rintro ⟨ys, ys', h, h', h''⟩
          rw [(h2 ys).1 h] at h'
          rw [(h5 ys').1 h'] at h''
          exact (h8 xs).1 h''
        · rintro rfl
          exact ⟨vs, ws, (h2 vs).2 rfl, (h5 _).2 rfl, (h8 _).2 rfl⟩
  theorem testedList_gives (E : Env F) (hd : E.doc.NoEmptyText) (hdict : E.doc.Dicts) (n : Nat) : ∀ l : TestedList, l.Ok → E.ListGives n l
    | .path p, hok => fun u hu => by
      rw [TestedList.Ok] at hok
      obtain ⟨vs, h1, h2, h3⟩ := tested_gives E hd hdict n p hok u hu
      refine ⟨vs.map .node, by rw [TestedList.expr, ← spots_found]; exact h1, fun gs => ?_, fun f hf => ?_⟩
      · rw [TestedList.Gives]
        constructor
        · rintro ⟨ws, h, rfl⟩
          rw [(h2 ws).1 h]
        · rintro rfl
          exact ⟨vs, (h2 vs).2 rfl, rfl⟩
      · obtain ⟨v, hv, rfl⟩ := List.mem_map.1 hf
        exact found_in_spot (h3 v hv)
    | .core l, hok => fun u hu => by
      rw [TestedList.Ok] at hok
      obtain ⟨fs, h1, h2⟩ := list_gives E hd hdict n hok hu
      refine ⟨fs, by rw [TestedList.expr]; exact h1, fun gs => ?_, list_in hu h2⟩
      rw [TestedList.Gives]
      exact ⟨fun h => list_unique hdict hok h h2, fun h => h ▸ h2⟩
    | .seq p l, hok => fun u hu => by
      rw [TestedList.Ok] at hok
      obtain ⟨vs, h1, h2, h3⟩ := tested_gives E hd hdict n p hok.1 u hu
      obtain ⟨fs, h4, h5, h6⟩ := after_tested (n := n) (r := l.expr) Found.item (R := p.Gives E.doc) (S := l.Gives E.doc) (Q := fun f => f.In E.doc)
        h1 h2 h3 fun w hw => by
          obtain ⟨fs, h1, h2⟩ := list_gives E hd hdict n hok.2 hw
          exact ⟨fs, h1, fun gs => ⟨fun h => list_unique hdict hok.2 h h2, fun h => h ▸ h2⟩, list_in hw h2⟩
      exact ⟨fs, by rw [TestedList.expr]; exact h4, fun ws => by rw [TestedList.Gives]; exact h5 ws, h6⟩
  theorem tests_mean (E : Env F) (hd : E.doc.NoEmptyText) (hdict : E.doc.Dicts) (n : Nat) : ∀ ts : Tests, ts.Ok → E.TestsMean n ts
    | .one t, hok => by
      rw [Tests.Ok] at hok
      have ht := valueTest_means E hd hdict n t hok
      refine ⟨fun c hc w hw => ?_, fun l x vs h1 h3 => ?_⟩
      · rw [Tests.exprs, List.mem_singleton] at hc
        obtain ⟨ys, h4, h5, _⟩ := ht w hw
        rw [hc, show E.run n t.expr w.item = _ from h4]
        exact h5
      · classical
        refine ⟨vs.filter fun v => decide (t.Holds E.doc v), ?_, fun xs => ?_, fun w hw => (List.mem_filter.1 hw).1⟩
        · rw [Tests.exprs]
          refine filter_list E n h1 h3 fun w hw => ?_
          obtain ⟨ys, h4, h5, _, h6⟩ := ht w hw
          exact ⟨ys, h4, h5, h6⟩
        · rw [funext fun w => Tests.Hold.eq_1 E.doc w t]
          exact onlyThose_iff _ _
    | .more t ts, hok => by
      rw [Tests.Ok] at hok
      have ht := valueTest_means E hd hdict n t hok.1
      have hts := tests_mean E hd hdict n ts hok.2
      refine ⟨fun c hc w hw => ?_, fun l x vs h1 h3 => ?_⟩
      · rw [Tests.exprs, List.mem_cons] at hc
        rcases hc with rfl | hc
        · obtain ⟨ys, h4, h5, _⟩ := ht w hw
          rw [show E.run n t.expr w.item = _ from h4]
          exact h5
        · exact hts.1 c hc w hw
      · classical
        have hf := filter_list E n h1 h3 (c := t.expr) (P := t.Holds E.doc) fun w hw => by
          obtain ⟨ys, h4, h5, _, h6⟩ := ht w hw
          exact ⟨ys, h4, h5, h6⟩
        obtain ⟨ws, h4, h5, h6⟩ := hts.2 _ x _ hf fun v hv => h3 v (List.mem_filter.1 hv).1
        refine ⟨ws, ?_, fun xs => ?_, fun w hw => (List.mem_filter.1 (h6 w hw)).1⟩
        · rw [Tests.exprs, Env.Yields, pred_more hts _ _ _ h1 h3]
          exact h4
        · rw [← h5 xs, onlyThose_iff, onlyThose_iff, List.filter_filter]
          have : (fun v => decide ((Tests.more t ts).Hold E.doc v)) = fun v => decide (ts.Hold E.doc v) && decide (t.Holds E.doc v) := by
            funext v
            rw [← Bool.decide_and, decide_eq_decide, Tests.Hold]
            exact and_comm
          rw [this]
  theorem valueTest_means (E : Env F) (hd : E.doc.NoEmptyText) (hdict : E.doc.Dicts) (n : Nat) : ∀ t : ValueTest, t.Ok → E.ValueTestMeans n t
    | .found l, hok => fun u hu => by
      rw [ValueTest.Ok] at hok
      obtain ⟨fs, h1, h2, h3⟩ := testedList_gives E hd hdict n l hok u hu
      refine ⟨_, by rw [ValueTest.expr]; exact h1, notNumber_found fs, by simp [ValueTest.mayBeEmpty], ?_⟩
      rw [ebv_found E hd h3, ValueTest.Holds]
      simp only [h2]
      cases fs with
      | nil => simp
      | cons f fs => exact ⟨fun _ => ⟨f, fs, rfl⟩, fun _ => by simp⟩
    | .is l s, hok => fun u hu => by
      rw [ValueTest.Ok] at hok
      obtain ⟨fs, h1, h2, h3⟩ := testedList_gives E hd hdict n l hok u hu
      cases fs with
      | nil =>
        refine valueTest_bool (b := false) (by rw [ValueTest.expr]; exact (C52_exactly E n l.expr _ u.item).1 (by rw [h1]; rfl) (by rw [h1])) ?_
        rw [ValueTest.Holds]
        simp only [h2]
        simp
      | cons f fs =>
        obtain ⟨b, h4, h5⟩ := C52_only_the_first_item E n l.expr u.item f.item (fs.map Found.item) s h1 (found_stringy f)
        refine valueTest_bool (b := b) (by rw [ValueTest.expr]; exact h4) ?_
        rw [h5, strVal_found, ValueTest.Holds]
        simp only [h2]
        constructor
        · intro h; exact ⟨f, fs, rfl, h⟩
        · rintro ⟨g, gs, h, h'⟩
          cases h
          exact h'
    | .count l op k, hok => fun u hu => by
      rw [ValueTest.Ok] at hok
      obtain ⟨fs, h1, h2, h3⟩ := testedList_gives E hd hdict n l hok u hu
      have hc : E.run n (.call "count".toList [l.expr]) u.item = ⟨[.int fs.length], .done⟩ := by
        have := C54_count E n l.expr u.item _ h1
        rwa [List.length_map] at this
      obtain ⟨b, h4, h5⟩ := (C86_integers E n (.call "count".toList [l.expr]) (.lit (.int k)) u.item fs.length k (by rw [Env.First, hc]; rfl)
        (by rw [Env.First, run_lit]; rfl)).1 op
      refine valueTest_bool (b := b) (by rw [ValueTest.expr]; exact h4) ?_
      rw [h5, ValueTest.Holds]
      have : op.Says (fs.length : Int) (k : Int) ↔ op.Says fs.length k := by
        cases op <;> simp only [Rel.Says] <;> omega
      rw [this]
      constructor
      · exact fun h => ⟨fs, (h2 fs).2 rfl, h⟩
      · rintro ⟨gs, h, h'⟩
        rwa [(h2 gs).1 h] at h'
    | .countIs l k, hok => fun u hu => by
      rw [ValueTest.Ok] at hok
      obtain ⟨fs, h1, h2, h3⟩ := testedList_gives E hd hdict n l hok u hu
      have hc : E.run n (.call "count".toList [l.expr]) u.item = ⟨[.int fs.length], .done⟩ := by
        have := C54_count E n l.expr u.item _ h1
        rwa [List.length_map] at this
      refine valueTest_bool (b := decide (fs.length = k)) ?_ ?_
      · rw [ValueTest.expr, Env.Yields, run_eq, hc, run_lit]
        have hp : (Item.int fs.length : Item F).pyEq E.fo E.doc (.int k) = decide (fs.length = k) := by
          show (some (compare (fs.length : Int) (k : Int)) == some Ordering.eq) = _
          by_cases h : fs.length = k
          · rw [h, decide_eq_true rfl]
            simp [compare, compareOfLessAndEq]
          · rw [decide_eq_false h]
            have : (fs.length : Int) ≠ k := by omega
            simp only [compare, compareOfLessAndEq, if_neg this]
            split <;> rfl
        simp only [eqRes, eqLoop, Item.atom, Item.isNode, Bool.false_eq_true, if_false, hp]
        cases decide (fs.length = k) <;> rfl
      · rw [decide_eq_true_iff, ValueTest.Holds]
        constructor
        · exact fun h => ⟨fs, (h2 fs).2 rfl, h⟩
        · rintro ⟨gs, h, h'⟩
          rwa [(h2 gs).1 h] at h'
    | .contains l s, hok => fun u hu => by
      rw [ValueTest.Ok] at hok
      obtain ⟨fs, h1, h2, h3⟩ := testedList_gives E hd hdict n l hok u hu
      refine valueTest_bool (b := pyContains (E.doc.argText fs) s) ?_ ?_
      · rw [ValueTest.expr, Env.Yields, run_contains, strArg_found E n h1, firstStr_strArg (s := s) ⟨.str s, by rw [run_lit]; rfl, rfl⟩]
        rfl
      · rw [pyContains_iff, ValueTest.Holds]
        constructor
        · exact fun h => ⟨fs, (h2 fs).2 rfl, h⟩
        · rintro ⟨gs, h, h'⟩
          rwa [(h2 gs).1 h] at h'
    | .startsWith l s, hok => fun u hu => by
      rw [ValueTest.Ok] at hok
      obtain ⟨fs, h1, h2, h3⟩ := testedList_gives E hd hdict n l hok u hu
      refine valueTest_bool (b := pyStartsWith (E.doc.argText fs) s) ?_ ?_
      · rw [ValueTest.expr, Env.Yields, run_starts_with, strArg_found E n h1, firstStr_strArg (s := s) ⟨.str s, by rw [run_lit]; rfl, rfl⟩]
        rfl
      · rw [ValueTest.Holds]
        refine isPrefixOf_append.trans ?_
        constructor
        · exact fun h => ⟨fs, (h2 fs).2 rfl, h⟩
        · rintro ⟨gs, h, h'⟩
          rwa [(h2 gs).1 h] at h'
    | .nameIs m, _ => fun u hu => by
      have hn : ∃ k, E.doc.NameAt u k ∧ E.Yields n (.call "name".toList []) u.item [.str k] := by
        cases u with
        | root => exact ⟨[], rfl, by rw [Env.Yields, run_name]; rfl⟩
        | «at» p =>
          obtain ⟨k, as, cs, hp⟩ := hu
          exact ⟨k, ⟨as, cs, hp⟩, (C87_name_partial E n .dot (.node p)).1 p k rfl ⟨as, cs, hp⟩⟩
      obtain ⟨k, hk, hy⟩ := hn
      obtain ⟨b, h4, h5⟩ := C52_only_the_first_item E n (.call "name".toList []) u.item (.str k) [] m hy trivial
      refine valueTest_bool (b := b) (by rw [ValueTest.expr]; exact h4) ?_
      rw [h5, ValueTest.Holds]
      show k = m ↔ _
      constructor
      · rintro rfl; exact hk
      · intro h
        cases u with
        | root => exact (show k = [] from hk).trans (show m = [] from h).symm
        | «at» p =>
          obtain ⟨as, cs, hp⟩ := (show E.doc.Named k p from hk)
          obtain ⟨as', cs', hp'⟩ := (show E.doc.Named m p from h)
          rw [hp] at hp'
          cases hp'
          rfl
    | .not t, hok => fun u hu => by
      rw [ValueTest.Ok] at hok
      obtain ⟨ys, h1, _, _, h4⟩ := valueTest_means E hd hdict n t hok u hu
      obtain ⟨b, h5, _, h6⟩ := C53_boolean_and_not E n t.expr u.item ys h1
      refine valueTest_bool (b := !b) (by rw [ValueTest.expr]; exact h6) ?_
      rw [ValueTest.Holds, ← h4, ← h5]
      cases b <;> simp
    | .and t t', hok => fun u hu => by
      rw [ValueTest.Ok] at hok
      obtain ⟨b, h1, h2⟩ := valueOperand E n (valueTest_means E hd hdict n t hok.1) hu
      obtain ⟨b', h3, h4⟩ := valueOperand E n (valueTest_means E hd hdict n t' hok.2) hu
      refine valueTest_bool (b := b && b') (by rw [ValueTest.expr]; exact (and_bools E n h1 h3).1) ?_
      rw [ValueTest.Holds, Bool.and_eq_true, h2, h4]
    | .or t t', hok => fun u hu => by
      rw [ValueTest.Ok] at hok
      obtain ⟨b, h1, h2⟩ := valueOperand E n (valueTest_means E hd hdict n t hok.1) hu
      obtain ⟨b', h3, h4⟩ := valueOperand E n (valueTest_means E hd hdict n t' hok.2) hu
      refine valueTest_bool (b := b || b') (by rw [ValueTest.expr]; exact (and_bools E n h1 h3).2) ?_
      rw [ValueTest.Holds, Bool.or_eq_true, h2, h4]
end

/-! ### C166 -/

/-- C166: a query with tests yields exactly the list it gives: these nodes and attributes, in this order, each as often as it
stands there. -/
theorem C166_exactly (E : Env F) (hd : E.doc.NoEmptyText) (hdict : E.doc.Dicts) (n : Nat) {l : TestedList} (hl : l.Ok) {u : Spot} (hu : E.doc.Place u)
    (ys : List (Item F)) : E.Yields n l.expr u.item ys ↔ ∃ fs : List Found, l.Gives E.doc u fs ∧ ys = fs.map Found.item := by
  obtain ⟨fs, h1, h2, _⟩ := testedList_gives E hd hdict n l hl u hu
  constructor
  · intro h
    refine ⟨fs, (h2 fs).2 rfl, ?_⟩
    rw [Env.Yields] at h h1
    rw [h] at h1
    cases h1
    rfl
  · rintro ⟨gs, h3, rfl⟩
    rw [(h2 gs).1 h3]
    exact h1

/-- C166: there is one such list. -/
theorem C166_one_list {doc : Node} (hd : doc.NoEmptyText) (hdict : doc.Dicts) {l : TestedList} (hl : l.Ok) {u : Spot} (hu : doc.Place u) :
    ∃ fs : List Found, ∀ gs, l.Gives doc u gs ↔ gs = fs := by
  obtain ⟨fs, _, h2, _⟩ := testedList_gives (queryEnv noFloats (fun _ => none) doc) hd hdict 0 l hl u hu
  exact ⟨fs, h2⟩

/-- C166: a test raises nothing, and `boolean()` of it is true exactly where it holds. -/
theorem C166_tests (E : Env F) (hd : E.doc.NoEmptyText) (hdict : E.doc.Dicts) (n : Nat) {t : ValueTest} (ht : t.Ok) {u : Spot} (hu : E.doc.Place u) :
    ∃ b : Bool, E.Yields n (.call "boolean".toList [t.expr]) u.item [.bool b] ∧ (b = true ↔ t.Holds E.doc u) := by
  obtain ⟨ys, h1, _, _, h2⟩ := valueTest_means E hd hdict n t ht u hu
  obtain ⟨b, h3, h4, _⟩ := C53_boolean_and_not E n t.expr u.item ys h1
  exact ⟨b, h4, h3.trans h2⟩

/-- C166: the text of such a query on the text of a document. -/
theorem C166_on_a_text (fo : FloatOps F) (vars : Str → Option (Item F)) (n : Nat) {e : Node} {w : Str} (h : IsDoc e w)
    {s : Str} {l : TestedList} (hl : l.Ok) (hs : X.xparse fo s = some (.ok l.expr)) {fs : List Found} (hf : l.Gives e .root fs) (a : Answer F) :
    QQuery fo vars n (.str w) (.str s) a ↔ a = .items e ⟨fs.map Found.item, .done⟩ := by
  have h1 := (C166_exactly (queryEnv fo vars e) (doc_noEmpty h) (fun p m as cs hp => doc_dicts h hp) n hl (u := .root) trivial _).2 ⟨fs, hf, rfl⟩
  rw [C83_query_of_a_text fo vars n h hs, show (queryEnv fo vars e).run n l.expr .root = _ from h1]

/-- C166: the method `xml_xpath` of an element; from the document element the query starts at the root. -/
theorem C166_from_an_element (fo : FloatOps F) (vars : Str → Option (Item F)) (n : Nat) {e : Node} {w : Str} (h : IsDoc e w) {q : Path}
    (hq : e.ElemAt q) {s : Str} {l : TestedList} (hl : l.Ok) (hs : X.xparse fo s = some (.ok l.expr)) {fs : List Found}
    (hf : l.Gives e (if q = [] then .root else .at q) fs) : xmlXPath fo vars n e q (.str s) = ⟨fs.map Found.item, .done⟩ := by
  have h1 := (C166_exactly (queryEnv fo vars e) (doc_noEmpty h) (fun p m as cs hp => doc_dicts h hp) n hl
    (u := if q = [] then .root else .at q) (by split <;> first | trivial | exact hq) _).2 ⟨fs, hf, rfl⟩
  simp only [xmlXPath, parseText_eq hs, contextItem]
  rw [← h1]
  by_cases hq' : q = [] <;> simp only [hq', if_true, if_false] <;> rfl

/-- C166: what the tool prints for one source and `--expr`, if the root node is not among what is found. -/
theorem C166_microx_one_source (fo : FloatOps F) (n : Nat) (a : MicroxArgs) (hp : a.partition = none) {t : Str} {l : TestedList} (hl : l.Ok)
    (hc : a.command = .expr t) (ht : X.xparse fo t = some (.ok l.expr)) (hfe : a.foreach = none ∨ a.foreach = some [])
    {s : List XCall × Bool} {d : Node} (hd : SourceOf s d) (hne : d.NoEmptyText) (hdict : d.Dicts) {fs : List Found} (hf : l.Gives d .root fs)
    (hr : .node .root ∉ fs) {ls : List Str} (hls : d.LinesOf fs ls) (out : RunOut) :
    MicroxRun fo n a [s] out ↔ out = ⟨ls, .tail .done⟩ := by
  obtain ⟨gs, h1, h2, h3⟩ := testedList_gives (queryEnv fo (fun _ => none) d) hne hdict n l hl .root trivial
  have hgs := (h2 fs).1 hf
  subst hgs
  have hpr : ∀ f ∈ fs, f.Printable d := by
    intro f hf
    have := h3 f hf
    match f, this with
    | .node .root, _ => exact absurd hf hr
    | .node (.at q), h => exact h
    | .attr _ _ _, _ => trivial
  have e1 : a.command.parse fo = .ok (.expr l.expr) := by rw [hc, Command.parse, parseText_eq ht]; rfl
  have e2 : parseForeach fo a.foreach = .ok (none : Option (Expr F)) := by rcases hfe with h | h <;> rw [h] <;> rfl
  rw [C94_one_source_partial fo n a hp e1 e2 hd]
  have hproc : processPartition fo n a.showAttrs (.expr l.expr) none d = ⟨ls, .done⟩ := by
    rw [(lines_found (queryEnv fo (fun _ => none) d) hpr ls).1 hls]
    exact (C63_expr (queryEnv fo (fun _ => none) d) n l.expr _ _ h1).1 (printable_no_root hpr)
  rw [inTurn_cons, hproc]
  show out = ⟨ls ++ [], _⟩ ↔ _
  rw [List.append_nil]
  exact Iff.rfl

/-! ### examples -/

/-- `<l><k a="x"><t>u</t><t>v</t></k><k a="y"><t>v</t></k><k/></l>` -/
def exShelf : Node :=
  .elem ['l'] [] [.elem ['k'] [(['a'], ['x'])] [.elem ['t'] [] [.text ['u']], .elem ['t'] [] [.text ['v']]],
    .elem ['k'] [(['a'], ['y'])] [.elem ['t'] [] [.text ['v']]], .elem ['k'] [] []]


theorem exShelf_plain : exShelf.NoEmptyText := noEmptyText_of (by decide) (by decide)

/-- `//k[t = 'v']/@a`: the first `t` has the text. -/
def exIs : TestedList := .seq (.filter (.core (.anywhere (.step .child ['k']))) (.one (.is (.path (.core (.step .child ['t']))) ['v']))) (.last (.attr ['a']))
/-- `//k[t[. = 'v']]/@a`: some `t` has the text. -/
def exSome : TestedList := .seq (.filter (.core (.anywhere (.step .child ['k'])))
  (.one (.found (.path (.filter (.core (.step .child ['t'])) (.one (.is (.path (.core .here)) ['v']))))))) (.last (.attr ['a']))
/-- `//k[count(t) < 2][not(contains(@a, 'al'))]` -/
def exCount : TestedList := .path (.filter (.core (.anywhere (.step .child ['k'])))
  (.more (.count (.path (.core (.step .child ['t']))) .lt 2) (.one (.not (.contains (.core (.last (.attr ['a']))) ['a', 'l'])))))
/-- `//k[2][@a]/t/text()` -/
def exNumber : TestedList := .seq (.numberThen (.core (.anywhere (.step .child ['k']))) 2 (.one (.found (.core (.last (.attr ['a']))))))
  (.after (.step .child ['t']) .texts)

example : X.xparse noFloats "//k[t = 'v']/@a".toList = some (.ok exIs.expr) := by rfl
example : X.xparse noFloats "//k[t[. = 'v']]/@a".toList = some (.ok exSome.expr) := by rfl
example : X.xparse noFloats "//k[count(t) < 2][not(contains(@a, 'al'))]".toList = some (.ok exCount.expr) := by rfl
example : X.xparse noFloats "//k[2][@a]/t/text()".toList = some (.ok exNumber.expr) := by rfl

theorem exShelf_dicts : exShelf.Dicts := by
  intro p m as cs h
  rcases at?_nil_text h with h1 | ⟨q, h1, rfl⟩
  · cases h1; exact .nil
  · have : ∀ q ∈ exShelf.under [], ∀ m as cs, exShelf.at? q = some (.elem m as cs) → as.length ≤ 1 := by
      intro q hq
      have h : exShelf.under [] = [[0], [0, 0], [0, 0, 0], [0, 1], [0, 1, 0], [1], [1, 0], [1, 0, 0], [2]] := by decide
      rw [h] at hq
      simp only [List.mem_cons, List.not_mem_nil, or_false] at hq
      rcases hq with rfl | rfl | rfl | rfl | rfl | rfl | rfl | rfl | rfl <;> intro m as cs h <;> cases h <;> simp
    have := this q h1 m as cs h
    match as, this with
    | [], _ => exact .nil
    | [_], _ => simp

theorem tested_of_items {E : Env F} (hd : E.doc.NoEmptyText) (hdict : E.doc.Dicts) {n : Nat} {l : TestedList} (hl : l.Ok) {u : Spot} (hu : E.doc.Place u)
    {gs : List Found} (h : E.Yields n l.expr u.item (gs.map Found.item)) : l.Gives E.doc u gs := by
  obtain ⟨fs, h1, h2⟩ := (C166_exactly E hd hdict n hl hu _).1 h
  have : ∀ {fs gs : List Found}, (gs.map Found.item : List (Item F)) = fs.map Found.item → gs = fs := by
    intro fs
    induction fs with
    | nil => intro gs h; exact List.map_eq_nil_iff.1 h
    | cons f fs ih =>
      intro gs h
      cases gs with
      | nil => cases h
      | cons g gs =>
        rw [List.map_cons, List.map_cons, List.cons.injEq] at h
        rw [found_inj h.1, ih h.2]
  rw [this h2]
  exact h1

theorem exTests_ok : exIs.Ok ∧ exSome.Ok ∧ exCount.Ok ∧ exNumber.Ok := by
  simp [exIs, exSome, exCount, exNumber, TestedList.Ok, TestedPath.Ok, Tests.Ok, ValueTest.Ok, CoreList.Ok, CorePath.Ok, CoreEnd.Ok, CorePath.startsDown]

-- only the second `k` has `v` as its first `t`; both have some `t` with that text; the third has no `a`, which counts as
-- `False` and so contains `al`
example : exIs.Gives exShelf .root [.attr [1] ['a'] ['y']] ∧ exSome.Gives exShelf .root [.attr [0] ['a'] ['x'], .attr [1] ['a'] ['y']] ∧
    exCount.Gives exShelf .root [.node (.at [1])] ∧ exNumber.Gives exShelf .root [.node (.at [1, 0, 0])] :=
  ⟨tested_of_items (E := queryEnv noFloats (fun _ => none) exShelf) exShelf_plain exShelf_dicts (n := 0) exTests_ok.1 (u := .root) trivial
    (by unfold Env.Yields; decide +kernel),
   tested_of_items (E := queryEnv noFloats (fun _ => none) exShelf) exShelf_plain exShelf_dicts (n := 0) exTests_ok.2.1 (u := .root) trivial
    (by unfold Env.Yields; decide +kernel),
   tested_of_items (E := queryEnv noFloats (fun _ => none) exShelf) exShelf_plain exShelf_dicts (n := 0) exTests_ok.2.2.1 (u := .root) trivial
    (by unfold Env.Yields; decide +kernel),
   tested_of_items (E := queryEnv noFloats (fun _ => none) exShelf) exShelf_plain exShelf_dicts (n := 0) exTests_ok.2.2.2 (u := .root) trivial
    (by unfold Env.Yields; decide +kernel)⟩

/-- C166: so `//k[t = 'v']` and `//k[t[. = 'v']]` differ, where XPath has them equal. -/
theorem C166_first_is_not_some : ∃ fs gs, exIs.Gives exShelf .root fs ∧ exSome.Gives exShelf .root gs ∧ fs ≠ gs :=
  ⟨[.attr [1] ['a'] ['y']], [.attr [0] ['a'] ['x'], .attr [1] ['a'] ['y']],
   tested_of_items (E := queryEnv noFloats (fun _ => none) exShelf) exShelf_plain exShelf_dicts (n := 0) exTests_ok.1 (u := .root) trivial
    (by unfold Env.Yields; decide +kernel),
   tested_of_items (E := queryEnv noFloats (fun _ => none) exShelf) exShelf_plain exShelf_dicts (n := 0) exTests_ok.2.1 (u := .root) trivial
    (by unfold Env.Yields; decide +kernel), by simp⟩

-- `microx --expr="//c[. = 'x']"` on `<a><c>x</c></a>` prints `<c>x</c>`
example (fo : FloatOps F) (n : Nat) (out : RunOut) :
    MicroxRun fo n { command := .expr "//c[. = 'x']".toList }
      [([.start ['a'] [], .start ['c'] [], .chars ['x'], .stop ['c'], .stop ['a']], false)] out ↔ out = ⟨["<c>x</c>".toList], .tail .done⟩ := by
  have hd := exSource 'a' 'c' 'x' (by decide) (by decide)
  let l : TestedList := .path (.filter (.core (.anywhere (.step .child ['c']))) (.one (.is (.path (.core .here)) ['x'])))
  have hl : l.Ok := by simp [l, TestedList.Ok, TestedPath.Ok, Tests.Ok, ValueTest.Ok, CorePath.Ok, CorePath.startsDown]
  refine C166_microx_one_source fo n _ rfl hl rfl (by with_unfolding_all rfl) (.inl rfl) hd exAskDoc_plain exAskDoc_dicts (fs := [.node (.at [0])]) ?_ (by simp) ?_ out
  · exact tested_of_items (E := queryEnv noFloats (fun _ => none) exAskDoc) exAskDoc_plain exAskDoc_dicts (n := 0) hl (u := .root) trivial
      (by unfold Env.Yields; decide +kernel)
  · exact ⟨_, [], rfl, .inr ⟨_, _, _, rfl, by decide⟩, rfl⟩

end Amara
