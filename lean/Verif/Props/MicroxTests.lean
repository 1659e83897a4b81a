import Verif.Spec.MicroxTests
import Verif.Props.QueryText
/-
C169: what the command line tool prints for queries with tests.
-/
namespace Amara
open X (Tok GExpr Denotes Written)

variable {F : Type}

/-! ### the texts -/

theorem query_grammar {w : List (Tok F)} {q : TestedQuery} (h : WritesQuery w q) : Denotes w (q.expr : Expr F) := by
  cases h with
  | list h =>
    obtain ⟨_, _, h1, _⟩ := testedList_grammar h
    exact ⟨_, _, _, h1⟩
  | count h =>
    obtain ⟨_, _, h1, _⟩ := testedList_grammar h
    exact ⟨_, _, _, call_grammar (by decide) (by decide) (.some (.one h1))⟩
  | string h =>
    obtain ⟨_, _, h1, _⟩ := testedList_grammar h
    exact ⟨_, _, _, call_grammar (by decide) (by decide) (.some (.one h1))⟩
  | name h =>
    obtain ⟨_, _, h1, _⟩ := tested_grammar h
    exact ⟨_, _, _, call_grammar (by decide) (by decide) (.some (.one h1))⟩

theorem textOfQuery_parse {fo : FloatOps F} {s : Str} {q : TestedQuery} (h : TextOfQuery fo s q) : X.xparse fo s = some (.ok q.expr) := by
  obtain ⟨w, h1, h2⟩ := h
  exact (C77_parser_follows_the_grammar fo s _).2 ⟨w, h2, query_grammar h1⟩

theorem textOfPath_parse {fo : FloatOps F} {s : Str} {p : TestedPath} (h : TextOfPath fo s p) : X.xparse fo s = some (.ok p.expr) := by
  obtain ⟨k, w, h1, h2⟩ := h
  obtain ⟨_, _, h3, _⟩ := tested_grammar h1
  exact (C77_parser_follows_the_grammar fo s _).2 ⟨w, h2, _, _, _, h3⟩

/-- The empty text is no query. -/
theorem textOfQuery_ne {fo : FloatOps F} {s : Str} {q : TestedQuery} (h : TextOfQuery fo s q) : s ≠ [] := by
  rintro rfl
  have h1 := textOfQuery_parse h
  have h2 : ∃ e, X.xparse fo [] = some (.error e) := ⟨_, rfl⟩
  obtain ⟨e, h2⟩ := h2
  rw [h2] at h1
  cases h1

/-! ### the root node -/

theorem tested_no_root {doc : Node} : ∀ (p : TestedPath) {u : Spot} {vs : List Spot}, p.neverRoot = true → p.Gives doc u vs → .root ∉ vs
  | .core p, u, vs, hn, h => by
    rw [TestedPath.Gives] at h
    intro hr
    exact leads_no_root p hn ((gives_leads p h .root).1 hr)
  | .seq p q, u, vs, hn, h => by
    rw [TestedPath.Gives] at h
    obtain ⟨ws, _, h⟩ := h
    intro hr
    exact inTurn_each (R := q.Gives doc) (P := fun v => v ≠ .root) (fun w xs hx x hx' he => tested_no_root q hn hx (he ▸ hx')) h _ hr rfl
  | .deep p m, u, vs, hn, h => by
    rw [TestedPath.Gives] at h
    obtain ⟨ws, _, h⟩ := h
    intro hr
    refine inTurn_each (P := fun v => v ≠ .root) ?_ h _ hr rfl
    rintro w xs ⟨qs, rfl, _⟩ x hx rfl
    obtain ⟨q, h, _⟩ := mem_at.1 hx
    cases h
  | .filter p ts, u, vs, hn, h => by
    rw [TestedPath.Gives] at h
    obtain ⟨ws, h1, h2⟩ := h
    classical
    rw [(onlyThose_iff _ _).1 h2]
    exact fun hr => tested_no_root p hn h1 (List.mem_filter.1 hr).1
  | .number p k, u, vs, hn, h => by
    rw [TestedPath.Gives] at h
    obtain ⟨ws, h1, h2⟩ := h
    rw [numberK_iff.1 h2]
    intro hr
    by_cases h1' : 1 ≤ k
    · rw [if_pos h1', Option.mem_toList] at hr
      exact tested_no_root p hn h1 (List.mem_of_getElem? hr)
    · rw [if_neg h1'] at hr
      cases hr
  | .numberThen p k ts, u, vs, hn, h => by
    rw [TestedPath.Gives] at h
    obtain ⟨ws, xs, h1, h2, h3⟩ := h
    classical
    rw [(onlyThose_iff _ _).1 h3]
    intro hr
    have hr := (List.mem_filter.1 hr).1
    rw [numberK_iff.1 h2] at hr
    by_cases h1' : 1 ≤ k
    · rw [if_pos h1', Option.mem_toList] at hr
      exact tested_no_root p hn h1 (List.mem_of_getElem? hr)
    · rw [if_neg h1'] at hr
      cases hr

theorem testedList_no_root {doc : Node} (hne : doc.NoEmptyText) (hdict : doc.Dicts) {l : TestedList} (hl : l.Ok) (hn : l.neverRoot = true) {u : Spot} (hu : doc.Place u)
    {fs : List Found} (h : l.Gives doc u fs) : ∀ f ∈ fs, f.Printable doc := by
  cases l with
  | path p =>
    rw [TestedList.Ok] at hl
    rw [TestedList.Gives] at h
    obtain ⟨vs, h1, rfl⟩ := h
    obtain ⟨ws, _, h2, h3⟩ := tested_gives (queryEnv noFloats (fun _ => none) doc) hne hdict 0 p hl u hu
    cases (h2 vs).1 h1
    intro f hf
    obtain ⟨v, hv, rfl⟩ := List.mem_map.1 hf
    cases v with
    | root => exact absurd hv (tested_no_root p hn h1)
    | «at» q => exact Node.ElemAt.has (h3 _ hv)
  | core l =>
    rw [TestedList.Ok] at hl
    rw [TestedList.Gives] at h
    exact list_printable hl hn hu h
  | seq p l =>
    rw [TestedList.Ok] at hl
    rw [TestedList.Gives] at h
    obtain ⟨vs, h1, h⟩ := h
    obtain ⟨ws, _, h2, h3⟩ := tested_gives (queryEnv noFloats (fun _ => none) doc) hne hdict 0 p hl.1 u hu
    cases (h2 vs).1 h1
    exact inTurn_each_of h3 (R := l.Gives doc) (fun w hw xs hx => list_printable hl.2 hn hw hx) h

/-! ### what a query yields and prints -/

theorem count_of (E : Env F) (n : Nat) {e : Expr F} {x : Item F} {fs : List Found} (h : E.Yields n e x (fs.map Found.item)) :
    E.Yields n (.call "count".toList [e]) x [.int fs.length] := by
  have := C54_count E n e x _ h
  rwa [List.length_map] at this

theorem string_of (E : Env F) (n : Nat) {e : Expr F} {x : Item F} {fs : List Found} (h1 : E.Yields n e x (fs.map Found.item)) :
    ∃ r, E.Yields n (.call "string".toList [e]) x [r] ∧ r ≠ .root ∧ E.line r = E.doc.firstValue fs := by
  obtain ⟨r, h3, h4⟩ := C55_string E n e x _ h1
  have h4 : E.strVal r = E.doc.firstValue fs := h4.trans (by
    cases fs with
    | nil => rfl
    | cons f fs => exact strVal_found E f)
  have h5 := h3
  rw [Env.Yields, run_string, show E.run n e x = _ from h1] at h5
  refine ⟨r, h3, ?_⟩
  rw [← h4]
  cases fs with
  | nil =>
    have : (⟨[.str []], .done⟩ : Res F) = ⟨[r], .done⟩ := h5
    cases this
    exact ⟨by simp, rfl⟩
  | cons f fs =>
    have h6 : r = (f.item : Item F).toStrItem E.fo E.doc := by
      have : Res.one ((f.item : Item F).toStrItem E.fo E.doc) = ⟨[r], .done⟩ := h5
      cases this; rfl
    rw [h6, Item.toStrItem]
    split
    · next h7 =>
      match f, h7 with
      | .node (.at q), h7 =>
        refine ⟨by simp [Found.item, Spot.item], ?_⟩
        simp only [Found.item, Spot.item, Item.strOf, Item.textOf] at h7
        simp only [Found.item, Spot.item, Env.line, Env.strVal]
        split at h7
        · next s hs => rw [hs]; simp [Node.texts]
        · cases h7
    · exact ⟨by simp, rfl⟩

/-- What a query yields at a place, and the lines for it. -/
theorem testedQuery_prints (E : Env F) (hd : E.doc.NoEmptyText) (hdict : E.doc.Dicts) (n : Nat) {q : TestedQuery} (hq : q.Fine) {u : Spot} (hu : E.doc.Place u) :
    ∃ ys, E.Yields n q.expr u.item ys ∧ .root ∉ ys ∧ ∀ ls, q.Prints E.doc u ls ↔ ls = ys.map E.line := by
  cases q with
  | list l =>
    obtain ⟨fs, h1, h2, _⟩ := testedList_gives E hd hdict n l hq.1 u hu
    have hp := testedList_no_root hd hdict hq.1 hq.2 hu ((h2 fs).2 rfl)
    refine ⟨_, h1, printable_no_root hp, fun ls => ?_⟩
    constructor
    · rintro ⟨gs, h3, h4⟩
      rw [(h2 gs).1 h3] at h4
      exact (lines_found E hp ls).1 h4
    · rintro rfl
      exact ⟨fs, (h2 fs).2 rfl, (lines_found E hp _).2 rfl⟩
  | count l =>
    obtain ⟨fs, h1, h2, _⟩ := testedList_gives E hd hdict n l hq u hu
    refine ⟨_, count_of E n h1, by simp, fun ls => ?_⟩
    constructor
    · rintro ⟨gs, h3, rfl⟩
      rw [(h2 gs).1 h3]
      rfl
    · rintro rfl
      exact ⟨fs, (h2 fs).2 rfl, rfl⟩
  | string l =>
    obtain ⟨fs, h1, h2, _⟩ := testedList_gives E hd hdict n l hq u hu
    obtain ⟨r, h3, h4, h5⟩ := string_of E n h1
    refine ⟨_, h3, by simpa [eq_comm] using h4, fun ls => ?_⟩
    rw [List.map_singleton, h5]
    constructor
    · rintro ⟨gs, h6, rfl⟩
      rw [(h2 gs).1 h6]
    · rintro rfl
      exact ⟨fs, (h2 fs).2 rfl, rfl⟩
  | name p =>
    obtain ⟨vs, h1, h2, h3⟩ := tested_gives E hd hdict n p hq u hu
    have hm : ∃ m, E.doc.FirstName vs m ∧ (∀ m', E.doc.FirstName vs m' → m' = m) ∧ E.Yields n (.call "name".toList [p.expr]) u.item [.str m] := by
      have hy : E.run n p.expr u.item = ⟨vs.map Spot.item, .done⟩ := h1
      simp only [Env.Yields, run_name, List.map_cons, List.map_nil, fnName, hy]
      cases vs with
      | nil => exact ⟨[], rfl, fun m' h => h, rfl⟩
      | cons v vs =>
        cases v with
        | root => exact ⟨[], rfl, fun m' h => h, rfl⟩
        | «at» q =>
          obtain ⟨m, as, cs, h⟩ := (show E.doc.ElemAt q from h3 (.at q) (by simp))
          refine ⟨m, ⟨as, cs, h⟩, ?_, ?_⟩
          · rintro m' ⟨as', cs', h'⟩
            rw [h] at h'
            cases h'
            rfl
          · show Res.one (Item.str ((Item.node q : Item F).nameOf E.doc)) = _
            rw [Item.nameOf, h]
            rfl
    obtain ⟨m, hm, hu', hy⟩ := hm
    refine ⟨_, hy, by simp, fun ls => ?_⟩
    constructor
    · rintro ⟨ws, h4, m', rfl, h5⟩
      cases (h2 ws).1 h4
      rw [hu' m' h5]
      rfl
    · rintro rfl
      exact ⟨vs, (h2 vs).2 rfl, m, rfl, hm⟩

/-- What the command does with one document. -/
theorem tested_process (fo : FloatOps F) (n : Nat) (a : MicroxArgs) {k : AskTested} (hk : k.Fine) (hs : k.SaidBy fo a) :
    ∃ cmd fe, a.command.parse fo = .ok cmd ∧ parseForeach fo a.foreach = .ok fe ∧
      ∀ {d : Node}, d.isText = false → d.NoEmptyText → d.Dicts → ∀ {ls}, k.Lines d ls →
        processPartition fo n a.showAttrs cmd fe d = ⟨ls, .done⟩ := by
  have nofe : (a.foreach = none ∨ a.foreach = some []) → parseForeach fo a.foreach = .ok (none : Option (Expr F)) := by
    rintro (h | h) <;> rw [h] <;> rfl
  have somefe : ∀ {t e}, a.foreach = some t → t ≠ [] → X.xparse fo t = some (.ok e) → parseForeach fo a.foreach = .ok (some e) := by
    intro t e h ht he
    rw [h]
    exact foreachIs_parse (.some ht (parseText_eq he))
  -- what the query yields at a place
  have items : ∀ {d : Node}, d.NoEmptyText → d.Dicts → ∀ {q : TestedQuery}, q.Fine → ∃ g : Item F → List (Item F), ∀ w : Spot, d.Place w →
      (queryEnv fo (fun _ => none) d).Yields n q.expr w.item (g w.item) ∧ .root ∉ g w.item ∧
      ∀ xs, q.Prints d w xs → xs = (g w.item).map (queryEnv fo (fun _ => none) d).line := by
    intro d hd hdict q hq
    refine ⟨fun y => ((queryEnv fo (fun _ => none) d).run n q.expr y).items, fun w hw => ?_⟩
    obtain ⟨ys, h1, h2, h3⟩ := testedQuery_prints (queryEnv fo (fun _ => none) d) hd hdict n hq hw
    have h1' : (queryEnv fo (fun _ => none) d).run n q.expr w.item = ⟨ys, .done⟩ := h1
    refine ⟨by rw [Env.Yields]; simp only [h1'], by simp only [h1']; exact h2, fun xs hx => ?_⟩
    simp only [h1']
    exact (h3 xs).1 hx
  cases k with
  | expr q =>
    obtain ⟨s, h1, h2, h3⟩ := hs
    have h2 := textOfQuery_parse h2
    refine ⟨.expr q.expr, none, by rw [h1, Command.parse, parseText_eq h2]; rfl, nofe h3, fun {d} ht hd hdict {ls} hl => ?_⟩
    obtain ⟨ys, hy, hr, hp⟩ := testedQuery_prints (queryEnv fo (fun _ => none) d) hd hdict n hk (u := .root) trivial
    rw [(hp ls).1 hl]
    exact (C63_expr (queryEnv fo (fun _ => none) d) n q.expr _ _ hy).1 hr
  | every q =>
    obtain ⟨s, h1, h2, h3⟩ := hs
    have h2 := textOfQuery_parse h2
    refine ⟨.match_ q.expr, none, by rw [h1, Command.parse, parseText_eq h2]; rfl, nofe h3, fun {d} ht hd hdict {ls} ⟨es, hes, hl⟩ => ?_⟩
    obtain ⟨g, hg⟩ := items hd hdict hk
    obtain ⟨ps, k1, k2, _, k3, _⟩ := C63_match_partial (queryEnv fo (fun _ => none) d) ht n q.expr (fun q => g (.node q))
      (fun q hq => (hg (.at q) hq).1)
    cases elemList_unique k2 k1 hes.1 hes.2
    refine (k3 fun q hq => (hg (.at q) hq).2.1).trans ?_
    rw [inTurn_lines (g := fun y => (g y).map (queryEnv fo (fun _ => none) d).line) (fun w hw xs hx => (hg w (by
      obtain ⟨q, rfl, hq⟩ := mem_at.1 hw
      exact (k1 q).1 hq)).2.2 xs hx) hl, List.map_map, List.flatMap_map]
    rfl
  | exprEach p q =>
    obtain ⟨s, t, h1, h2, h3, h5⟩ := hs
    have h2 := textOfPath_parse h2
    refine ⟨.expr p.expr, some q.expr, by rw [h1, Command.parse, parseText_eq h2]; rfl, somefe h3 (textOfQuery_ne h5) (textOfQuery_parse h5),
      fun {d} ht hd hdict {ls} ⟨ws, hw, hl⟩ => ?_⟩
    obtain ⟨vs, hy, hvs, hwp⟩ := tested_gives (queryEnv fo (fun _ => none) d) hd hdict n p hk.1 .root trivial
    cases (hvs ws).1 hw
    obtain ⟨g, hg⟩ := items hd hdict hk.2
    have := (C63_expr (queryEnv fo (fun _ => none) d) n p.expr _ _ hy).2 q.expr g (fun y hy' => by
      obtain ⟨w, hw', rfl⟩ := List.mem_map.1 hy'
      exact ⟨(hg w (hwp w hw')).1, (hg w (hwp w hw')).2.1⟩)
    rw [inTurn_lines (g := fun y => (g y).map (queryEnv fo (fun _ => none) d).line) (fun w hw' xs hx => (hg w (hwp w hw')).2.2 xs hx) hl]
    exact this
  | everyEach p q =>
    obtain ⟨s, t, h1, h2, h3, h5⟩ := hs
    have h2 := textOfPath_parse h2
    refine ⟨.match_ p.expr, some q.expr, by rw [h1, Command.parse, parseText_eq h2]; rfl, somefe h3 (textOfQuery_ne h5) (textOfQuery_parse h5),
      fun {d} ht hd hdict {ls} ⟨es, ws, hes, hw, hl⟩ => ?_⟩
    have hep : ∀ w ∈ es.map Spot.at, d.Place w := by
      intro w hw
      obtain ⟨q, rfl, hq⟩ := mem_at.1 hw
      exact (hes.2 q).1 hq
    have hf : ∀ w, d.Place w → ∃ vs : List Spot, (queryEnv fo (fun _ => none) d).run n p.expr w.item = ⟨vs.map Spot.item, .done⟩ ∧
        (∀ ws, p.Gives d w ws ↔ ws = vs) ∧ ∀ v ∈ vs, d.Place v :=
      fun w hw => tested_gives (queryEnv fo (fun _ => none) d) hd hdict n p hk.1 w hw
    have hwp : ∀ w ∈ ws, d.Place w := inTurn_all (P := d.Place) (fun w hw xs hx v hv => by
      obtain ⟨vs, _, h6, h7⟩ := hf w (hep w hw)
      rw [(h6 xs).1 hx] at hv
      exact h7 v hv) hw
    obtain ⟨g, hg⟩ := items hd hdict hk.2
    let f : Item F → List (Item F) := fun y => ((queryEnv fo (fun _ => none) d).run n p.expr y).items
    have hf1 : ∀ w, d.Place w → ∀ vs, p.Gives d w vs → f w.item = vs.map Spot.item := by
      intro w hw vs hv
      obtain ⟨vs', h6, h7, _⟩ := hf w hw
      show ((queryEnv fo (fun _ => none) d).run n p.expr w.item).items = _
      rw [h6, (h7 vs).1 hv]
    obtain ⟨ps, k1, k2, _, _, k3⟩ := C63_match_partial (queryEnv fo (fun _ => none) d) ht n p.expr (fun q => f (.node q))
      (fun q hq => by
        obtain ⟨vs, h6, h7, _⟩ := hf (.at q) hq
        rw [Env.Yields, show f (.node q) = _ from hf1 (.at q) hq vs ((h7 vs).2 rfl)]
        exact h6)
    cases elemList_unique k2 k1 hes.1 hes.2
    have := k3 q.expr g (fun r hr y hy => by
      obtain ⟨vs, _, h7, h8⟩ := hf (.at r) hr
      rw [show f (.node r) = _ from hf1 (.at r) hr vs ((h7 vs).2 rfl)] at hy
      obtain ⟨w, hw', rfl⟩ := List.mem_map.1 hy
      exact ⟨(hg w (h8 w hw')).1, (hg w (h8 w hw')).2.1⟩)
    rw [inTurn_lines (g := fun y => (g y).map (queryEnv fo (fun _ => none) d).line) (fun w hw' xs hx => (hg w (hwp w hw')).2.2 xs hx) hl,
      ← inTurn_items (g := f) (fun w hw' xs hx => hf1 w (hep w hw') xs hx) hw]
    refine Eq.trans this ?_
    rw [List.map_map, List.flatMap_map, List.flatMap_assoc]
    rfl

theorem testedLines_inTurn {k : AskTested} {process : Node → Printed} : ∀ {ds : List Node} {ls : List Str},
    (∀ d ∈ ds, ∀ l, k.Lines d l → process d = ⟨l, .done⟩) → k.AllLines ds ls → printedInTurn process ds = ⟨ls, .tail .done⟩
  | [], ls, _, h => by rw [AskTested.AllLines] at h; subst h; rfl
  | d :: ds, ls, hp, h => by
    obtain ⟨l, ls', rfl, h1, h2⟩ := h
    rw [inTurn_cons, hp d (by simp) l h1, testedLines_inTurn (fun d hd => hp d (by simp [hd])) h2]
    rfl

/-! ### C169 -/

/-- C169: there is exactly one list of lines for what is asked. -/
theorem C169_lines_exist {d : Node} (ht : d.isText = false) (hne : d.NoEmptyText) (hdict : d.Dicts) {k : AskTested} (hk : k.Fine) :
    ∃ ls, ∀ ls', k.Lines d ls' ↔ ls' = ls := by
  let E : Env NoF := queryEnv noFloats (fun _ => none) d
  obtain ⟨es, hes⟩ := allElements_of ht
  have uniqE : ∀ es', d.AllElements es' → es' = es := fun es' h => elemList_unique h.1 h.2 hes.1 hes.2
  have hep : ∀ w ∈ es.map Spot.at, d.Place w := by
    intro w hw
    obtain ⟨q, rfl, hq⟩ := mem_at.1 hw
    exact (hes.2 q).1 hq
  have one : ∀ {q : TestedQuery}, q.Fine → ∀ u : Spot, d.Place u → ∃ ls, ∀ ls', q.Prints d u ls' ↔ ls' = ls := fun {q} hq u hu => by
    obtain ⟨ys, _, _, h⟩ := testedQuery_prints E hne hdict 0 hq hu
    exact ⟨_, h⟩
  have turn : ∀ {α : Type} {R : Spot → List α → Prop}, (∀ u, d.Place u → ∃ ls, ∀ ls', R u ls' ↔ ls' = ls) → ∀ {ws : List Spot}, (∀ w ∈ ws, d.Place w) →
      ∃ ls, ∀ ls', InTurn R ws ls' ↔ ls' = ls := by
    intro α R hR ws
    induction ws with
    | nil => intro _; exact ⟨[], fun ls' => Iff.rfl⟩
    | cons w ws ih =>
      intro hw
      obtain ⟨xs, hx⟩ := hR w (hw w (by simp))
      obtain ⟨ys, hy⟩ := ih fun w h => hw w (by simp [h])
      refine ⟨xs ++ ys, fun ls' => ⟨?_, ?_⟩⟩
      · rintro ⟨xs', ys', rfl, h1, h2⟩
        rw [(hx xs').1 h1, (hy ys').1 h2]
      · rintro rfl
        exact ⟨xs, ys, rfl, (hx xs).2 rfl, (hy ys).2 rfl⟩
  cases k with
  | expr q => exact one hk .root trivial
  | every q =>
    obtain ⟨ls, h⟩ := turn (one hk) hep
    refine ⟨ls, fun ls' => ⟨?_, fun h' => ⟨es, hes, (h ls').2 h'⟩⟩⟩
    rintro ⟨es', h1, h2⟩
    rw [uniqE es' h1] at h2
    exact (h ls').1 h2
  | exprEach p q =>
    obtain ⟨ws, _, h2, h3⟩ := tested_gives E hne hdict 0 p hk.1 .root trivial
    obtain ⟨ls, h⟩ := turn (one hk.2) (ws := ws) h3
    refine ⟨ls, fun ls' => ⟨?_, fun h' => ⟨ws, (h2 ws).2 rfl, (h ls').2 h'⟩⟩⟩
    rintro ⟨ws', h4, h5⟩
    rw [(h2 ws').1 h4] at h5
    exact (h ls').1 h5
  | everyEach p q =>
    have hp : ∀ u, d.Place u → ∃ vs, ∀ vs', p.Gives d u vs' ↔ vs' = vs := fun u hu => by
      obtain ⟨ws, _, h2, _⟩ := tested_gives E hne hdict 0 p hk.1 u hu
      exact ⟨ws, h2⟩
    obtain ⟨ws, hws⟩ := turn hp hep
    have hpl : ∀ w ∈ ws, d.Place w := inTurn_all (P := d.Place) (fun w hw xs hx v hv => by
      obtain ⟨vs, _, h6, h7⟩ := tested_gives E hne hdict 0 p hk.1 w (hep w hw)
      rw [(h6 xs).1 hx] at hv
      exact h7 v hv) ((hws ws).2 rfl)
    obtain ⟨ls, h⟩ := turn (one hk.2) hpl
    refine ⟨ls, fun ls' => ⟨?_, fun h' => ⟨es, ws, hes, (hws ws).2 rfl, (h ls').2 h'⟩⟩⟩
    rintro ⟨es', ws', h3, h4, h5⟩
    rw [uniqE es' h3] at h4
    rw [(hws ws').1 h4] at h5
    exact (h ls').1 h5

/-- C169: what the tool prints for one source, for any of its ways to ask. -/
theorem C169_one_source (fo : FloatOps F) (n : Nat) (a : MicroxArgs) (hp : a.partition = none) {k : AskTested} (hk : k.Fine) (hs : k.SaidBy fo a)
    {s : List XCall × Bool} {d : Node} (hd : SourceOf s d) (hne : d.NoEmptyText) (hdict : d.Dicts) (out : RunOut) :
    MicroxRun fo n a [s] out ↔ ∃ ls, k.Lines d ls ∧ out = ⟨ls, .tail .done⟩ := by
  obtain ⟨cmd, fe, h1, h2, h3⟩ := tested_process fo n a hk hs
  obtain ⟨ls, hl⟩ := C169_lines_exist hd.1 hne hdict hk
  rw [C94_one_source_partial fo n a hp h1 h2 hd]
  rw [testedLines_inTurn (k := k) (ds := [d]) (ls := ls)
    (fun d' hd' l hl => by rw [List.mem_singleton.1 hd'] at hl ⊢; exact h3 hd.1 hne hdict hl) ⟨ls, [], by simp, (hl ls).2 rfl, rfl⟩]
  constructor
  · rintro rfl; exact ⟨ls, (hl ls).2 rfl, rfl⟩
  · rintro ⟨ls', h, rfl⟩; rw [(hl ls').1 h]

/-- C169: with `--partition=m`, over any number of sources. -/
theorem C169_partition (fo : FloatOps F) (n : Nat) (a : MicroxArgs) {m : Str} (hp : a.partition = some m) (h0 : m ≠ []) (h1 : m ≠ ['*'])
    (h2 : m ≠ ['*', '*']) {k : AskTested} (hk : k.Fine) (hs : k.SaidBy fo a) {ss : List (List XCall × Bool)} {ds : List Node} (hd : SourcesOf ss ds)
    (hne : ∀ d ∈ ds, d.NoEmptyText) (hdict : ∀ d ∈ ds, d.Dicts) :
    ∃ rs : List (List (Path × Node)), rs.length = ds.length ∧ (∀ (j : Nat) d l, ds[j]? = some d → rs[j]? = some l → OutermostNamed d m l) ∧
      ∀ ls, k.AllLines (rs.flatten.map Prod.snd) ls → ∀ out, MicroxRun fo n a ss out ↔ out = ⟨ls, .tail .done⟩ := by
  obtain ⟨cmd, fe, e1, e2, e3⟩ := tested_process fo n a hk hs
  obtain ⟨rs, k1, k2, k3⟩ := C95_partition fo n a hp h0 h1 h2 e1 e2 hd
  refine ⟨rs, k1, k2, fun ls hl out => ?_⟩
  rw [k3, testedLines_inTurn (k := k) (ls := ls) ?_ hl]
  intro x hx l hl
  obtain ⟨⟨q, x'⟩, hx', rfl⟩ := List.mem_map.1 hx
  obtain ⟨r, hr, hx⟩ := List.mem_flatten.1 hx'
  obtain ⟨j, hj, rfl⟩ := List.mem_iff_getElem.1 hr
  have hj' : j < ds.length := by omega
  obtain ⟨h5, ⟨as, cs, h6⟩, _⟩ := ((k2 j ds[j] rs[j] (List.getElem?_eq_getElem hj') (List.getElem?_eq_getElem hj)).2 q x').1 hx
  have hm : ds[j] ∈ ds := List.getElem_mem hj'
  refine e3 ?_ (noEmpty_part (hne _ hm) h5) (dicts_part (hdict _ hm) h5) hl
  rw [h5] at h6
  cases h6
  rfl

/-- C169: with `--html`, over any number of sources. -/
theorem C169_html (fo : FloatOps F) (n : Nat) (a : MicroxArgs) (lax : Bool) (hp : a.partition = none) {k : AskTested} (hk : k.Fine)
    (hs : k.SaidBy fo a) {ss : List AnySource} {ds : List Node} (hd : AllOf HtmlOf ss ds) (ht : ∀ d ∈ ds, d.isText = false)
    (hne : ∀ d ∈ ds, d.NoEmptyText) (hdict : ∀ d ∈ ds, d.Dicts) {ls : List Str} (hl : k.AllLines ds ls) (out : RunOut) :
    MicroxRunAll fo n a true lax ss out ↔ out = ⟨ls, .tail .done⟩ := by
  obtain ⟨cmd, fe, e1, e2, e3⟩ := tested_process fo n a hk hs
  rw [C136_html fo n a lax hp e1 e2 hd, testedLines_inTurn (k := k) (ls := ls) (fun d hd l hl => e3 (ht d hd) (hne d hd) (hdict d hd) hl) hl]

/-! ### examples -/

theorem exSpelled (fo : FloatOps F) : X.SpellsTok fo (.name ['c']) ['c'] ∧ X.SpellsTok fo (.name "count".toList) "count".toList := by
  refine ⟨(queryName_spells fo (n := ['c']) ⟨⟨_, _, rfl, by decide, by simp⟩, by simp⟩ (r := []) (by rintro c s h; cases h)).1, ?_⟩
  have h1 := queryName_spells fo (n := ['c', 'o', 'u', 'n', 't']) ⟨⟨_, _, rfl, by decide, by
      intro d hd
      simp only [List.mem_cons, List.not_mem_nil, or_false] at hd
      rcases hd with rfl | rfl | rfl | rfl <;> exact .inl (by decide)⟩, by simp⟩ (r := []) (by rintro c s h; cases h)
  exact h1.1

theorem exBlank : X.XBlank [' '] ∧ [' '] ≠ ([] : Str) := ⟨by intro c hc; rw [List.mem_singleton.1 hc]; simp, by simp⟩

/-- `//c[. = 'x']` -/
def exAskPath : TestedPath := .filter (.core (.anywhere (.step .child ['c']))) (.one (.is (.path (.core .here)) ['x']))
/-- `--expr="//c[. = 'x']" --foreach="count(.)"` -/
def exAskTested : AskTested := .exprEach exAskPath (.count (.path (.core .here)))
theorem exAskPath_ok : exAskPath.Ok := by simp [exAskPath, TestedPath.Ok, TestedList.Ok, Tests.Ok, ValueTest.Ok, CorePath.Ok, CorePath.startsDown]
theorem exHere_ok : (TestedList.path (.core .here)).Ok := by simp [TestedPath.Ok, TestedList.Ok, CorePath.Ok]

theorem exAskTested_said (fo : FloatOps F) :
    exAskTested.SaidBy fo { command := .expr "// c [ . = 'x' ] ".toList, foreach := some "count ( . ) ".toList } := by
  have here : WritesTestedList (F := F) true [.dot] (.path (.core .here)) := .path (.core (.rel (.step .here)))
  refine ⟨_, _, rfl, ⟨.bracket, [.abbrevSep, .name ['c'], .lbrack, .dot, .equal false, .literal ['x'], .rbrack], ?_, ?_⟩, rfl,
    [.name "count".toList, .lparen, .dot, .rparen], .count here, ?_⟩
  · exact .filter (.core (.anywhere (.step (.child (m := .name ['c']) trivial)))) (by simp) (.one (.is (s := ['x']) here))
  · refine C81_blanks_anywhere fo [(.abbrevSep, "//".toList, [' ']), (.name ['c'], ['c'], [' ']), (.lbrack, "[".toList, [' ']), (.dot, ".".toList, [' ']),
      (.equal false, "=".toList, [' ']), (.literal ['x'], "'x'".toList, [' ']), (.rbrack, "]".toList, [' '])] ?_ [] (by intro c hc; cases hc)
    intro x hx
    simp only [List.mem_cons, List.not_mem_nil, or_false] at hx
    rcases hx with rfl | rfl | rfl | rfl | rfl | rfl | rfl
    · exact ⟨.abbrevSep, exBlank⟩
    · exact ⟨(exSpelled fo).1, exBlank⟩
    · exact ⟨.lbrack, exBlank⟩
    · exact ⟨.dot, exBlank⟩
    · exact ⟨.eq, exBlank⟩
    · exact ⟨.single (s := ['x']) (by simp), exBlank⟩
    · exact ⟨.rbrack, exBlank⟩
  · refine C81_blanks_anywhere fo [(.name "count".toList, "count".toList, [' ']), (.lparen, "(".toList, [' ']), (.dot, ".".toList, [' ']),
      (.rparen, ")".toList, [' '])] ?_ [] (by intro c hc; cases hc)
    intro x hx
    simp only [List.mem_cons, List.not_mem_nil, or_false] at hx
    rcases hx with rfl | rfl | rfl | rfl
    · exact ⟨(exSpelled fo).2, exBlank⟩
    · exact ⟨.lparen, exBlank⟩
    · exact ⟨.dot, exBlank⟩
    · exact ⟨.rparen, exBlank⟩

theorem exAskTested_lines : exAskTested.Lines exAskDoc [['1']] := by
  refine ⟨[.at [0]], ?_, [['1']], [], rfl, ⟨[.node (.at [0])], ?_, rfl⟩, rfl⟩
  · obtain ⟨vs, h1, h2, _⟩ := tested_gives (queryEnv noFloats (fun _ => none) exAskDoc) exAskDoc_plain exAskDoc_dicts 0 exAskPath exAskPath_ok .root trivial
    have h3 : (queryEnv noFloats (fun _ => none) exAskDoc).run 0 exAskPath.expr .root = ⟨[.node [0]], .done⟩ := by decide +kernel
    have h4 : (⟨vs.map Spot.item, .done⟩ : Res NoF) = ⟨[Spot.at [0]].map Spot.item, .done⟩ := Eq.trans (Eq.symm h1) h3
    have h5 := congrArg Res.items h4
    exact (h2 _).2 (List.map_inj_right (fun _ _ => spot_item_inj) |>.1 h5.symm)
  · exact tested_of_items (E := queryEnv noFloats (fun _ => none) exAskDoc) exAskDoc_plain exAskDoc_dicts (n := 0) exHere_ok (u := .at [0]) ⟨_, _, _, rfl⟩
      (by unfold Env.Yields; decide +kernel)

-- `microx --expr="// c [ . = 'x' ] " --foreach="count ( . ) "` on `<a><c>x</c></a>` prints `1`
example (fo : FloatOps F) (n : Nat) (out : RunOut) :
    MicroxRun fo n { command := .expr "// c [ . = 'x' ] ".toList, foreach := some "count ( . ) ".toList }
      [([.start ['a'] [], .start ['c'] [], .chars ['x'], .stop ['c'], .stop ['a']], false)] out ↔ out = ⟨[['1']], .tail .done⟩ := by
  have hd := exSource 'a' 'c' 'x' (by decide) (by decide)
  have hk : exAskTested.Fine := ⟨exAskPath_ok, exHere_ok⟩
  rw [C169_one_source fo n _ rfl hk (exAskTested_said fo) hd exAskDoc_plain exAskDoc_dicts]
  obtain ⟨ls, h1⟩ := C169_lines_exist hd.1 exAskDoc_plain exAskDoc_dicts hk
  constructor
  · rintro ⟨ls', h2, rfl⟩
    rw [(h1 ls').1 h2, ← (h1 _).1 exAskTested_lines]
  · rintro rfl
    exact ⟨_, exAskTested_lines, rfl⟩

end Amara
