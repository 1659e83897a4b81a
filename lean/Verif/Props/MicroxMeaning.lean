import Verif.Spec.MicroxMeaning
import Verif.Props.MeaningList
import Verif.Props.MicroxRun
import Verif.Props.MicroxHtml
/-
C163: what the command line tool prints for paths.
-/
namespace Amara

variable {F : Type}

theorem noEmpty_part {d x : Node} {q : Path} (h : d.NoEmptyText) (hx : d.at? q = some x) : x.NoEmptyText := by
  intro p hp
  refine h (q ++ p) ?_
  rw [Node.at?_append, hx]
  exact hp

theorem dicts_part {d x : Node} {q : Path} (h : d.Dicts) (hx : d.at? q = some x) : x.Dicts := by
  intro p m as cs hp
  refine h (q ++ p) m as cs ?_
  rw [Node.at?_append, hx]
  exact hp

theorem markup_lines {doc : Node} (E : Env F) (hE : E.doc = doc) : ∀ {vs : List Spot} {ls : List Str}, (∀ v ∈ vs, doc.Place v) → .root ∉ vs →
    (doc.MarkupLines vs ls ↔ ls = (vs.map Spot.item).map E.line)
  | [], ls, _, _ => by rw [Node.MarkupLines]; rfl
  | v :: vs, ls, h, hr => by
    rw [Node.MarkupLines]
    cases v with
    | root => exact absurd (List.mem_cons_self ..) hr
    | «at» q =>
      have ih := fun ls' => markup_lines E hE (vs := vs) (ls := ls') (fun v hv => h v (by simp [hv])) (fun h => hr (by simp [h]))
      obtain ⟨m, as, cs, hq⟩ := h (.at q) (by simp)
      have hline : E.line (Spot.item (.at q)) = (Node.elem m as cs).encode := by
        show (match E.doc.at? q with | some (.text s) => s | some x => x.encode | none => []) = _
        rw [hE, hq]
      constructor
      · rintro ⟨q', x, l, ls', h1, h2, rfl, rfl, h5⟩
        cases h1
        rw [hq] at h2
        cases h2
        rw [List.map_cons, List.map_cons, hline, (ih ls').1 h5]
      · rintro rfl
        exact ⟨q, _, _, _, rfl, hq, rfl, by rw [List.map_cons, List.map_cons, hline], (ih _).2 rfl⟩

theorem inTurn_make {α : Type} {R : Spot → List α → Prop} : ∀ (ws : List Spot), (∀ w ∈ ws, ∃ vs, R w vs) → ∃ vs, InTurn R ws vs
  | [], _ => ⟨[], rfl⟩
  | w :: ws, h => by
    obtain ⟨xs, hx⟩ := h w (by simp)
    obtain ⟨ys, hy⟩ := inTurn_make ws fun v hv => h v (by simp [hv])
    exact ⟨xs ++ ys, xs, ys, rfl, hx, hy⟩

/-- Lists given in turn, as a flatMap of a function on items. -/
theorem inTurn_items {R : Spot → List Spot → Prop} {g : Item F → List (Item F)} : ∀ {ws vs : List Spot},
    (∀ w ∈ ws, ∀ xs, R w xs → g w.item = xs.map Spot.item) → InTurn R ws vs → (ws.map Spot.item).flatMap g = vs.map Spot.item
  | [], vs, _, h => by rw [InTurn] at h; subst h; rfl
  | w :: ws, vs, hg, h => by
    obtain ⟨xs, ys, rfl, h1, h2⟩ := h
    rw [List.map_cons, List.flatMap_cons, hg w (by simp) xs h1, inTurn_items (fun w hw => hg w (by simp [hw])) h2, List.map_append]

theorem inTurn_all {R : Spot → List Spot → Prop} {P : Spot → Prop} : ∀ {ws vs : List Spot},
    (∀ w ∈ ws, ∀ xs, R w xs → ∀ x ∈ xs, P x) → InTurn R ws vs → ∀ v ∈ vs, P v
  | [], vs, _, h, v, hv => by rw [InTurn] at h; subst h; cases hv
  | w :: ws, vs, hg, h, v, hv => by
    obtain ⟨xs, ys, rfl, h1, h2⟩ := h
    rcases List.mem_append.1 hv with hv | hv
    · exact hg w (by simp) xs h1 v hv
    · exact inTurn_all (fun w hw => hg w (by simp [hw])) h2 v hv

theorem allElements_of {doc : Node} (h : doc.isText = false) : ∃ es, doc.AllElements es := by
  obtain ⟨h1, h2⟩ := everyElement_spec doc h
  refine ⟨_, h2, fun q => ?_⟩
  rw [List.mem_map]
  constructor
  · rintro ⟨⟨q', x⟩, hx, rfl⟩
    exact elemAt_iff.2 ⟨x, (h1 q' x).1 hx⟩
  · intro hq
    obtain ⟨x, hx⟩ := elemAt_iff.1 hq
    exact ⟨(q, x), (h1 q x).2 hx, rfl⟩

/-- There is a list of places, these are elements, and there is one list only. -/
theorem ask_places {doc : Node} (ht : doc.isText = false) (hd : doc.NoEmptyText) (hdict : doc.Dicts) {k : Ask} (hk : k.Fine) :
    ∃ vs, k.Places doc vs ∧ (∀ v ∈ vs, doc.Place v) ∧ .root ∉ vs ∧ ∀ ws, k.Places doc ws → ws = vs := by
  have given : ∀ {p : CorePath}, p.Ok → ∀ {u}, doc.Place u → ∃ vs, p.Gives doc u vs := fun {_} hp {u} hu => by
    obtain ⟨vs, h, _⟩ := C162_one_list hd hdict hp hu
    exact ⟨vs, (h vs).2 rfl⟩
  have place : ∀ {p : CorePath} {u : Spot} {vs}, doc.Place u → p.Gives doc u vs → ∀ v ∈ vs, doc.Place v := fun {p u vs} hu h v hv =>
    leads_place p hu ((gives_leads p h v).1 hv)
  have noroot : ∀ {p : CorePath} {u : Spot} {vs}, p.neverRoot = true → p.Gives doc u vs → ∀ v ∈ vs, v ≠ .root := fun {p u vs} hp h v hv => by
    rintro rfl
    exact leads_no_root p hp ((gives_leads p h _).1 hv)
  obtain ⟨es, hes⟩ := allElements_of ht
  have hpl : ∀ w ∈ es.map Spot.at, doc.Place w := by
    intro w hw
    obtain ⟨q, rfl, hq⟩ := mem_at.1 hw
    exact (hes.2 q).1 hq
  have uniqE : ∀ es', doc.AllElements es' → es' = es := fun es' h => elemList_unique h.1 h.2 hes.1 hes.2
  cases k with
  | expr p =>
    obtain ⟨vs, h⟩ := given hk.1 (u := .root) trivial
    exact ⟨vs, h, place (u := .root) trivial h, fun hr => noroot hk.2 h _ hr rfl, fun ws h' => gives_unique p hk.1 h' h⟩
  | every p =>
    obtain ⟨vs, h⟩ := inTurn_make (R := p.Gives doc) (es.map Spot.at) fun w hw => given hk.1 (hpl w hw)
    refine ⟨vs, ⟨es, hes, h⟩, inTurn_all (fun w hw xs hx => place (hpl w hw) hx) h,
      fun hr => inTurn_all (P := fun v => v ≠ .root) (fun w hw xs hx => noroot hk.2 hx) h _ hr rfl, ?_⟩
    rintro ws ⟨es', h1, h2⟩
    rw [uniqE es' h1] at h2
    exact inTurn_unique (R := p.Gives doc) (fun w xs ys hx hy => gives_unique p hk.1 hx hy) h2 h
  | exprEach p q =>
    obtain ⟨ws, h⟩ := given hk.1 (u := .root) trivial
    have hw := place (u := .root) trivial h
    obtain ⟨vs, h'⟩ := inTurn_make (R := q.Gives doc) ws fun w hw' => given hk.2.1 (hw w hw')
    refine ⟨vs, ⟨ws, h, h'⟩, inTurn_all (fun w hw' xs hx => place (hw w hw') hx) h',
      fun hr => inTurn_all (P := fun v => v ≠ .root) (fun w hw xs hx => noroot hk.2.2 hx) h' _ hr rfl, ?_⟩
    rintro xs ⟨ws', h1, h2⟩
    rw [gives_unique p hk.1 h1 h] at h2
    exact inTurn_unique (R := q.Gives doc) (fun w xs ys hx hy => gives_unique q hk.2.1 hx hy) h2 h'
  | everyEach p q =>
    obtain ⟨ws, h⟩ := inTurn_make (R := p.Gives doc) (es.map Spot.at) fun w hw => given hk.1 (hpl w hw)
    have hw := inTurn_all (P := doc.Place) (fun w hw xs hx => place (hpl w hw) hx) h
    obtain ⟨vs, h'⟩ := inTurn_make (R := q.Gives doc) ws fun w hw' => given hk.2.1 (hw w hw')
    refine ⟨vs, ⟨es, ws, hes, h, h'⟩, inTurn_all (fun w hw' xs hx => place (hw w hw') hx) h',
      fun hr => inTurn_all (P := fun v => v ≠ .root) (fun w hw xs hx => noroot hk.2.2 hx) h' _ hr rfl, ?_⟩
    rintro xs ⟨es', ws', h1, h2, h3⟩
    rw [uniqE es' h1] at h2
    rw [inTurn_unique (R := p.Gives doc) (fun w xs ys hx hy => gives_unique p hk.1 hx hy) h2 h] at h3
    exact inTurn_unique (R := q.Gives doc) (fun w xs ys hx hy => gives_unique q hk.2.1 hx hy) h3 h'

/-- What the command does with one document. -/
theorem ask_process (fo : FloatOps F) (n : Nat) (a : MicroxArgs) {k : Ask} (hk : k.Fine) (hs : k.SaidBy fo a) :
    ∃ cmd fe, a.command.parse fo = .ok cmd ∧ parseForeach fo a.foreach = .ok fe ∧
      ∀ {d : Node}, d.isText = false → d.NoEmptyText → d.Dicts → ∀ {ls}, k.Lines d ls →
        processPartition fo n a.showAttrs cmd fe d = ⟨ls, .done⟩ := by
  have nofe : (a.foreach = none ∨ a.foreach = some []) → parseForeach fo a.foreach = .ok (none : Option (Expr F)) := by
    rintro (h | h) <;> rw [h] <;> rfl
  have somefe : ∀ {t e}, a.foreach = some t → t ≠ [] → X.xparse fo t = some (.ok e) → parseForeach fo a.foreach = .ok (some e) := by
    intro t e h ht he
    rw [h]
    exact foreachIs_parse (.some ht (parseText_eq he))
  -- what is given at a place, as items
  have items : ∀ {d : Node}, d.NoEmptyText → d.Dicts → ∀ {p : CorePath}, p.Ok → ∃ g : Item F → List (Item F), ∀ w : Spot, d.Place w →
      (queryEnv fo (fun _ => none) d).Yields n p.expr w.item (g w.item) ∧ ∀ xs, p.Gives d w xs → g w.item = xs.map Spot.item := by
    intro d hd hdict p hp
    refine ⟨fun y => ((queryEnv fo (fun _ => none) d).run n p.expr y).items, fun w hw => ?_⟩
    obtain ⟨vs, h1, h2⟩ := path_gives (queryEnv fo (fun _ => none) d) hd hdict n p hp w hw
    have h1' : (queryEnv fo (fun _ => none) d).run n p.expr w.item = ⟨vs.map Spot.item, .done⟩ := h1
    refine ⟨by rw [Env.Yields]; simp only [h1'], fun xs hx => ?_⟩
    simp only [h1']
    rw [gives_unique p hp hx h2]
  have noroot : ∀ {d : Node} {p : CorePath} {u : Spot} {vs}, p.neverRoot = true → p.Gives d u vs → (Item.root : Item F) ∉ vs.map Spot.item := by
    intro d p u vs hp h hr
    obtain ⟨v, hv, he⟩ := List.mem_map.1 hr
    cases v with
    | root => exact leads_no_root p hp ((gives_leads p h _).1 hv)
    | «at» q => cases he
  cases k with
  | expr p =>
    obtain ⟨s, h1, h2, h3⟩ := hs
    refine ⟨.expr p.expr, none, by rw [h1, Command.parse, parseText_eq h2]; rfl, nofe h3, fun {d} ht hd hdict {ls} ⟨vs, hv, hl⟩ => ?_⟩
    have hv : p.Gives d .root vs := hv
    have hy := (C162_exactly (queryEnv fo (fun _ => none) d) hd hdict n hk.1 (u := .root) trivial _).2 ⟨vs, hv, rfl⟩
    have := (C63_expr (queryEnv fo (fun _ => none) d) n p.expr _ _ hy).1 (noroot hk.2 hv)
    rw [(markup_lines (queryEnv fo (fun _ => none) d) rfl (fun v h => leads_place p (u := .root) trivial ((gives_leads p hv v).1 h))
      (fun hr => leads_no_root p hk.2 ((gives_leads p hv _).1 hr))).1 hl]
    exact this
  | every p =>
    obtain ⟨s, h1, h2, h3⟩ := hs
    refine ⟨.match_ p.expr, none, by rw [h1, Command.parse, parseText_eq h2]; rfl, nofe h3, fun {d} ht hd hdict {ls} ⟨vs, hv, hl⟩ => ?_⟩
    obtain ⟨vs', hv', hpl, hroot, huniq⟩ := ask_places ht hd hdict (k := .every p) hk
    cases huniq vs hv
    obtain ⟨es, hes, ht'⟩ := hv
    obtain ⟨g, hg⟩ := items hd hdict hk.1
    obtain ⟨ps, k1, k2, _, k3, _⟩ := C63_match_partial (queryEnv fo (fun _ => none) d) ht n p.expr (fun q => g (.node q))
      (fun q hq => (hg (.at q) hq).1)
    cases elemList_unique k2 k1 hes.1 hes.2
    rw [(markup_lines (queryEnv fo (fun _ => none) d) rfl hpl hroot).1 hl]
    refine (k3 fun q hq hr => ?_).trans ?_
    · obtain ⟨xs, hx, _⟩ := C162_one_list hd hdict hk.1 (u := .at q) hq
      have hx := (hx xs).2 rfl
      rw [show g (.node q) = _ from (hg (.at q) hq).2 xs hx] at hr
      exact noroot hk.2 hx hr
    · rw [← inTurn_items (g := g) (fun w hw xs hx => (hg w (by
        obtain ⟨q, rfl, hq⟩ := mem_at.1 hw
        exact (k1 q).1 hq)).2 xs hx) ht', List.map_map, List.flatMap_map, List.map_flatMap]
      rfl
  | exprEach p q =>
    obtain ⟨s, t, h1, h2, h3, h4, h5⟩ := hs
    refine ⟨.expr p.expr, some q.expr, by rw [h1, Command.parse, parseText_eq h2]; rfl, somefe h3 h4 h5, fun {d} ht hd hdict {ls} ⟨vs, hv, hl⟩ => ?_⟩
    obtain ⟨vs', hv', hpl, hroot, huniq⟩ := ask_places ht hd hdict (k := .exprEach p q) hk
    cases huniq vs hv
    obtain ⟨ws, hw, ht'⟩ := hv
    have hwp : ∀ w ∈ ws, d.Place w := fun w h => leads_place p (u := .root) trivial ((gives_leads p hw w).1 h)
    obtain ⟨g, hg⟩ := items hd hdict hk.2.1
    have hy := (C162_exactly (queryEnv fo (fun _ => none) d) hd hdict n hk.1 (u := .root) trivial _).2 ⟨ws, hw, rfl⟩
    have := (C63_expr (queryEnv fo (fun _ => none) d) n p.expr _ _ hy).2 q.expr g (fun y hy' => by
      obtain ⟨w, hw', rfl⟩ := List.mem_map.1 hy'
      refine ⟨(hg w (hwp w hw')).1, ?_⟩
      obtain ⟨xs, hx, _⟩ := C162_one_list hd hdict hk.2.1 (hwp w hw')
      have hx := (hx xs).2 rfl
      rw [(hg w (hwp w hw')).2 xs hx]
      exact noroot hk.2.2 hx)
    rw [(markup_lines (queryEnv fo (fun _ => none) d) rfl hpl hroot).1 hl,
      ← inTurn_items (g := g) (fun w hw' xs hx => (hg w (hwp w hw')).2 xs hx) ht', List.map_flatMap]
    exact this
  | everyEach p q =>
    obtain ⟨s, t, h1, h2, h3, h4, h5⟩ := hs
    refine ⟨.match_ p.expr, some q.expr, by rw [h1, Command.parse, parseText_eq h2]; rfl, somefe h3 h4 h5, fun {d} ht hd hdict {ls} ⟨vs, hv, hl⟩ => ?_⟩
    obtain ⟨vs', hv', hpl, hroot, huniq⟩ := ask_places ht hd hdict (k := .everyEach p q) hk
    cases huniq vs hv
    obtain ⟨es, ws, hes, hw, ht'⟩ := hv
    have hep : ∀ w ∈ es.map Spot.at, d.Place w := by
      intro w hw
      obtain ⟨q, rfl, hq⟩ := mem_at.1 hw
      exact (hes.2 q).1 hq
    have hwp : ∀ w ∈ ws, d.Place w := inTurn_all (P := d.Place) (fun w hw xs hx v hv => leads_place p (hep w hw) ((gives_leads p hx v).1 hv)) hw
    obtain ⟨f, hf⟩ := items hd hdict hk.1
    obtain ⟨g, hg⟩ := items hd hdict hk.2.1
    obtain ⟨ps, k1, k2, _, _, k3⟩ := C63_match_partial (queryEnv fo (fun _ => none) d) ht n p.expr (fun q => f (.node q))
      (fun q hq => (hf (.at q) hq).1)
    cases elemList_unique k2 k1 hes.1 hes.2
    have := k3 q.expr g (fun r hr y hy => by
      obtain ⟨xs, hx, _⟩ := C162_one_list hd hdict hk.1 (u := .at r) hr
      have hx := (hx xs).2 rfl
      rw [show f (.node r) = _ from (hf (.at r) hr).2 xs hx] at hy
      obtain ⟨w, hw', rfl⟩ := List.mem_map.1 hy
      have hwp : d.Place w := leads_place p (u := .at r) hr ((gives_leads p hx w).1 hw')
      refine ⟨(hg w hwp).1, ?_⟩
      obtain ⟨zs, hz, _⟩ := C162_one_list hd hdict hk.2.1 hwp
      have hz := (hz zs).2 rfl
      rw [(hg w hwp).2 zs hz]
      exact noroot hk.2.2 hz)
    rw [(markup_lines (queryEnv fo (fun _ => none) d) rfl hpl hroot).1 hl,
      ← inTurn_items (g := g) (fun w hw' xs hx => (hg w (hwp w hw')).2 xs hx) ht',
      ← inTurn_items (g := f) (fun w hw' xs hx => (hf w (hep w hw')).2 xs hx) hw]
    refine Eq.trans this ?_
    rw [List.map_map, List.flatMap_map, List.map_flatMap, List.flatMap_assoc]
    rfl

theorem allLines_inTurn {k : Ask} {process : Node → Printed} : ∀ {ds : List Node} {ls : List Str},
    (∀ d ∈ ds, ∀ l, k.Lines d l → process d = ⟨l, .done⟩) → k.AllLines ds ls → printedInTurn process ds = ⟨ls, .tail .done⟩
  | [], ls, _, h => by rw [Ask.AllLines] at h; subst h; rfl
  | d :: ds, ls, hp, h => by
    obtain ⟨l, ls', rfl, h1, h2⟩ := h
    rw [inTurn_cons, hp d (by simp) l h1, allLines_inTurn (fun d hd => hp d (by simp [hd])) h2]
    rfl

/-! ### C163 -/

/-- C163: one source.  The tool prints the lines asked for and ends without an exception. -/
theorem C163_one_source (fo : FloatOps F) (n : Nat) (a : MicroxArgs) (hp : a.partition = none) {k : Ask} (hk : k.Fine) (hs : k.SaidBy fo a)
    {s : List XCall × Bool} {d : Node} (hd : SourceOf s d) (hne : d.NoEmptyText) (hdict : d.Dicts) {ls : List Str} (hl : k.Lines d ls)
    (out : RunOut) : MicroxRun fo n a [s] out ↔ out = ⟨ls, .tail .done⟩ := by
  obtain ⟨cmd, fe, h1, h2, h3⟩ := ask_process fo n a hk hs
  rw [C94_one_source_partial fo n a hp h1 h2 hd]
  rw [allLines_inTurn (k := k) (ds := [d]) (ls := ls)
    (fun d' hd' l hl => by rw [List.mem_singleton.1 hd'] at hl ⊢; exact h3 hd.1 hne hdict hl) ⟨ls, [], by simp, hl, rfl⟩]

/-- C163: there is exactly one such list of lines. -/
theorem C163_lines_exist {d : Node} (ht : d.isText = false) (hne : d.NoEmptyText) (hdict : d.Dicts) {k : Ask} (hk : k.Fine) :
    ∃ ls, ∀ ls', k.Lines d ls' ↔ ls' = ls := by
  obtain ⟨vs, h1, h2, h3, h4⟩ := ask_places ht hne hdict hk
  refine ⟨(vs.map Spot.item).map (queryEnv noFloats (fun _ => none) d).line, fun ls' => ?_⟩
  have hm := fun ls' => markup_lines (ls := ls') (queryEnv noFloats (fun _ => none) d) rfl h2 h3
  constructor
  · rintro ⟨ws, h5, h6⟩
    cases h4 ws h5
    exact (hm _).1 h6
  · rintro rfl
    exact ⟨vs, h1, (hm _).2 rfl⟩

/-- C163: with `--partition=m`, over any number of sources: the lines for every outermost element named `m`, taken as a
document of its own, in turn. -/
theorem C163_partition (fo : FloatOps F) (n : Nat) (a : MicroxArgs) {m : Str} (hp : a.partition = some m) (h0 : m ≠ []) (h1 : m ≠ ['*'])
    (h2 : m ≠ ['*', '*']) {k : Ask} (hk : k.Fine) (hs : k.SaidBy fo a) {ss : List (List XCall × Bool)} {ds : List Node} (hd : SourcesOf ss ds)
    (hne : ∀ d ∈ ds, d.NoEmptyText) (hdict : ∀ d ∈ ds, d.Dicts) :
    ∃ rs : List (List (Path × Node)), rs.length = ds.length ∧ (∀ (j : Nat) d l, ds[j]? = some d → rs[j]? = some l → OutermostNamed d m l) ∧
      ∀ ls, k.AllLines (rs.flatten.map Prod.snd) ls → ∀ out, MicroxRun fo n a ss out ↔ out = ⟨ls, .tail .done⟩ := by
  obtain ⟨cmd, fe, e1, e2, e3⟩ := ask_process fo n a hk hs
  obtain ⟨rs, k1, k2, k3⟩ := C95_partition fo n a hp h0 h1 h2 e1 e2 hd
  refine ⟨rs, k1, k2, fun ls hl out => ?_⟩
  rw [k3, allLines_inTurn (k := k) (ls := ls) ?_ hl]
  intro x hx l hl
  obtain ⟨⟨q, x'⟩, hx', rfl⟩ := List.mem_map.1 hx
  obtain ⟨r, hr, hx⟩ := List.mem_flatten.1 hx'
  obtain ⟨j, hj, rfl⟩ := List.mem_iff_getElem.1 hr
  have hj' : j < ds.length := by omega
  obtain ⟨h5, ⟨as, cs, h6⟩, _⟩ := ((k2 j ds[j] rs[j] (List.getElem?_eq_getElem hj') (List.getElem?_eq_getElem hj)).2 q x').1 hx
  have hm : ds[j] ∈ ds := List.getElem_mem hj'
  refine e3 ?_ (noEmpty_part (hne _ hm) h5) (dicts_part (hdict _ hm) h5) hl
  rw [h5] at h6
  cases h6
  rfl

/-- C163: with `--html`, over any number of sources. -/
theorem C163_html (fo : FloatOps F) (n : Nat) (a : MicroxArgs) (lax : Bool) (hp : a.partition = none) {k : Ask} (hk : k.Fine) (hs : k.SaidBy fo a)
    {ss : List AnySource} {ds : List Node} (hd : AllOf HtmlOf ss ds) (ht : ∀ d ∈ ds, d.isText = false) (hne : ∀ d ∈ ds, d.NoEmptyText)
    (hdict : ∀ d ∈ ds, d.Dicts) {ls : List Str} (hl : k.AllLines ds ls) (out : RunOut) :
    MicroxRunAll fo n a true lax ss out ↔ out = ⟨ls, .tail .done⟩ := by
  obtain ⟨cmd, fe, e1, e2, e3⟩ := ask_process fo n a hk hs
  rw [C136_html fo n a lax hp e1 e2 hd, allLines_inTurn (k := k) (ls := ls) (fun d hd l hl => e3 (ht d hd) (hne d hd) (hdict d hd) hl) hl]

/-- C163: `--expr=p --foreach=q` prints what `--expr=p/q` prints. -/
theorem C163_foreach_is_a_step (fo : FloatOps F) (n : Nat) {a b : MicroxArgs} (ha : a.partition = none) (hb : b.partition = none) {p q : CorePath}
    (hk : (Ask.exprEach p q).Fine) (hsa : (Ask.exprEach p q).SaidBy fo a) (hsb : (Ask.expr (.seq p q)).SaidBy fo b) {s : List XCall × Bool}
    {d : Node} (hd : SourceOf s d) (hne : d.NoEmptyText) (hdict : d.Dicts) (out : RunOut) : MicroxRun fo n a [s] out ↔ MicroxRun fo n b [s] out := by
  have hk' : (Ask.expr (.seq p q)).Fine := by
    refine ⟨?_, ?_⟩
    · rw [CorePath.Ok]; exact ⟨hk.1, hk.2.1⟩
    · rw [CorePath.neverRoot]; exact hk.2.2
  obtain ⟨ls, h⟩ := C163_lines_exist hd.1 hne hdict hk
  have h1 := (h ls).2 rfl
  have h2 : (Ask.expr (.seq p q)).Lines d ls := by
    simp only [Ask.Lines, Ask.Places, CorePath.Gives] at h1 ⊢
    exact h1
  rw [C163_one_source fo n a ha hk hsa hd hne hdict h1, C163_one_source fo n b hb hk' hsb hd hne hdict h2]

/-- C163: `--match=p` prints what `--expr=//p` prints, if `p` leads nowhere from the root. -/
theorem C163_match_is_anywhere (fo : FloatOps F) (n : Nat) {a b : MicroxArgs} (ha : a.partition = none) (hb : b.partition = none) {p : CorePath}
    (hk : (Ask.every p).Fine) (hp : p.startsDown = true) (hsa : (Ask.every p).SaidBy fo a) (hsb : (Ask.expr (.anywhere p)).SaidBy fo b)
    {s : List XCall × Bool} {d : Node} (hd : SourceOf s d) (hne : d.NoEmptyText) (hdict : d.Dicts) (hr : ∀ v, ¬ p.Leads d .root v) (out : RunOut) :
    MicroxRun fo n a [s] out ↔ MicroxRun fo n b [s] out := by
  have hk' : (Ask.expr (.anywhere p)).Fine := by
    refine ⟨?_, ?_⟩
    · rw [CorePath.Ok]; exact ⟨hk.1, hp⟩
    · rw [CorePath.neverRoot]; exact hk.2
  obtain ⟨ls, h⟩ := C163_lines_exist hd.1 hne hdict hk
  have h1 := (h ls).2 rfl
  obtain ⟨xs, hx, hx'⟩ := C162_one_list hne hdict hk.1 (u := .root) trivial
  have hx := (hx xs).2 rfl
  have : xs = [] := List.eq_nil_iff_forall_not_mem.2 fun v hv => hr v ((hx' v).1 hv)
  subst this
  have h2 : (Ask.expr (.anywhere p)).Lines d ls := by
    obtain ⟨vs, ⟨es, h3, h4⟩, h5⟩ := h1
    refine ⟨vs, ?_, h5⟩
    show CorePath.Gives d (.anywhere p) .root vs
    rw [CorePath.Gives]
    exact ⟨es, h3.1, h3.2, [], vs, rfl, hx, h4⟩
  rw [C163_one_source fo n a ha hk hsa hd hne hdict h1, C163_one_source fo n b hb hk' hsb hd hne hdict h2]

/-! ### examples -/

/-- `<a><c>x</c></a>` -/
def exAskDoc : Node := .elem ['a'] [] [.elem ['c'] [] [.text ['x']]]
theorem exAskDoc_plain : exAskDoc.NoEmptyText := noEmptyText_of (by decide) (by decide)
theorem exAskDoc_dicts : exAskDoc.Dicts := by
  intro p m as cs h
  rcases at?_nil_text h with h1 | ⟨q, h1, rfl⟩
  · cases h1; exact .nil
  · have : q = [0] ∨ q = [0, 0] := by
      have h : exAskDoc.under [] = [[0], [0, 0]] := by decide
      rw [h] at h1
      simpa using h1
    rcases this with rfl | rfl <;> cases h
    exact .nil
/-- `//c` -/
def exAsk : CorePath := .anywhere (.step .child ['c'])
theorem exAsk_ok : exAsk.Ok ∧ exAsk.neverRoot = true := by simp [exAsk, CorePath.Ok, CorePath.startsDown, CorePath.neverRoot]
theorem exAsk_gives : exAsk.Gives exAskDoc .root [.at [0]] := by
  obtain ⟨vs, h1, h2⟩ := (C162_exactly (queryEnv noFloats (fun _ => none) exAskDoc) exAskDoc_plain exAskDoc_dicts 0 exAsk_ok.1 (u := .root) trivial
    [.node [0]]).1 (by unfold Env.Yields; decide)
  have : vs = [.at [0]] := by
    match vs, h2 with
    | [.at _], h2 => cases h2; rfl
  exact this ▸ h1
-- `microx --expr=//c` on `<a><c>x</c></a>` prints `<c>x</c>`
example (fo : FloatOps F) (n : Nat) (out : RunOut) :
    MicroxRun fo n { command := .expr "//c".toList } [([.start ['a'] [], .start ['c'] [], .chars ['x'], .stop ['c'], .stop ['a']], false)] out ↔
      out = ⟨["<c>x</c>".toList], .tail .done⟩ := by
  refine C163_one_source (k := .expr exAsk) fo n _ rfl exAsk_ok ?_ (exSource 'a' 'c' 'x' (by decide) (by decide)) exAskDoc_plain exAskDoc_dicts ?_ out
  · exact ⟨_, rfl, by with_unfolding_all rfl, .inl rfl⟩
  · exact ⟨_, exAsk_gives, [0], .elem ['c'] [] [.text ['x']], _, _, rfl, rfl, rfl, rfl, rfl⟩
-- ... and so does `microx --match=c`
example (fo : FloatOps F) (n : Nat) (out : RunOut) :
    MicroxRun fo n { command := .match_ ['c'] } [([.start ['a'] [], .start ['c'] [], .chars ['x'], .stop ['c'], .stop ['a']], false)] out ↔
      MicroxRun fo n { command := .expr "//c".toList } [([.start ['a'] [], .start ['c'] [], .chars ['x'], .stop ['c'], .stop ['a']], false)] out := by
  refine C163_match_is_anywhere (p := .step .child ['c']) fo n rfl rfl (by simp [Ask.Fine, CorePath.Ok, CorePath.neverRoot]) (by simp [CorePath.startsDown])
    ⟨_, rfl, by with_unfolding_all rfl, .inl rfl⟩ ⟨_, rfl, by with_unfolding_all rfl, .inl rfl⟩
    (exSource 'a' 'c' 'x' (by decide) (by decide)) exAskDoc_plain exAskDoc_dicts ?_ out
  intro v hv
  rw [CorePath.Leads] at hv
  obtain ⟨q, _, rfl, as, cs, h⟩ := hv
  cases h

end Amara
