import Verif.Spec.MicroxHtml
import Verif.Props.MicroxRun
import Verif.Props.Html5Tree
/-
Property C136: the command line tool on HTML and on lax XML.
-/
namespace Amara

variable {F : Type}

theorem first_of {s : AnySource} {pre post : List RootNode} {i : Id} (h : s.roots = pre ++ .elem i :: post)
    (hp : ∀ r ∈ pre, ∀ j, r ≠ .elem j) : firstElement s.roots = some (.elem i) := by
  have := C111_first_element pre post i hp
  rw [docAppend_all] at this
  rw [h]; exact this

theorem html_of {s : AnySource} {d : Node} (h : HtmlOf s d) : ∃ i, s.html = .elem s.heap i ∧ Rep s.heap none i d := by
  obtain ⟨pre, i, post, h1, h2, h3⟩ := h
  exact ⟨i, by rw [AnySource.html, first_of h1 h2], h3⟩

/-- The children of an element that is a tree, as trees. -/
theorem rep_lax {h : Heap} {p : Option Id} {i : Id} {n : Str} {as : Attrs} {x : Node} {m : Str} {bs : Attrs} {d : Node}
    {cs post : List Node} (hr : Rep h p i (.elem n as (x :: .elem m bs (d :: cs) :: post))) :
    ∃ head body top others rest q, h.children i = head :: body :: others ∧ h.obj body = some (.elem m bs (top :: rest) q) ∧
      Rep h (some body) top d := by
  obtain ⟨ks, q, h1, h2, h3, h4⟩ := hr
  obtain ⟨c1, r1, rfl, k1, k2⟩ := h4
  obtain ⟨c2, r2, rfl, k3, k4⟩ := k2
  obtain ⟨ks', q', g1, g2, g3, g4⟩ := k3
  obtain ⟨c3, r3, rfl, m1, m2⟩ := g4
  exact ⟨c1, c2, c3, r2, r3, q', by simp [Heap.children, Obj.kids, h1], g1, m1⟩

theorem lax_of {s : AnySource} {d : Node} (h : LaxOf s d) : ∃ h' i, s.lax = .elem h' i ∧ Rep h' none i d := by
  obtain ⟨n, as, x, m, bs, cs, post, ⟨pre, i, post', h1, h2, h3⟩, hd⟩ := h
  obtain ⟨head, body, top, others, rest, q, k1, k2, k3⟩ := rep_lax h3
  obtain ⟨h', g1, g2, g3⟩ := C75_lax_top_is_detached_partial h3 k1 k2 k3
  refine ⟨h', top, ?_, g2⟩
  rw [AnySource.lax, first_of h1 h2]
  simp only [g1]
  cases d with
  | text t => cases hd
  | elem dn das dcs =>
    obtain ⟨ks, q', e1, _⟩ := g2
    rw [e1]

/-- Each source read on its own. -/
theorem run_html (process : Node → Printed) (read : AnySource → HtmlRead) {R : AnySource → Node → Prop}
    (hR : ∀ s d, R s d → ∃ h i, read s = .elem h i ∧ Rep h none i d) (ss : List AnySource) (ds : List Node) (hs : AllOf R ss ds)
    (rest : List AnySource) (out : RunOut) :
    RunHtml process read (ss ++ rest) out ↔ ∃ o, RunHtml process read rest o ∧
      out = ds.foldr (fun d o => (process d).andThen o) o := by
  induction hs generalizing out with
  | nil => exact ⟨fun h => ⟨out, h, rfl⟩, fun ⟨o, h, e⟩ => by rw [e]; exact h⟩
  | @cons s d ss ds h1 _ ih =>
    obtain ⟨h, i, e1, e2⟩ := hR s d h1
    rw [List.cons_append, RunHtml, e1]
    constructor
    · rintro ⟨doc, hd, out', ho, rfl⟩
      obtain ⟨o, k1, k2⟩ := (ih out').1 ho
      exact ⟨o, k1, by rw [rep_unique hd e2, k2]; rfl⟩
    · rintro ⟨o, k1, rfl⟩
      exact ⟨d, e2, _, (ih _).2 ⟨o, k1, rfl⟩, rfl⟩

theorem foldr_inTurn (process : Node → Printed) (ds : List Node) :
    ds.foldr (fun d o => (process d).andThen o) ⟨[], .tail .done⟩ = printedInTurn process ds := by
  induction ds with
  | nil => rfl
  | cons d ds ih => rw [List.foldr_cons, ih, inTurn_cons]

/-- C136: with `--html` every source is parsed as HTML and processed, in turn, whatever the other sources are. -/
theorem C136_html (fo : FloatOps F) (n : Nat) (a : MicroxArgs) (lax : Bool) (hp : a.partition = none) {cmd : Parsed F}
    (hc : a.command.parse fo = .ok cmd) {fe : Option (Expr F)} (hf : parseForeach fo a.foreach = .ok fe)
    {ss : List AnySource} {ds : List Node} (hs : AllOf HtmlOf ss ds) (out : RunOut) :
    MicroxRunAll fo n a true lax ss out ↔ out = printedInTurn (processPartition fo n a.showAttrs cmd fe) ds := by
  rw [MicroxRunAll, hc, hf, hp]
  have := run_html (processPartition fo n a.showAttrs cmd fe) AnySource.html
    (fun s d h => (html_of h).elim fun i hi => ⟨_, i, hi⟩) ss ds hs [] out
  rw [List.append_nil] at this
  simp only [if_true]
  rw [this]
  simp only [RunHtml]
  rw [← foldr_inTurn]
  exact ⟨fun ⟨o, h, e⟩ => by rw [e, h], fun e => ⟨_, rfl, e⟩⟩

/-- C136: the same with `--lax`, for the element that `parse_lax_xml` returns. -/
theorem C136_lax (fo : FloatOps F) (n : Nat) (a : MicroxArgs) (hp : a.partition = none) {cmd : Parsed F}
    (hc : a.command.parse fo = .ok cmd) {fe : Option (Expr F)} (hf : parseForeach fo a.foreach = .ok fe)
    {ss : List AnySource} {ds : List Node} (hs : AllOf LaxOf ss ds) (out : RunOut) :
    MicroxRunAll fo n a false true ss out ↔ out = printedInTurn (processPartition fo n a.showAttrs cmd fe) ds := by
  rw [MicroxRunAll, hc, hf, hp]
  have := run_html (processPartition fo n a.showAttrs cmd fe) AnySource.lax (fun s d h => lax_of h) ss ds hs [] out
  rw [List.append_nil] at this
  simp only [if_true, Bool.false_eq_true, if_false]
  rw [this]
  simp only [RunHtml]
  rw [← foldr_inTurn]
  exact ⟨fun ⟨o, h, e⟩ => by rw [e, h], fun e => ⟨_, rfl, e⟩⟩

/-- C136: a source that lax parsing finds no element in — html5lib gives an empty body, or nothing in it — ends the run with
an exception, after the sources before it and without those after it. -/
theorem C136_lax_nothing_found (fo : FloatOps F) (n : Nat) (a : MicroxArgs) (hp : a.partition = none) {cmd : Parsed F}
    (hc : a.command.parse fo = .ok cmd) {fe : Option (Expr F)} (hf : parseForeach fo a.foreach = .ok fe)
    {ss : List AnySource} {ds : List Node} (hs : AllOf LaxOf ss ds) {s : AnySource} {en m : Str} {as bs : Attrs} {x : Node}
    (hb : HtmlOf s (.elem en as [x, .elem m bs []])) (hd : ∀ d ∈ ds, (processPartition fo n a.showAttrs cmd fe d).tail = .done)
    (rest : List AnySource) (out : RunOut) :
    MicroxRunAll fo n a false true (ss ++ s :: rest) out ↔
      out = ⟨(printedInTurn (processPartition fo n a.showAttrs cmd fe) ds).lines, .parseError⟩ := by
  rw [MicroxRunAll, hc, hf, hp]
  have hr : s.lax = .error := by
    obtain ⟨pre, i, post', h1, h2, ks, q, h3, _, _, h4⟩ := hb
    obtain ⟨c1, r1, rfl, k1, k2⟩ := h4
    obtain ⟨c2, r2, rfl, k3, k4⟩ := k2
    obtain ⟨ks', q', g1, g2, g3, g4⟩ := k3
    rw [AnySource.lax, first_of h1 h2]
    simp only
    have e1 : s.heap.children i = c1 :: c2 :: r2 := by simp [Heap.children, Obj.kids, h3]
    have e2 : s.heap.children c2 = [] := by
      have : ks' = [] := g4
      simp [Heap.children, Obj.kids, g1, this]
    rw [Heap.laxTop, e1]
    simp [e2]
  simp only [if_true, Bool.false_eq_true, if_false]
  rw [run_html (processPartition fo n a.showAttrs cmd fe) AnySource.lax (fun s d h => lax_of h) ss ds hs (s :: rest) out]
  simp only [RunHtml, hr]
  have key : ∀ (ds : List Node), (∀ d ∈ ds, (processPartition fo n a.showAttrs cmd fe d).tail = .done) →
      ds.foldr (fun d o => (processPartition fo n a.showAttrs cmd fe d).andThen o) ⟨[], .parseError⟩ =
      ⟨(printedInTurn (processPartition fo n a.showAttrs cmd fe) ds).lines, .parseError⟩ := by
    intro ds hd
    induction ds with
    | nil => rfl
    | cons d ds ih =>
      have h0 := hd d (by simp)
      rw [List.foldr_cons, ih fun x hx => hd x (by simp [hx]), inTurn_cons, Printed.andThen, Printed.andThen, h0]
  constructor
  · rintro ⟨o, rfl, rfl⟩; exact key ds hd
  · rintro rfl; exact ⟨_, rfl, (key ds hd).symm⟩

/-- An ending that is not one of `process` comes after what was printed before it. -/
theorem foldr_ending (process : Node → Printed) (en : RunOut) (he : en.lines = []) : ∀ (ds : List Node), (∀ d ∈ ds, (process d).tail = .done) →
    ds.foldr (fun d o => (process d).andThen o) en = ⟨(printedInTurn process ds).lines, en.end_⟩ := by
  intro ds hd
  induction ds with
  | nil => cases en; cases he; rfl
  | cons d ds ih =>
    have h0 := hd d (by simp)
    rw [List.foldr_cons, ih fun x hx => hd x (by simp [hx]), inTurn_cons, Printed.andThen, Printed.andThen, h0]

/-- C136: a source in which html5lib finds no element is read as None, and nothing else ends the run earlier: the sources
before it have been processed.  What the tool does with None (`noTree`) is not modelled. -/
theorem C136_html_nothing_found (fo : FloatOps F) (n : Nat) (a : MicroxArgs) (lax : Bool) (hp : a.partition = none) {cmd : Parsed F}
    (hc : a.command.parse fo = .ok cmd) {fe : Option (Expr F)} (hf : parseForeach fo a.foreach = .ok fe)
    {ss : List AnySource} {ds : List Node} (hs : AllOf HtmlOf ss ds) {s : AnySource} (hb : ∀ r ∈ s.roots, ∀ j, r ≠ .elem j)
    (hd : ∀ d ∈ ds, (processPartition fo n a.showAttrs cmd fe d).tail = .done) (rest : List AnySource) (out : RunOut) :
    MicroxRunAll fo n a true lax (ss ++ s :: rest) out ↔
      out = ⟨(printedInTurn (processPartition fo n a.showAttrs cmd fe) ds).lines, .noTree⟩ := by
  rw [MicroxRunAll, hc, hf, hp]
  have hr : s.html = .noTree := by
    have : firstElement s.roots = none := by
      rw [firstElement, List.find?_eq_none]
      intro r hr
      cases r with
      | elem i => exact absurd rfl (hb _ hr i)
      | _ => simp [RootNode.isElement]
    rw [AnySource.html, this]
  simp only [if_true]
  rw [run_html (processPartition fo n a.showAttrs cmd fe) AnySource.html (fun s d h => by obtain ⟨i, h1, h2⟩ := html_of h; exact ⟨_, i, h1, h2⟩) ss ds hs (s :: rest) out]
  simp only [RunHtml, hr]
  constructor
  · rintro ⟨o, rfl, rfl⟩; exact foldr_ending _ ⟨[], .noTree⟩ rfl ds hd
  · rintro rfl; exact ⟨_, rfl, (foldr_ending _ ⟨[], .noTree⟩ rfl ds hd).symm⟩

/-- C136: a source in which lax parsing finds a text where the element should be is read as that text, without an exception
so far.  What the tool does with a text (`noTree`) is not modelled. -/
theorem C136_lax_text_found (fo : FloatOps F) (n : Nat) (a : MicroxArgs) (hp : a.partition = none) {cmd : Parsed F}
    (hc : a.command.parse fo = .ok cmd) {fe : Option (Expr F)} (hf : parseForeach fo a.foreach = .ok fe)
    {ss : List AnySource} {ds : List Node} (hs : AllOf LaxOf ss ds) {s : AnySource} {en m t : Str} {as bs : Attrs} {x : Node}
    {cs post : List Node} (hb : HtmlOf s (.elem en as (x :: .elem m bs (.text t :: cs) :: post)))
    (hd : ∀ d ∈ ds, (processPartition fo n a.showAttrs cmd fe d).tail = .done) (rest : List AnySource) (out : RunOut) :
    MicroxRunAll fo n a false true (ss ++ s :: rest) out ↔
      out = ⟨(printedInTurn (processPartition fo n a.showAttrs cmd fe) ds).lines, .noTree⟩ := by
  rw [MicroxRunAll, hc, hf, hp]
  have hr : s.lax = .noTree := by
    obtain ⟨pre, i, post', h1, h2, h3⟩ := hb
    obtain ⟨head, body, top, others, rest, q, k1, k2, k3⟩ := rep_lax h3
    obtain ⟨h', g1, g2, g3⟩ := C75_lax_top_is_detached_partial h3 k1 k2 k3
    obtain ⟨q', e1, _⟩ := g2
    rw [AnySource.lax, first_of h1 h2]
    simp only [g1, e1]
  simp only [if_true, Bool.false_eq_true, if_false]
  rw [run_html (processPartition fo n a.showAttrs cmd fe) AnySource.lax (fun s d h => lax_of h) ss ds hs (s :: rest) out]
  simp only [RunHtml, hr]
  constructor
  · rintro ⟨o, rfl, rfl⟩; exact foldr_ending _ ⟨[], .noTree⟩ rfl ds hd
  · rintro rfl; exact ⟨_, rfl, (foldr_ending _ ⟨[], .noTree⟩ rfl ds hd).symm⟩

/-- A case: `<html><head></head><body>x</body></html>`. -/
example : ∃ s : AnySource, HtmlOf s (.elem "html".toList [] [.elem "head".toList [] [], .elem "body".toList [] [.text ['x']]]) := by
  refine ⟨⟨([], false), ⟨4, fun i => if i = 0 then some (.elem "html".toList [] [1, 2] none)
      else if i = 1 then some (.elem "head".toList [] [] (some 0))
      else if i = 2 then some (.elem "body".toList [] [3] (some 0))
      else if i = 3 then some (.text ['x'] (some 2)) else none⟩, [.elem 0]⟩, [], 0, [], rfl, by simp, [1, 2], none, rfl, rfl, by decide, 1, [2], rfl,
      ⟨[], some 0, rfl, rfl, by decide, rfl⟩, 2, [], rfl, ⟨[3], some 0, rfl, rfl, by decide, 3, [], rfl, ⟨some 2, rfl, rfl⟩, rfl⟩, rfl⟩

/-- A case: `<html><head></head><body><p>x</p></body></html>`, as html5lib builds it. -/
example : ∃ s : AnySource, HtmlOf s (.elem "html".toList [] [.elem "head".toList [] [], .elem "body".toList [] [.elem ['p'] [] [.text ['x']]]]) ∧
    LaxOf s (.elem ['p'] [] [.text ['x']]) := by
  have h : HtmlOf ⟨([], false), ⟨5, fun i => if i = 0 then some (.elem "html".toList [] [1, 2] none)
      else if i = 1 then some (.elem "head".toList [] [] (some 0))
      else if i = 2 then some (.elem "body".toList [] [3] (some 0))
      else if i = 3 then some (.elem ['p'] [] [4] (some 2))
      else if i = 4 then some (.text ['x'] (some 3)) else none⟩, [.comment ['c'], .elem 0]⟩
      (.elem "html".toList [] [.elem "head".toList [] [], .elem "body".toList [] [.elem ['p'] [] [.text ['x']]]]) := by
    refine ⟨[.comment ['c']], 0, [], rfl, by simp, [1, 2], none, rfl, rfl, by decide, 1, [2], rfl,
      ⟨[], some 0, rfl, rfl, by decide, rfl⟩, 2, [], rfl, ⟨[3], some 0, rfl, rfl, by decide, 3, [], rfl,
        ⟨[4], some 2, rfl, rfl, by decide, 4, [], rfl, ⟨some 3, rfl, rfl⟩, rfl⟩, rfl⟩, rfl⟩
  exact ⟨_, h, _, _, _, _, _, _, _, h, rfl⟩

/-- C136: which option counts: `--partition` before the two others, `--html` before `--lax`; and without them the run is
that of C94. -/
theorem C136_options (fo : FloatOps F) (n : Nat) (a : MicroxArgs) (ss : List AnySource) (out : RunOut) :
    (∀ html lax c p, a.partition = some (c :: p) →
      (MicroxRunAll fo n a html lax ss out ↔ MicroxRun fo n a (ss.map AnySource.xml) out)) ∧
    (MicroxRunAll fo n a true true ss out ↔ MicroxRunAll fo n a true false ss out) ∧
    (MicroxRunAll fo n a false false ss out ↔ MicroxRun fo n a (ss.map AnySource.xml) out) := by
  refine ⟨?_, Iff.rfl, ?_⟩
  · intro html lax c p hp
    rw [MicroxRunAll, MicroxRun, hp]
    cases a.command.parse fo with
    | error e => exact Iff.rfl
    | ok cmd => cases parseForeach fo a.foreach <;> exact Iff.rfl
  · rw [MicroxRunAll, MicroxRun]
    cases a.command.parse fo with
    | error e => exact Iff.rfl
    | ok cmd =>
      cases parseForeach fo a.foreach with
      | error e => exact Iff.rfl
      | ok fe =>
        cases a.partition with
        | none => exact Iff.rfl
        | some p => cases p <;> exact Iff.rfl

end Amara
