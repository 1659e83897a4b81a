import Verif.Spec.Pieces
import Verif.Props.Edit
import Verif.Props.Routes
import Verif.Props.Tree
/-!
# C146: what a query finds is written as it stands in the document

Serialising an element found in a tree gives the piece of the tree's serialisation at its place, so results of a query can
be cut out of the text.
-/
namespace Amara
variable {F : Type}

theorem written_split {n : Str} {as : Attrs} {ts : List Node} {i : Nat} {y : Node} (h : ts[i]? = some y) :
    (Node.elem n as ts).written = (Node.elem n as ts).startTag ++ ((ts.take i).flatMap Node.written ++
      (y.written ++ ((ts.drop (i + 1)).flatMap Node.written ++ '<' :: '/' :: (n ++ ['>'])))) := by
  have : ts = ts.take i ++ (y :: ts.drop (i + 1)) := by
    obtain ⟨hi, he⟩ := List.getElem?_eq_some_iff.1 h
    rw [← he, List.getElem_cons_drop, List.take_append_drop]
  rw [written_elem]
  conv => lhs; rw [this]
  simp [Node.startTag]

theorem piece_at : ∀ (p : Path) {x y : Node}, x.at? p = some y → ∃ after, x.written = x.textBefore p ++ (y.written ++ after)
  | [], x, y, h => by
    simp only [Node.at?, Option.some.injEq] at h
    exact ⟨[], by simp [Node.textBefore, h]⟩
  | i :: p, .text s, y, h => by simp [Node.at?, Node.xmlChildren] at h
  | i :: p, .elem n as ts, y, h => by
    simp only [Node.at?, Node.xmlChildren] at h
    cases hi : ts[i]? with
    | none => rw [hi] at h; cases h
    | some z =>
      rw [hi] at h
      obtain ⟨after, ha⟩ := piece_at p h
      refine ⟨after ++ ((ts.drop (i + 1)).flatMap Node.written ++ '<' :: '/' :: (n ++ ['>'])), ?_⟩
      rw [written_split hi, ha]
      simp [Node.textBefore, Node.xmlChildren, hi]

/-- C146: `xml_encode` of an element found at a position is the piece of the whole text that stands after the start tags of
the elements around it and their earlier children. -/
theorem C146_piece {e : Node} (he : e.isText = false) {p : Path} {x : Node} (hx : e.at? p = some x) (ht : x.isText = false) :
    ∃ after, e.encode = e.textBefore p ++ (x.encode ++ after) := by
  obtain ⟨a, h⟩ := piece_at p hx
  cases e with
  | text s => cases he
  | elem n as ts =>
    cases x with
    | text s => cases ht
    | elem m bs us => exact ⟨a, h⟩

/-- C146: a text is written escaped. -/
theorem C146_text {e : Node} (he : e.isText = false) {p : Path} {s : Str} (hx : e.at? p = some (.text s)) :
    ∃ after, e.encode = e.textBefore p ++ (escape s ++ after) := by
  obtain ⟨a, h⟩ := piece_at p hx
  cases e with
  | text s => cases he
  | elem n as ts => exact ⟨a, h⟩

theorem textBefore_append : ∀ (p q : Path) {x y : Node}, x.at? p = some y → x.textBefore (p ++ q) = x.textBefore p ++ y.textBefore q
  | [], q, x, y, h => by
    simp only [Node.at?, Option.some.injEq] at h
    simp [Node.textBefore, h]
  | i :: p, q, x, y, h => by
    simp only [Node.at?] at h
    cases hi : x.xmlChildren[i]? with
    | none => rw [hi] at h; cases h
    | some z =>
      rw [hi] at h
      simp only [List.cons_append, Node.textBefore, hi, textBefore_append p q h, List.append_assoc]

/-- C146: what is inside an element is written inside its piece: after its start tag and before its end tag. -/
theorem C146_inside {e : Node} {p q : Path} {x y : Node} (hx : e.at? p = some x) (hq : q ≠ []) (hy : x.at? q = some y) :
    (e.textBefore p ++ x.startTag) <+: e.textBefore (p ++ q) ∧
    (e.textBefore (p ++ q)).length + y.written.length < (e.textBefore p).length + x.written.length := by
  rw [textBefore_append p q hx]
  cases q with
  | nil => exact absurd rfl hq
  | cons i q =>
    refine ⟨⟨(x.xmlChildren.take i).flatMap Node.written ++
      match x.xmlChildren[i]? with
      | some y => y.textBefore q
      | none => [], by simp [Node.textBefore]; rfl⟩, ?_⟩
    cases x with
    | text s => simp [Node.at?, Node.xmlChildren] at hy
    | elem n as ts =>
      simp only [Node.at?, Node.xmlChildren] at hy
      cases hi : ts[i]? with
      | none => rw [hi] at hy; cases hy
      | some z =>
        rw [hi] at hy
        obtain ⟨after, ha⟩ := piece_at q hy
        rw [written_split hi, ha]
        simp only [Node.textBefore, Node.xmlChildren, hi, List.length_append, List.length_cons]
        omega

/-- C146: the pieces of two elements, neither inside the other, do not overlap, and come in document order. -/
theorem C146_apart : ∀ (p q : Path) {e x y : Node}, e.at? p = some x → e.at? q = some y → docLt p q → Apart p q →
    (e.textBefore p ++ x.written) <+: e.textBefore q
  | [], _, _, _, _, _, _, _, ha => absurd (List.nil_prefix) ha.1
  | _ :: _, [], _, _, _, _, _, _, ha => absurd (List.nil_prefix) ha.2
  | i :: p, j :: q, e, x, y, hx, hy, hlt, ha => by
    simp only [Node.at?] at hx hy
    cases hi : e.xmlChildren[i]? with
    | none => rw [hi] at hx; cases hx
    | some z =>
      rw [hi] at hx
      rcases hlt with hlt | ⟨rfl, hlt⟩
      · obtain ⟨a, hpa⟩ := piece_at p hx
        simp only [Node.textBefore, hi, List.append_assoc]
        have h1 : (e.xmlChildren.take j) = e.xmlChildren.take i ++ (z :: (e.xmlChildren.take j).drop (i + 1)) := by
          obtain ⟨hl, he⟩ := List.getElem?_eq_some_iff.1 hi
          have h2 : (e.xmlChildren.take j)[i]? = some z := by rw [List.getElem?_take_of_lt hlt]; exact hi
          obtain ⟨hl2, he2⟩ := List.getElem?_eq_some_iff.1 h2
          conv => lhs; rw [← List.take_append_drop i (e.xmlChildren.take j)]
          rw [← he2, List.getElem_cons_drop, List.take_take, Nat.min_eq_left (by omega)]
        rw [h1, List.flatMap_append, List.flatMap_cons, hpa]
        refine ⟨a ++ (((e.xmlChildren.take j).drop (i + 1)).flatMap Node.written ++
          match e.xmlChildren[j]? with
          | some y => y.textBefore q
          | none => []), by simp [List.append_assoc]; rfl⟩
      · rw [hi] at hy
        have hap : Apart p q := ⟨fun h => ha.1 (by simpa using h), fun h => ha.2 (by simpa using h)⟩
        obtain ⟨a, h⟩ := C146_apart p q hx hy hlt hap
        refine ⟨a, ?_⟩
        simp only [Node.textBefore, hi, List.append_assoc]
        rw [← h]
        simp [List.append_assoc]

theorem cut_out {e : Node} : ∀ (ps : List Path) (xs : List Node), ps.map e.at? = xs.map some →
    ps.Pairwise (fun p q => docLt p q ∧ Apart p q) → ∀ a rest, e.written = a ++ rest → (∀ p ∈ ps, a <+: e.textBefore p) →
    ∃ (g : Str) (gs : List Str), gs.length = xs.length ∧ rest = g ++ (xs.zip gs).flatMap fun z => z.1.written ++ z.2
  | [], [], _, _, a, rest, _, _ => ⟨rest, [], rfl, by simp⟩
  | [], _ :: _, h, _, _, _, _, _ => by simp at h
  | _ :: _, [], h, _, _, _, _, _ => by simp at h
  | p :: ps, x :: xs, h, hp, a, rest, hw, ha => by
    simp only [List.map_cons, List.cons.injEq] at h
    obtain ⟨after, hpa⟩ := piece_at p h.1
    obtain ⟨g, hg⟩ := ha p (by simp)
    rw [List.pairwise_cons] at hp
    obtain ⟨g', gs, hl, hr⟩ := cut_out ps xs h.2 hp.2 (e.textBefore p ++ x.written) after (by rw [hpa, List.append_assoc])
      (fun q hq => by
        have hm : e.at? q ∈ xs.map some := by rw [← h.2]; exact List.mem_map_of_mem hq
        obtain ⟨y, _, hy⟩ := List.mem_map.1 hm
        exact C146_apart p q h.1 hy.symm (hp.1 q hq).1 (hp.1 q hq).2)
    refine ⟨g, g' :: gs, by simp [hl], ?_⟩
    have : a ++ rest = a ++ (g ++ (x.written ++ after)) := by
      rw [← hw, hpa, ← hg, List.append_assoc]
    rw [List.append_cancel_left this, hr]
    simp [List.append_assoc]

theorem written_eq_encode {x : Node} (h : x.isText = false) : x.written = x.encode := by
  cases x with
  | text s => cases h
  | elem n as ts => rfl

/-- C146: elements in document order, none inside another, cut the text of the document into their serialisations and what
is between them. -/
theorem C146_cut {e : Node} (he : e.isText = false) {ps : List Path} {xs : List Node} (h : ps.map e.at? = xs.map some)
    (hx : ∀ x ∈ xs, x.isText = false) (hp : ps.Pairwise fun p q => docLt p q ∧ Apart p q) :
    ∃ (g : Str) (gs : List Str), gs.length = xs.length ∧ e.encode = g ++ (xs.zip gs).flatMap fun z => z.1.encode ++ z.2 := by
  obtain ⟨g, gs, hl, hr⟩ := cut_out ps xs h hp [] e.written rfl fun p _ => List.nil_prefix
  refine ⟨g, gs, hl, ?_⟩
  rw [← written_eq_encode he, hr]
  congr 1
  have key : ∀ (l : List (Node × Str)), (∀ z ∈ l, z.1.isText = false) →
      (l.flatMap fun z => z.1.written ++ z.2) = l.flatMap fun z => z.1.encode ++ z.2 := by
    intro l
    induction l with
    | nil => intro _; rfl
    | cons z l ih =>
      intro hz
      rw [List.flatMap_cons, List.flatMap_cons, ih fun z' h => hz z' (by simp [h]), written_eq_encode (hz z (by simp))]
  exact key _ fun z hz => hx z.1 (List.of_mem_zip hz).1

theorem route_elem (E : Env F) (n : Nat) : ∀ (ss : List (PathStep F)) {p : Path} {r : List Path}, E.doc.ElemAt p → E.Route n ss p r →
    E.doc.ElemAt (routeEnd p r) := by
  intro ss
  induction ss with
  | nil => rintro p r hp rfl; exact hp
  | cons s ss ih =>
    rintro p r hp ⟨q, r', rfl, h1, h2⟩
    rw [routeEnd_cons]
    exact ih h1.2.1.elemAt h2

/-- C146 for a query: a path of steps along `child` (and `self`), with tests or without, evaluated at the document element.
The results' serialisations stand in the text of the document, one after the other. -/
theorem C146_query (E : Env F) (hd : E.doc.NoEmptyText) (he : E.doc.isText = false) (n : Nat) {a : Axis} (ha : ElementAxis a) (m : Str)
    {ss : List (PathStep F)} (hss : ∀ s ∈ ss, E.StepOk n s) (hl : ∀ s ∈ (.plain a m :: ss), s.Level) :
    ∃ (ps : List Path) (xs : List Node) (g : Str) (gs : List Str),
      E.Yields n (relPath a m ss) (.node []) (ps.map .node) ∧ ps.map E.doc.at? = xs.map some ∧ gs.length = xs.length ∧
      E.doc.encode = g ++ (xs.zip gs).flatMap fun z => z.1.encode ++ z.2 := by
  have hp : E.doc.ElemAt [] := by
    rcases hE : E.doc with ⟨k, as, ts⟩ | s
    · exact ⟨k, as, ts, rfl⟩
    · rw [hE] at he; cases he
  obtain ⟨rs, h1, h2, h3⟩ := C141_from_an_element E hd n ha m hss hp
  obtain ⟨k, hk⟩ := route_level E n (.plain a m :: ss) hl
  have hel : ∀ p ∈ rs.map (routeEnd []), E.doc.ElemAt p := by
    intro p hp'
    obtain ⟨r, hr, rfl⟩ := List.mem_map.1 hp'
    exact route_elem E n _ hp ((h2 r).1 hr)
  have hxs : ∀ ps : List Path, (∀ p ∈ ps, E.doc.ElemAt p) → ∃ xs : List Node, ps.map E.doc.at? = xs.map some ∧ ∀ x ∈ xs, x.isText = false := by
    intro ps
    induction ps with
    | nil => intro _; exact ⟨[], rfl, by simp⟩
    | cons p ps ih =>
      intro h
      obtain ⟨xs, h4, h5⟩ := ih fun q hq => h q (by simp [hq])
      obtain ⟨k, as, ts, h6⟩ := h p (by simp)
      refine ⟨.elem k as ts :: xs, by simp [h4, h6], ?_⟩
      intro x hx
      rcases List.mem_cons.1 hx with rfl | hx
      · rfl
      · exact h5 x hx
  obtain ⟨xs, h4, h5⟩ := hxs _ hel
  have hpw : (rs.map (routeEnd [])).Pairwise fun p q => docLt p q ∧ Apart p q := by
    rw [List.pairwise_map]
    refine h3.imp_of_mem fun {r r'} hr hr' h => ?_
    have h6 := order_level E n [] _ hl ((h2 r).1 hr) ((h2 r').1 hr') h
    have h7 : (routeEnd [] r).length = (routeEnd [] r').length := by rw [hk _ _ ((h2 r).1 hr), hk _ _ ((h2 r').1 hr')]
    refine ⟨h6, fun hpre => ?_, fun hpre => ?_⟩
    · rw [hpre.eq_of_length h7] at h6; exact docLt_irrefl _ h6
    · rw [hpre.eq_of_length h7.symm] at h6; exact docLt_irrefl _ h6
  obtain ⟨g, gs, h8, h9⟩ := C146_cut he h4 h5 hpw
  exact ⟨_, xs, g, gs, h1, h4, h8, h9⟩

theorem writable_get {ok : Str → Prop} : ∀ {ts : List Node} {i : Nat} {y : Node}, Node.WritableList ok ts → ts[i]? = some y → y.WritableWith ok
  | [], _, _, _, h => by simp at h
  | x :: ts, 0, y, hw, h => by
    simp only [List.getElem?_cons_zero, Option.some.injEq] at h
    exact h ▸ hw.1
  | x :: ts, i + 1, y, hw, h => writable_get hw.2 (by simpa using h)

theorem writable_at {ok : Str → Prop} : ∀ (p : Path) {x y : Node}, x.WritableWith ok → x.at? p = some y → y.WritableWith ok
  | [], x, y, hw, h => by
    simp only [Node.at?, Option.some.injEq] at h
    exact h ▸ hw
  | i :: p, .text s, y, hw, h => by simp [Node.at?, Node.xmlChildren] at h
  | i :: p, .elem n as ts, y, hw, h => by
    simp only [Node.at?, Node.xmlChildren] at h
    cases hi : ts[i]? with
    | none => rw [hi] at h; cases h
    | some z =>
      rw [hi] at h
      simp only [Node.WritableWith] at hw
      exact writable_at p (writable_get hw.2.2.2 hi) h

/-- C146: the piece, parsed by itself, is the element that was found. -/
theorem C146_reads_back {e : Node} (hw : e.Writable) (he : e.isText = false) {p : Path} {x : Node} (hx : e.at? p = some x)
    (ht : x.isText = false) : ∃ piece after, e.encode = e.textBefore p ++ (piece ++ after) ∧ x.encode = piece ∧
      ∀ b r b', TreeParse b piece r b' → ∃ i, r = .returned (some i) ∧ Rep b'.heap none i x.norm := by
  obtain ⟨after, h⟩ := C146_piece he hx ht
  exact ⟨x.encode, after, h, rfl, fun b r b' hp => C15_serialise_then_parse (writable_at p hw hx) ht hp⟩

/-- What is false: a text that is found does not serialise to its piece, `xml_encode` of a text does not escape: from
`<a>1&lt;2</a>` it gives `1<2`, which stands nowhere in the document. -/
theorem C146_full_statement_is_false : ∃ (e x : Node) (p : Path), e.Writable ∧ e.isText = false ∧ e.at? p = some x ∧
    ¬ ∃ before after, e.encode = before ++ (x.encode ++ after) := by
  refine ⟨.elem ['a'] [] [.text ['1', '<', '2']], .text ['1', '<', '2'], [0], ?_, rfl, rfl, ?_⟩
  · simp only [Node.Writable, Node.WritableWith, Node.WritableList]
    refine ⟨by decide, by simp, by simp, by decide, trivial⟩
  · rintro ⟨b, a, h⟩
    have h1 : ['1', '<', '2'] <:+: (Node.elem ['a'] [] [.text ['1', '<', '2']]).encode := ⟨b, a, by rw [h, List.append_assoc]; rfl⟩
    revert h1
    decide

/-- `<a>x<b></b><c i="1"><b>y</b></c></a>`: the texts before `c` and before the `b` in it; the text cut at `b` and `c`. -/
example : exTree.textBefore [2] = "<a>x<b></b>".toList ∧ exTree.textBefore [2, 0] = "<a>x<b></b><c i=\"1\">".toList ∧
    exTree.encode = "<a>x<b></b><c i=\"1\"><b>y</b></c></a>".toList := by decide

example : ([[1], [2]] : List Path).map exTree.at? = [Node.elem ['b'] [] [], .elem ['c'] [(['i'], ['1'])] [.elem ['b'] [] [.text ['y']]]].map some ∧
    ([[1], [2]] : List Path).Pairwise fun p q => docLt p q ∧ Apart p q := by
  refine ⟨by decide, ?_⟩
  simp [docLt, Apart]

/-- The hypotheses of `C146_query`, for `c/b`. -/
example : exEnv.doc.NoEmptyText ∧ exEnv.doc.isText = false ∧
    (∀ s ∈ ([.plain .child ['b']] : List (PathStep NoF)), exEnv.StepOk 0 s) ∧
    (∀ s ∈ ([.plain .child ['c'], .plain .child ['b']] : List (PathStep NoF)), s.Level) := by
  refine ⟨exTree_plain, rfl, ?_, ?_⟩
  · intro s hs
    simp only [List.mem_cons, List.not_mem_nil, or_false] at hs
    subst hs
    simp [Env.StepOk, ElementAxis]
  · intro s hs
    simp only [List.mem_cons, List.not_mem_nil, or_false] at hs
    rcases hs with rfl | rfl <;> simp [PathStep.Level, PathStep.axis]

end Amara
