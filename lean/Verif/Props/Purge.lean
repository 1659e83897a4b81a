import Verif.Spec.Purge
import Verif.Props.Prune
import Verif.Props.XHeap
import Verif.Props.StreamTests
/-
C175: taking out of a document everything a query with tests finds.
-/
namespace Amara
variable {F : Type}

/-! ### what is in a tree from which nodes were cut out -/

theorem cutList_from {ps : List Path} : ∀ (ts : List Node) {here : Path} {k j : Nat} {y : Node}, (Node.cutAtList ps here k ts)[j]? = some y →
    ∃ (i : Nat) (t : Node), ts[i]? = some t ∧ here ++ [k + i] ∉ ps ∧ y = t.cutAt ps (here ++ [k + i])
  | [], here, k, j, y, h => by simp [Node.cutAtList] at h
  | t :: ts, here, k, j, y, h => by
    rw [Node.cutAtList] at h
    have later : ∀ {j' : Nat}, (Node.cutAtList ps here (k + 1) ts)[j']? = some y →
        ∃ (i : Nat) (t' : Node), (t :: ts)[i]? = some t' ∧ here ++ [k + i] ∉ ps ∧ y = t'.cutAt ps (here ++ [k + i]) := by
      intro j' h'
      obtain ⟨i, t', h1, h2, h3⟩ := cutList_from ts h'
      rw [show k + 1 + i = k + (i + 1) by omega] at h2 h3
      exact ⟨i + 1, t', h1, h2, h3⟩
    split at h
    · exact later h
    · next hn =>
      cases j with
      | zero => cases h; exact ⟨0, t, rfl, hn, rfl⟩
      | succ j => exact later h

/-- A node of the tree that is left was there before, and was not cut out. -/
theorem cut_from {ps : List Path} : ∀ (p' : Path) {t : Node} {here : Path} {y : Node}, (t.cutAt ps here).at? p' = some y →
    ∃ p x, t.at? p = some x ∧ y = x.cutAt ps (here ++ p) ∧ ((p = [] ∧ p' = []) ∨ here ++ p ∉ ps)
  | [], t, here, y, h => by cases h; exact ⟨[], t, rfl, by rw [List.append_nil], .inl ⟨rfl, rfl⟩⟩
  | j :: p', t, here, y, h => by
    cases t with
    | text s => simp [Node.cutAt, Node.at?, Node.xmlChildren] at h
    | elem n as cs =>
      simp only [Node.cutAt, Node.at?, Node.xmlChildren] at h
      cases hj : (Node.cutAtList ps here 0 cs)[j]? with
      | none => rw [hj] at h; cases h
      | some c =>
        rw [hj] at h
        obtain ⟨i, x, h1, h2, rfl⟩ := cutList_from cs hj
        rw [Nat.zero_add] at h2 h
        obtain ⟨p, y', h3, h4, h5⟩ := cut_from p' h
        refine ⟨i :: p, y', by simp only [Node.at?, Node.xmlChildren, h1]; exact h3, by rw [h4]; simp, ?_⟩
        rcases h5 with ⟨rfl, rfl⟩ | h5
        · exact .inr h2
        · right; simpa using h5

theorem cut_elem {ps : List Path} {x : Node} {q : Path} {m : Str} {as : Attrs} {cs : List Node} (h : x.cutAt ps q = .elem m as cs) :
    ∃ cs', x = .elem m as cs' := by
  cases x with
  | text s => cases h
  | elem n bs ts => rw [Node.cutAt] at h; cases h; exact ⟨ts, rfl⟩

theorem cut_noEmpty {d : Node} (hd : d.NoEmptyText) (ps : List Path) : (d.cutAt ps []).NoEmptyText := by
  intro p' h
  obtain ⟨p, x, h1, h2, _⟩ := cut_from p' h
  cases x with
  | text s => rw [Node.cutAt] at h2; cases h2; exact hd p h1
  | elem n as cs => cases h2

theorem cut_dicts {d : Node} (hd : d.Dicts) (ps : List Path) : (d.cutAt ps []).Dicts := by
  intro p' m as cs h
  obtain ⟨p, x, h1, h2, _⟩ := cut_from p' h
  obtain ⟨cs', rfl⟩ := cut_elem h2.symm
  exact hd p m as cs' h1

theorem cut_writable {ok : Str → Prop} {ps : List Path} : (∀ (t : Node) (here : Path), t.WritableWith ok → (t.cutAt ps here).WritableWith ok) ∧
    (∀ (ts : List Node) (here : Path) (k : Nat), Node.WritableList ok ts → Node.WritableList ok (Node.cutAtList ps here k ts)) := by
  apply Node.induct
  case elem =>
    intro n as cs ih here h
    exact ⟨h.1, h.2.1, h.2.2.1, ih here 0 h.2.2.2⟩
  case text => intro s here h; exact h
  case nil => intro here k _; trivial
  case cons =>
    intro t ts iht ihts here k h
    rw [Node.cutAtList]
    split
    · exact ihts here (k + 1) h.2
    · exact ⟨iht _ h.1, ihts here (k + 1) h.2⟩

/-! ### tests on the element itself -/

theorem itself_list {d d' : Node} {p p' : Path} {m : Str} {as : Attrs} {cs cs' : List Node} (h : d.at? p = some (.elem m as cs))
    (h' : d'.at? p' = some (.elem m as cs')) {l : TestedList} (hl : l.ofItself = true) {fs : List Found} (hg : l.Gives d (.at p) fs) :
    ∃ fs', l.Gives d' (.at p') fs' ∧ fs'.map d'.valueOf = fs.map d.valueOf := by
  have hat : ∀ k v, d.AttrAt (.at p) k v ↔ d'.AttrAt (.at p') k v := by
    intro k v
    constructor
    · rintro ⟨_, _, _, h1, h2⟩; rw [h] at h1; cases h1; exact ⟨_, _, _, h', h2⟩
    · rintro ⟨_, _, _, h1, h2⟩; rw [h'] at h1; cases h1; exact ⟨_, _, _, h, h2⟩
  unfold TestedList.ofItself at hl
  split at hl
  · next k =>
    rcases hg with ⟨q, v, hq, hv, rfl⟩ | ⟨hn, rfl⟩
    · exact ⟨[.attr p' k v], .inl ⟨p', v, rfl, (hat k v).1 hv, rfl⟩, rfl⟩
    · exact ⟨[], .inr ⟨fun v hv => hn v ((hat k v).2 hv), rfl⟩, rfl⟩
  · obtain ⟨_, _, _, h1, rfl⟩ := hg
    rw [h] at h1
    cases h1
    exact ⟨_, ⟨_, _, _, h', rfl⟩, by rw [List.map_map, List.map_map]; rfl⟩
  · cases hl

theorem first_of_values {d d' : Node} {f : Found} {fs fs' : List Found} (h : fs'.map d'.valueOf = (f :: fs).map d.valueOf) :
    ∃ g gs, fs' = g :: gs ∧ d'.valueOf g = d.valueOf f := by
  cases fs' with
  | nil => cases h
  | cons g gs => exact ⟨g, gs, rfl, (List.cons.inj h).1⟩

theorem argText_of_values {d d' : Node} {fs fs' : List Found} (h : fs'.map d'.valueOf = fs.map d.valueOf) : d'.argText fs' = d.argText fs := by
  cases fs with
  | nil => rw [List.map_nil, List.map_eq_nil_iff] at h; rw [h]; rfl
  | cons f fs =>
    obtain ⟨g, gs, rfl, h1⟩ := first_of_values h
    exact h1

theorem itself_test : ∀ (t : ValueTest), t.ofItself = true → ∀ {d d' : Node} {p p' : Path} {m : Str} {as : Attrs} {cs cs' : List Node},
    d.at? p = some (.elem m as cs) → d'.at? p' = some (.elem m as cs') → (t.Holds d (.at p) ↔ t.Holds d' (.at p'))
  | .found l, ht, d, d', p, p', m, as, cs, cs', h, h' => by
    have one : ∀ {d d' : Node} {p p' : Path} {cs cs' : List Node}, d.at? p = some (.elem m as cs) → d'.at? p' = some (.elem m as cs') →
        (ValueTest.found l).Holds d (.at p) → (ValueTest.found l).Holds d' (.at p') := by
      rintro d d' p p' cs cs' h h' ⟨f, fs, hg⟩
      obtain ⟨fs', h1, h2⟩ := itself_list h h' ht hg
      obtain ⟨g, gs, rfl, _⟩ := first_of_values h2
      exact ⟨g, gs, h1⟩
    exact ⟨one h h', one h' h⟩
  | .is l s, ht, d, d', p, p', m, as, cs, cs', h, h' => by
    have one : ∀ {d d' : Node} {p p' : Path} {cs cs' : List Node}, d.at? p = some (.elem m as cs) → d'.at? p' = some (.elem m as cs') →
        (ValueTest.is l s).Holds d (.at p) → (ValueTest.is l s).Holds d' (.at p') := by
      rintro d d' p p' cs cs' h h' ⟨f, fs, hg, hv⟩
      obtain ⟨fs', h1, h2⟩ := itself_list h h' ht hg
      obtain ⟨g, gs, rfl, h3⟩ := first_of_values h2
      exact ⟨g, gs, h1, h3.trans hv⟩
    exact ⟨one h h', one h' h⟩
  | .count l op k, ht, d, d', p, p', m, as, cs, cs', h, h' => by
    have one : ∀ {d d' : Node} {p p' : Path} {cs cs' : List Node}, d.at? p = some (.elem m as cs) → d'.at? p' = some (.elem m as cs') →
        (ValueTest.count l op k).Holds d (.at p) → (ValueTest.count l op k).Holds d' (.at p') := by
      rintro d d' p p' cs cs' h h' ⟨fs, hg, hv⟩
      obtain ⟨fs', h1, h2⟩ := itself_list h h' ht hg
      have h3 := congrArg List.length h2
      rw [List.length_map, List.length_map] at h3
      exact ⟨fs', h1, by rw [h3]; exact hv⟩
    exact ⟨one h h', one h' h⟩
  | .countIs l k, ht, d, d', p, p', m, as, cs, cs', h, h' => by
    have one : ∀ {d d' : Node} {p p' : Path} {cs cs' : List Node}, d.at? p = some (.elem m as cs) → d'.at? p' = some (.elem m as cs') →
        (ValueTest.countIs l k).Holds d (.at p) → (ValueTest.countIs l k).Holds d' (.at p') := by
      rintro d d' p p' cs cs' h h' ⟨fs, hg, hv⟩
      obtain ⟨fs', h1, h2⟩ := itself_list h h' ht hg
      have h3 := congrArg List.length h2
      rw [List.length_map, List.length_map] at h3
      exact ⟨fs', h1, by rw [h3]; exact hv⟩
    exact ⟨one h h', one h' h⟩
  | .contains l s, ht, d, d', p, p', m, as, cs, cs', h, h' => by
    have one : ∀ {d d' : Node} {p p' : Path} {cs cs' : List Node}, d.at? p = some (.elem m as cs) → d'.at? p' = some (.elem m as cs') →
        (ValueTest.contains l s).Holds d (.at p) → (ValueTest.contains l s).Holds d' (.at p') := by
      rintro d d' p p' cs cs' h h' ⟨fs, hg, hv⟩
      obtain ⟨fs', h1, h2⟩ := itself_list h h' ht hg
      exact ⟨fs', h1, by rw [argText_of_values h2]; exact hv⟩
    exact ⟨one h h', one h' h⟩
  | .startsWith l s, ht, d, d', p, p', m, as, cs, cs', h, h' => by
    have one : ∀ {d d' : Node} {p p' : Path} {cs cs' : List Node}, d.at? p = some (.elem m as cs) → d'.at? p' = some (.elem m as cs') →
        (ValueTest.startsWith l s).Holds d (.at p) → (ValueTest.startsWith l s).Holds d' (.at p') := by
      rintro d d' p p' cs cs' h h' ⟨fs, hg, hv⟩
      obtain ⟨fs', h1, h2⟩ := itself_list h h' ht hg
      exact ⟨fs', h1, by rw [argText_of_values h2]; exact hv⟩
    exact ⟨one h h', one h' h⟩
  | .nameIs n, _, d, d', p, p', m, as, cs, cs', h, h' => by
    constructor
    · rintro ⟨_, _, h1⟩; rw [h] at h1; cases h1; exact ⟨_, _, h'⟩
    · rintro ⟨_, _, h1⟩; rw [h'] at h1; cases h1; exact ⟨_, _, h⟩
  | .not t, ht, d, d', p, p', m, as, cs, cs', h, h' => not_congr (itself_test t ht h h')
  | .and t t', ht, d, d', p, p', m, as, cs, cs', h, h' => by
    simp only [ValueTest.ofItself, Bool.and_eq_true] at ht
    exact and_congr (itself_test t ht.1 h h') (itself_test t' ht.2 h h')
  | .or t t', ht, d, d', p, p', m, as, cs, cs', h, h' => by
    simp only [ValueTest.ofItself, Bool.and_eq_true] at ht
    exact or_congr (itself_test t ht.1 h h') (itself_test t' ht.2 h h')

theorem itself_tests : ∀ (ts : Tests), ts.ofItself = true → ∀ {d d' : Node} {p p' : Path} {m : Str} {as : Attrs} {cs cs' : List Node},
    d.at? p = some (.elem m as cs) → d'.at? p' = some (.elem m as cs') → (ts.Hold d (.at p) ↔ ts.Hold d' (.at p'))
  | .one t, ht, _, _, _, _, _, _, _, _, h, h' => itself_test t ht h h'
  | .more t ts, ht, _, _, _, _, _, _, _, _, h, h' => by
    simp only [Tests.ofItself, Bool.and_eq_true] at ht
    exact and_congr (itself_test t ht.1 h h') (itself_tests ts ht.2 h h')

/-! ### the query -/

/-- What `//m[t]…` finds in a document. -/
theorem everywhere_finds (fo : FloatOps F) (n : Nat) {d : Node} (hd : d.NoEmptyText) (hdict : d.Dicts) (m : Str) {ts : Tests} (ht : ts.Ok)
    {wt : List (X.Tok F)} (hw : WritesTests wt ts) {s : Str} (hs : X.Written fo (.abbrevSep :: X.nameTok m :: wt) s) :
    ∃ ps : List Path, ps.Nodup ∧ (∀ q, q ∈ ps ↔ d.Named m q ∧ ts.Hold d (.at q)) ∧
      xmlXPath fo (fun _ => none) n d [] (.str s) = ⟨ps.map .node, .done⟩ := by
  obtain ⟨qs, h1, h2, h3⟩ := C48_every_element_once (queryEnv fo (fun _ => none) d) hd n .root (.inl rfl) m
  have hok : (CorePath.anywhere (.step .child m)).Ok := by simp [CorePath.Ok, CorePath.startsDown]
  obtain ⟨vs, g1, g2⟩ := (C162_exactly (queryEnv fo (fun _ => none) d) hd hdict n hok (u := .root) trivial _).1 h1
  have hv : vs = qs.map .at := by
    apply nodes_inj
    apply items_inj (F := F)
    simp only [List.map_map]
    exact g2.symm
  subst hv
  have hparse : X.xparse fo s = some (.ok (TestedList.path (.filter (.core (.anywhere (.step .child m))) ts)).expr) := by
    have h := nameTok_word (F := F) m
    have hp := WritesPath.anywhere (.step (.child h.1))
    rw [h.2] at hp
    exact C167_is_read fo (.path (.filter (.core hp) (by simp) hw)) hs
  letI : DecidablePred (ts.Hold d) := fun _ => Classical.propDecidable _
  refine ⟨qs.filter fun q => decide (ts.Hold d (.at q)), h2.sublist List.filter_sublist, ?_, ?_⟩
  · intro q
    rw [List.mem_filter, h3 q]
    simp [queryEnv]
  · have hf : OnlyThose (ts.Hold d) (qs.map .at) ((qs.filter fun q => decide (ts.Hold d (.at q))).map .at) := by
      have := onlyThose_filter (P := ts.Hold d) (qs.map .at)
      rwa [List.filter_map] at this
    have h4 := (C166_exactly (queryEnv fo (fun _ => none) d) hd hdict n (l := .path (.filter (.core (.anywhere (.step .child m))) ts)) ⟨hok, ht⟩
      (u := .root) trivial _).2 ⟨_, ⟨_, ⟨_, g1, hf⟩, rfl⟩, rfl⟩
    simp only [xmlXPath, parseText_eq hparse, contextItem, if_true]
    rw [List.map_map, List.map_map] at h4
    exact h4

theorem objs_of {h : Heap} {t : Id} : ∀ {ps : List Path} {xs : List Id} {r : Mem.Res F}, ps.map (h.locate t) = xs.map some →
    (⟨ps.map .node, .done⟩ : Res F).StandsFor h t r → r = ⟨xs.map .obj, .done⟩ := by
  rintro ps xs ⟨ys, e⟩ hx ⟨h1, h2, h3⟩
  cases h3
  simp only at h1 h2
  have : ys = xs.map .obj := by
    apply List.ext_getElem?
    intro j
    have hj := congrArg (·[j]?) hx
    simp only [List.getElem?_map] at hj ⊢
    cases hp : ps[j]? with
    | none =>
      rw [hp] at hj
      have : ps.length ≤ j := List.getElem?_eq_none_iff.1 hp
      have hy : ys[j]? = none := List.getElem?_eq_none_iff.2 (by rw [← h1, List.length_map]; exact this)
      rw [hy]
      cases hx' : xs[j]? with
      | none => rfl
      | some x => rw [hx'] at hj; cases hj
    | some p =>
      rw [hp] at hj
      cases hx' : xs[j]? with
      | none => rw [hx'] at hj; cases hj
      | some x =>
        rw [hx'] at hj
        simp only [Option.map_some, Option.some.injEq] at hj
        have hlt : j < ys.length := by
          rw [← h1, List.length_map]
          exact (List.getElem?_eq_some_iff.1 hp).1
        have hy : ys[j]? = some ys[j] := List.getElem?_eq_getElem hlt
        have := h2 j (.node p) ys[j] (by rw [List.getElem?_map, hp]; rfl) hy
        rw [hy]
        cases hyj : ys[j] <;> rw [hyj] at this <;> simp only [Item.StandsFor] at this
        rw [hj] at this
        cases this
        rfl
  rw [this]

theorem locate_all {h : Heap} {t0 : Id} {d : Node} (hr : Rep h none t0 d) : ∀ {ps : List Path}, (∀ p ∈ ps, d.ElemAt p) →
    ∃ xs : List Id, ps.map (h.locate t0) = xs.map some
  | [], _ => ⟨[], rfl⟩
  | p :: ps, hel => by
    obtain ⟨xs, h5⟩ := locate_all hr (ps := ps) fun q hq => hel q (by simp [hq])
    obtain ⟨_, _, _, h6⟩ := hel p (by simp)
    obtain ⟨e, h7⟩ := rep_locate p hr h6
    exact ⟨e :: xs, by rw [List.map_cons, List.map_cons, h7, h5]⟩

/-- C175: `for e in list(doc.xml_xpath('//m[t]…')): e.xml_parent.xml_remove(e)`, for a tree in memory.  The elements in the list are just
those called `m` of which the tests hold, each once; the loop runs to its end unless the document element is one of them; then the
tree is the old one without these elements; and if the tests look only at the name and the attributes of an element, the same query finds
nothing any more. -/
theorem C175_taking_out (fo : FloatOps F) (n : Nat) {h : Heap} {t0 : Id} {d : Node} (hr : Rep h none t0 d) (htx : d.isText = false)
    (hd : d.NoEmptyText) (hdict : d.Dicts) (m : Str) {ts : Tests} (ht : ts.Ok) {wt : List (X.Tok F)} (hw : WritesTests wt ts) {s : Str}
    (hs : X.Written fo (.abbrevSep :: X.nameTok m :: wt) s) :
    ∃ (ps : List Path) (xs : List Id), ps.Nodup ∧ (∀ q, q ∈ ps ↔ d.Named m q ∧ ts.Hold d (.at q)) ∧
      ps.map (h.locate t0) = xs.map some ∧
      (∀ k, d.count ≤ k → Mem.xmlXPath fo h k (fun _ => none) n t0 (.str s) = ⟨xs.map .obj, .done⟩) ∧
      ((∃ h', RemoveAll h xs h') ↔ ¬ (d.Named m [] ∧ ts.Hold d (.at []))) ∧
      ∀ h', RemoveAll h xs h' → Rep h' none t0 (d.cutAt ps []) ∧
        (ts.ofItself = true → ∀ k, (d.cutAt ps []).count ≤ k → Mem.xmlXPath fo h' k (fun _ => none) n t0 (.str s) = ⟨[], .done⟩) := by
  obtain ⟨ps, h1, h2, h3⟩ := everywhere_finds fo n hd hdict m ht hw hs
  have hel : ∀ p ∈ ps, d.ElemAt p := by
    intro p hp
    obtain ⟨⟨as, cs, h⟩, _⟩ := (h2 p).1 hp
    exact ⟨_, _, _, h⟩
  obtain ⟨xs, h5⟩ := locate_all hr hel
  have hnov : ∀ (h : Heap), VarsStandFor (F := F) h t0 (fun _ => none) (fun _ => none) := fun _ _ => trivial
  have hwhen := C144_when_it_succeeds hr h5 hel
  refine ⟨ps, xs, h1, h2, h5, fun k hk => ?_, ?_, fun h' hq => ?_⟩
  · have := C153_xml_xpath fo hr htx hk (hnov h) n (p := []) rfl s
    rw [h3] at this
    exact objs_of h5 this
  · rw [hwhen, h2 []]
    exact ⟨fun a => a.1, fun a => ⟨a, h1⟩⟩
  · have hrep := (C144_what_is_left hr h5 hel hq).1
    refine ⟨hrep, fun hit k hk => ?_⟩
    have hno : [] ∉ ps := (hwhen.1 ⟨h', hq⟩).1
    obtain ⟨ps', _, h2', h3'⟩ := everywhere_finds fo n (cut_noEmpty hd ps) (cut_dicts hdict ps) m ht hw hs
    have hnil : ps' = [] := by
      cases hps' : ps' with
      | nil => rfl
      | cons q' r =>
        exfalso
        obtain ⟨⟨as, cs, ha⟩, hh⟩ := (h2' q').1 (by rw [hps']; simp)
        obtain ⟨q, x, b1, b2, b3⟩ := cut_from q' ha
        obtain ⟨cs', rfl⟩ := cut_elem b2.symm
        have hin : q ∈ ps := (h2 q).2 ⟨⟨as, cs', b1⟩, (itself_tests ts hit b1 ha).2 hh⟩
        rcases b3 with ⟨rfl, _⟩ | b3
        · exact hno hin
        · exact b3 hin
    have htx' : (d.cutAt ps []).isText = false := by
      cases d with
      | text => cases htx
      | elem => rfl
    have := C153_xml_xpath fo hrep htx' hk (hnov h') n (p := []) rfl s
    rw [h3', hnil] at this
    exact objs_of (ps := []) (xs := []) rfl this

/-- C175: so for the text of a document: it can be parsed, cleared of what the query finds, and saved; read again, the saved text is the
document without those elements (adjacent texts merged). -/
theorem C175_parse_clear_save (fo : FloatOps F) (n : Nat) {d : Node} {w : Str} (hdoc : IsDoc d w) {b b' : Builder} {r : ParseRes}
    (hp : TreeParse b w r b') (m : Str) {ts : Tests} (ht : ts.Ok) {wt : List (X.Tok F)} (hw : WritesTests wt ts) {s : Str}
    (hs : X.Written fo (.abbrevSep :: X.nameTok m :: wt) s) :
    ∃ (t0 : Id) (ps : List Path) (xs : List Id), r = .returned (some t0) ∧ ps.Nodup ∧ (∀ q, q ∈ ps ↔ d.Named m q ∧ ts.Hold d (.at q)) ∧
      (∀ k, d.count ≤ k → Mem.xmlXPath fo b'.heap k (fun _ => none) n t0 (.str s) = ⟨xs.map .obj, .done⟩) ∧
      ((∃ h', RemoveAll b'.heap xs h') ↔ ¬ (d.Named m [] ∧ ts.Hold d (.at []))) ∧
      ∀ h', RemoveAll b'.heap xs h' → Rep h' none t0 (d.cutAt ps []) ∧
        (d.Writable → ∀ c r' c', TreeParse c (d.cutAt ps []).encode r' c' →
          ∃ i, r' = .returned (some i) ∧ Rep c'.heap none i (d.cutAt ps []).norm) := by
  obtain ⟨t0, h1, h2⟩ := C20_builder_builds_the_tree hdoc hp
  have htx : d.isText = false := hdoc.1
  obtain ⟨ps, xs, a1, a2, _, a4, a5, a6⟩ := C175_taking_out fo n h2 htx (doc_noEmpty hdoc) (fun p m as cs hp => doc_dicts hdoc hp) m ht hw hs
  refine ⟨t0, ps, xs, h1, a1, a2, a4, a5, fun h' hq => ⟨(a6 h' hq).1, fun hwr c r' c' hc => ?_⟩⟩
  refine C15_serialise_then_parse (cut_writable.1 d [] hwr) ?_ hc
  cases d with
  | text => cases htx
  | elem => rfl

/-- `[not(@k)]` and `[not(r)]` -/
def exNoKey : Tests := .one (.not (.found (.core (.last (.attr ['k'])))))
def exLeaf : Tests := .one (.not (.found (.path (.core (.step .child ['r'])))))

-- the tests, their tokens and a text of `//b[not(@k)]`; the tree of C144 with one `b` in another is cleared of both
example : exNoKey.Ok ∧ exNoKey.ofItself = true ∧
    WritesTests (F := F) [.lbrack, .name "not".toList, .lparen, .at, .name ['k'], .rparen, .rbrack] exNoKey ∧
    X.xparse noFloats "//b[not(@k)]".toList = some (.ok (TestedList.path (.filter (.core (.anywhere (.step .child ['b']))) exNoKey)).expr) ∧
    xmlXPath noFloats (fun _ => none) 0 exNestTree [] (.str "//b[not(@k)]".toList) = ⟨[.node [0], .node [0, 0]], .done⟩ ∧
    Rep exNest none 0 exNestTree ∧ ¬ exNestTree.Named ['b'] [] ∧ exNestTree.cutAt [[0], [0, 0]] [] = .elem ['r'] [] [.text ['x']] := by
  have h1 : X.xparse noFloats "//b[not(@k)]".toList =
      some (.ok (TestedList.path (.filter (.core (.anywhere (.step .child ['b']))) exNoKey)).expr) := by with_unfolding_all rfl
  refine ⟨by simp [exNoKey, Tests.Ok, ValueTest.Ok, TestedList.Ok, CoreList.Ok, CoreEnd.Ok], rfl, ?_, h1, ?_, exNest_rep, ?_, by decide +kernel⟩
  · exact .one (.not (.found (.core (.rel (.last (.attr (k := .name ['k']) trivial))))))
  · rw [asked_parsed h1]; decide +kernel
  · rintro ⟨_, _, h⟩; cases h

/-- C175: with other tests the query can find something again: `//r[not(r)]` takes the innermost `r` out of `<d><r><r></r></r></d>`, and then
finds the one that was around it. -/
theorem C175_may_find_more : exLeaf.ofItself = false ∧
    let q := (TestedList.path (.filter (.core (.anywhere (.step .child ['r']))) exLeaf)).expr
    let d : Node := .elem ['d'] [] [.elem ['r'] [] [.elem ['r'] [] []]]
    X.xparse noFloats "//r[not(r)]".toList = some (.ok q) ∧
    xmlXPath noFloats (fun _ => none) 0 d [] (.str "//r[not(r)]".toList) = ⟨[.node [0, 0]], .done⟩ ∧
    d.cutAt [[0, 0]] [] = .elem ['d'] [] [.elem ['r'] [] []] ∧
    xmlXPath noFloats (fun _ => none) 0 (d.cutAt [[0, 0]] []) [] (.str "//r[not(r)]".toList) = ⟨[.node [0]], .done⟩ := by
  have h1 : X.xparse noFloats "//r[not(r)]".toList =
      some (.ok (TestedList.path (.filter (.core (.anywhere (.step .child ['r']))) exLeaf)).expr) := by with_unfolding_all rfl
  refine ⟨rfl, h1, ?_, by decide +kernel, ?_⟩
  · rw [asked_parsed h1]; decide +kernel
  · rw [asked_parsed h1]; decide +kernel

end Amara
