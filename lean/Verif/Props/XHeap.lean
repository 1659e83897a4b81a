import Verif.Lemmas.XHeapRun
import Verif.Props.Edit
import Verif.Props.Query
/-
C153: a query on a tree in memory gives what it gives on the document the tree stands for.
-/
namespace Amara

variable {F : Type}

theorem parse_litsPlain (fo : FloatOps F) (s : Str) (e : Expr F) (h : parseText fo s = .ok e) : e.LitsPlain := by
  unfold parseText at h
  cases hx : X.xparse fo s with
  | none => rw [hx] at h; cases h
  | some r =>
    rw [hx] at h
    simp only at h
    subst h
    obtain ⟨ts, _, l, r, k, hg⟩ := (C77_parser_follows_the_grammar fo s e).1 hx
    exact expr_litsPlain hg

/-- C153: evaluated on the objects of a tree, where parents are weak references and children lists of objects, an expression yields
the objects that stand at the positions it yields in the document, and the same values, in the same order, with the same end. -/
theorem C153_evaluation (fo : FloatOps F) {h : Heap} {t : Id} {doc : Node} (hr : Rep h none t doc) (hd : doc.isText = false) {k : Nat}
    (hk : doc.count ≤ k) {vars : Str → Option (Item F)} {vars' : Str → Option (Mem.Item F)} (hv : VarsStandFor h t vars vars') (n : Nat)
    {e : Expr F} (he : e.LitsPlain) {x : Item F} {x' : Mem.Item F} (hx : x.StandsFor h t x') :
    ((queryEnv fo vars doc).run n e x).StandsFor h t (Mem.evalN fo h k (parseText fo) vars' n e x') :=
  sim_iff.2 (sim_evalN fo hr hk hv hd (parse_litsPlain fo) n e he x x' (inMem_iff.1 hx))

theorem contextItem_standsFor {h : Heap} {t : Id} {doc : Node} (hr : Rep h none t doc) {p : Path} {i : Id} (hp : h.locate t p = some i) :
    (contextItem p : Item F).StandsFor h t (Mem.contextItem h i) := by
  rcases List.eq_nil_or_concat p with rfl | ⟨q, j, rfl⟩
  · cases hp
    simp only [contextItem, Mem.contextItem, if_true, rep_parent hr, Item.StandsFor]
  · rw [List.concat_eq_append] at hp ⊢
    obtain ⟨e, _, _, h3⟩ := parent_snoc hr hp
    simp only [contextItem, Mem.contextItem, h3]
    rw [if_neg (by simp)]
    exact hp

/-- C153: so for `xml_xpath` of any node of the tree and any query given as a string. -/
theorem C153_xml_xpath (fo : FloatOps F) {h : Heap} {t : Id} {doc : Node} (hr : Rep h none t doc) (hd : doc.isText = false) {k : Nat}
    (hk : doc.count ≤ k) {vars : Str → Option (Item F)} {vars' : Str → Option (Mem.Item F)} (hv : VarsStandFor h t vars vars') (n : Nat)
    {p : Path} {i : Id} (hp : h.locate t p = some i) (s : Str) :
    (xmlXPath fo vars n doc p (.str s)).StandsFor h t (Mem.xmlXPath fo h k vars' n i (.str s)) := by
  simp only [xmlXPath, Mem.xmlXPath]
  cases hs : parseText fo s with
  | error er => exact sim_iff.2 sim_nil
  | ok e => exact C153_evaluation fo hr hd hk hv n (parse_litsPlain fo s e hs) (contextItem_standsFor hr hp)

/-- C153: the items that stand for each other say the same: string value, name, truth value, and equality with other items. -/
theorem C153_items_agree (E : Env F) {h : Heap} {t : Id} (hr : Rep h none t E.doc) {k : Nat} (hk : E.doc.count ≤ k)
    {x : Item F} {x' : Mem.Item F} (hx : x.StandsFor h t x') :
    x'.toStr E.fo h k = E.strVal x ∧ x'.nameOf h = x.nameOf E.doc ∧ (x'.truthy E.fo h = true ↔ E.Truthy x) ∧
    ∀ y y', y.StandsFor h t y' → x'.pyEq E.fo h y' = x.pyEq E.fo E.doc y := by
  have hi := inMem_iff.1 hx
  refine ⟨?_, inMem_nameOf hr hi, ?_, fun y y' hy => inMem_pyEq E.fo hr hi (inMem_iff.1 hy)⟩
  · rw [inMem_toStr E.fo hr hk hi]
    exact toStr_strVal E x
  · rw [inMem_truthy E.fo hr hi]; exact Iff.rfl

/-- C153: an item stands for one item in memory only, and the other way round. -/
theorem C153_one_to_one {h : Heap} {t : Id} {doc : Node} (hr : Rep h none t doc) {x y : Item F} {x' y' : Mem.Item F}
    (hx : x.StandsFor h t x') (hy : y.StandsFor h t y') : x = y ↔ x' = y' := by
  have hx := inMem_iff.1 hx
  have hy := inMem_iff.1 hy
  constructor
  · rintro rfl
    cases hx <;> cases hy <;> first | rfl | skip
    all_goals
      rename_i h1 _ h2
      rw [h1] at h2
      cases h2
      rfl
  · rintro rfl
    cases hx <;> cases hy <;> first | rfl | skip
    all_goals
      rename_i h1 _ h2
      rw [locate_inj hr _ _ _ rfl h1 h2]

theorem inMemory_unique {h : Heap} {t : Id} {doc : Node} (hr : Rep h none t doc) {r : Res F} {a b : Mem.Res F} (ha : r.StandsFor h t a) (hb : r.StandsFor h t b) : a = b := by
  rcases a with ⟨xs, ta⟩
  rcases b with ⟨ys, tb⟩
  obtain ⟨a1, a2, a3⟩ := ha
  obtain ⟨b1, b2, b3⟩ := hb
  have : xs = ys := by
    refine List.ext_getElem (a1.symm.trans b1) fun j h1 h2 => ?_
    have h0 : j < r.items.length := by rw [a1]; exact h1
    have e1 := a2 j _ _ (List.getElem?_eq_getElem h0) (List.getElem?_eq_getElem h1)
    have e2 := b2 j _ _ (List.getElem?_eq_getElem h0) (List.getElem?_eq_getElem h2)
    exact (C153_one_to_one hr e1 e2).1 rfl
  subst this
  simp only at a3 b3
  rw [← a3, ← b3]

/-- C153: any bound on the number of objects that is large enough gives the same. -/
theorem C153_bound (fo : FloatOps F) {h : Heap} {t : Id} {doc : Node} (hr : Rep h none t doc) (hd : doc.isText = false) {k k' : Nat}
    (hk : doc.count ≤ k) (hk' : doc.count ≤ k') {vars : Str → Option (Item F)} {vars' : Str → Option (Mem.Item F)}
    (hv : VarsStandFor h t vars vars') (n : Nat) {p : Path} {i : Id} (hp : h.locate t p = some i) (s : Str) :
    Mem.xmlXPath fo h k vars' n i (.str s) = Mem.xmlXPath fo h k' vars' n i (.str s) :=
  inMemory_unique hr (C153_xml_xpath fo hr hd hk hv n hp s) (C153_xml_xpath fo hr hd hk' hv n hp s)

/-- C153: after any program that parses, makes, inserts, removes and changes nodes, whatever the collector did, a query on an element
of any tree the program holds gives what it gives on the document which the calls say that the tree is. -/
theorem C153_after_any_program (fo : FloatOps F) {h : Heap} {T : Forest} (hs : EditSteps Heap.empty (fun _ => none) h T) {r : Id}
    {doc : Node} (ht : T r = some doc) (hd : doc.isText = false) {k : Nat} (hk : doc.count ≤ k)
    {vars : Str → Option (Item F)} {vars' : Str → Option (Mem.Item F)} (hv : VarsStandFor h r vars vars') (n : Nat) {p : Path} {sub : Node}
    (hp : doc.at? p = some sub) (s : Str) :
    ∃ i, h.locate r p = some i ∧ (xmlXPath fo vars n doc p (.str s)).StandsFor h r (Mem.xmlXPath fo h k vars' n i (.str s)) := by
  have hr := C140_memory_is_the_forest hs ht
  obtain ⟨i, hi⟩ := rep_locate p hr hp
  exact ⟨i, hi, C153_xml_xpath fo hr hd hk hv n hi s⟩

-- the program of C140: in the end `c` holds what was in `a`; on `c` the query `c/d/.. | //d` yields `c` and `d`, and `//d/@k` the attribute
example : ∃ h T, EditSteps Heap.empty (fun _ => none) h T ∧
    T 3 = some (.elem ['c'] [] [.elem ['d'] [(['k'], ['v'])] [.text ['x']]]) ∧
    Mem.xmlXPath noFloats h 3 (fun _ => none) 0 3 (.parsed (.union (.absAll (.step .child (.name ['d'])))
      (.slash (.slash (.step .child (.name ['c'])) (.step .child (.name ['d']))) .dotdot))) = ⟨[.obj 3, .obj 1], .done⟩ ∧
    Mem.xmlXPath noFloats h 3 (fun _ => none) 0 1 (.parsed (.slash (.absAll (.step .child (.name ['d']))) (.step .attribute (.name ['k'])))) =
      ⟨[.attr 1 ['k'] ['v']], .done⟩ ∧
    (Item.attr [0] ['k'] ['v'] : Item NoF).StandsFor h 3 (.attr 1 ['k'] ['v']) := by
  refine ⟨_, _, .tail (.tail (.tail (.tail (.tail (.tail (.tail (.tail (.tail .refl
    (.newElement ['a'] [])) (.newElement ['b'] []))
    (.insertString (r := 1) (p := []) (e := 1) (child := .str ['x']) (i := -1) rfl rfl (.inl rfl) rfl))
    (.insertTree (r := 0) (p := []) (e := 0) (d := 1) (i := -1) rfl rfl rfl rfl (by decide) rfl))
    (.newElement ['c'] []))
    (.remove (r := 0) (p := []) (e := 0) (k := 0) (c := 1) rfl rfl rfl rfl (fun _ h => (by cases h)) rfl))
    (.insertTree (r := 3) (p := []) (e := 3) (d := 1) (i := -1) rfl rfl rfl rfl (by decide) rfl))
    (.attributes (r := 3) (p := [0]) (e := 1) (fun _ => [(['k'], ['v'])]) rfl rfl))
    (.rename (r := 3) (p := [0]) (e := 1) ['d'] rfl rfl), rfl, ?_, ?_, rfl, rfl, rfl⟩
  · with_unfolding_all rfl
  · with_unfolding_all rfl

/-- C153: two programs that end with the same tree cannot be told apart by a query, whatever other trees they hold, and however they
got there: it yields nodes at the same positions and the same values. -/
theorem C153_history_does_not_matter (fo : FloatOps F) {h h' : Heap} {T T' : Forest} (hs : EditSteps Heap.empty (fun _ => none) h T)
    (hs' : EditSteps Heap.empty (fun _ => none) h' T') {r r' : Id} {doc : Node} (ht : T r = some doc) (ht' : T' r' = some doc)
    (hd : doc.isText = false) {k k' : Nat} (hk : doc.count ≤ k) (hk' : doc.count ≤ k') (n : Nat) {p : Path} {i i' : Id}
    (hi : h.locate r p = some i) (hi' : h'.locate r' p = some i') (s : Str) :
    ∃ res : Res F, res.StandsFor h r (Mem.xmlXPath fo h k (fun _ => none) n i (.str s)) ∧
      res.StandsFor h' r' (Mem.xmlXPath fo h' k' (fun _ => none) n i' (.str s)) :=
  ⟨_, C153_xml_xpath fo (C140_memory_is_the_forest hs ht) hd hk (vars := fun _ => none) (fun _ => trivial) n hi s,
    C153_xml_xpath fo (C140_memory_is_the_forest hs' ht') hd hk' (fun _ => trivial) n hi' s⟩

/-- C153: a tree without adjacent or empty texts, saved and loaded again, gives the same. -/
theorem C153_save_and_load (fo : FloatOps F) {b : Builder} {T : Forest} (hs : EditSteps Heap.empty (fun _ => none) b.heap T) {r : Id}
    {doc : Node} (ht : T r = some doc) (hw : doc.Writable) (hd : doc.isText = false) (hn : doc.norm = doc) {held : List Id}
    (hh : T.HeldBy held) {out : ParseRes} {b' : Builder} (hp : ParseHolding held b doc.encode out b') {k : Nat} (hk : doc.count ≤ k) (n : Nat)
    {p : Path} {sub : Node} (hsub : doc.at? p = some sub) (s : Str) :
    ∃ new i i', out = .returned (some new) ∧ b'.heap.locate r p = some i ∧ b'.heap.locate new p = some i' ∧
      ∃ res : Res F, res.StandsFor b'.heap r (Mem.xmlXPath fo b'.heap k (fun _ => none) n i (.str s)) ∧
        res.StandsFor b'.heap new (Mem.xmlXPath fo b'.heap k (fun _ => none) n i' (.str s)) := by
  obtain ⟨new, h1, _, h3, h4⟩ := C140_save_and_load hs ht hw hd hh hp
  rw [hn] at h3
  obtain ⟨i, hi⟩ := rep_locate p h4 hsub
  obtain ⟨i', hi'⟩ := rep_locate p h3 hsub
  exact ⟨new, i, i', h1, hi, hi', _, C153_xml_xpath fo h4 hd hk (vars := fun _ => none) (fun _ => trivial) n hi s,
    C153_xml_xpath fo h3 hd hk (fun _ => trivial) n hi' s⟩

/-- What C153 excludes: an element that is listed in two places, `a.xml_append(b); c.xml_append(b)`.  `a` still has `b` as its child,
but `a/b/..` is now `c`, an element that is not in the tree of `a`. -/
theorem C153_attached_elements_excluded :
    let h0 := (Heap.empty.newElement ['a'] []).2
    let h1 := (h0.newElement ['c'] []).2
    let h2 := (h1.newElement ['b'] []).2
    ∃ h3 h4 : Heap, h2.xmlAppend 0 (.node 2) = .ok h3 ∧ h3.xmlAppend 1 (.node 2) = .ok h4 ∧ h4.children 0 = [2] ∧
      (∀ k, 2 ≤ k → Mem.evalN noFloats h3 k (parseText noFloats) (fun _ => none) 0
        (.slash (.slash (.step .child (.name ['a'])) (.step .child (.name ['b']))) .dotdot) (Mem.contextItem h3 0) = ⟨[.obj 0], .done⟩) ∧
      (∀ k, 2 ≤ k → Mem.evalN noFloats h4 k (parseText noFloats) (fun _ => none) 0
        (.slash (.slash (.step .child (.name ['a'])) (.step .child (.name ['b']))) .dotdot) (Mem.contextItem h4 0) = ⟨[.obj 1], .done⟩) ∧
      ∀ p, h4.locate 0 p ≠ some 1 := by
  refine ⟨_, _, rfl, rfl, by decide, fun k hk => ?_, fun k hk => ?_, ?_⟩
  · rfl
  · rfl
  · intro p
    rcases p with _ | ⟨_ | j, _ | ⟨j', p⟩⟩ <;> (intro h; cases h)

end Amara
