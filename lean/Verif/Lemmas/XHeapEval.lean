import Verif.Lemmas.XHeap
/-
Evaluating on objects in memory and on the document they stand for (C153), the evaluator function by function.
-/
namespace Amara

variable {F : Type}

/-- `Item.StandsFor` case by case. -/
inductive InMem (h : Heap) (t : Id) : Item F → Mem.Item F → Prop
  | root : InMem h t .root (.root t)
  | node {p i} : h.locate t p = some i → InMem h t (.node p) (.obj i)
  | attr {p e k v} : h.locate t p = some e → InMem h t (.attr p k v) (.attr e k v)
  | str {s} : InMem h t (.str s) (.str s)
  | int {i} : InMem h t (.int i) (.int i)
  | float {f} : InMem h t (.float f) (.float f)
  | bool {b} : InMem h t (.bool b) (.bool b)

theorem inMem_iff {h : Heap} {t : Id} {x : Item F} {x' : Mem.Item F} : x.StandsFor h t x' ↔ InMem h t x x' := by
  constructor
  · intro hx
    cases x <;> cases x' <;> simp only [Item.StandsFor] at hx
    · subst hx; exact .root
    · exact .node hx
    · obtain ⟨h1, rfl, rfl⟩ := hx; exact .attr h1
    · subst hx; exact .str
    · subst hx; exact .int
    · subst hx; exact .float
    · subst hx; exact .bool
  · intro hx
    cases hx <;> simp only [Item.StandsFor] <;> first | trivial | assumption | exact ⟨by assumption, rfl, rfl⟩

/-- `Res.StandsFor`, the list of items taken as a whole. -/
def Sim (h : Heap) (t : Id) (r : Res F) (r' : Mem.Res F) : Prop := All2 (InMem h t) r.items r'.items ∧ r.tail = r'.tail

theorem sim_iff {h : Heap} {t : Id} {r : Res F} {r' : Mem.Res F} : r.StandsFor h t r' ↔ Sim h t r r' := by
  constructor
  · rintro ⟨h1, h2, h3⟩
    exact ⟨all2_of_index h1 fun j x y hx hy => inMem_iff.1 (h2 j x y hx hy), h3⟩
  · rintro ⟨h1, h2⟩
    exact ⟨all2_length h1, fun j x y hx hy => inMem_iff.2 (all2_index h1 j x y hx hy), h2⟩

section
variable (fo : FloatOps F) {h : Heap} {t : Id} {doc : Node} (hr : Rep h none t doc) {k : Nat} (hk : doc.count ≤ k)

section
include hr

theorem inMem_textOf {x : Item F} {x' : Mem.Item F} (hx : InMem h t x x') : x'.textOf h = x.textOf doc := by
  cases hx <;> try rfl
  rename_i hl
  rcases node_obj hr hl with ⟨n, as, ts, cs, q, h1, h2, _⟩ | ⟨s, q, h1, h2⟩ <;> simp only [Mem.Item.textOf, Item.textOf, h1, h2]

theorem inMem_strOf {x : Item F} {x' : Mem.Item F} (hx : InMem h t x x') : x'.strOf h = x.strOf doc := by
  cases hx with
  | @node p i hl => exact inMem_textOf (x := (.node p : Item F)) hr (.node hl)
  | _ => rfl

theorem inMem_isElem {x : Item F} {x' : Mem.Item F} (hx : InMem h t x x') : x'.isElem h = x.isElem doc := by
  cases hx <;> try rfl
  rename_i hl
  rcases node_obj hr hl with ⟨n, as, ts, cs, q, h1, h2, _⟩ | ⟨s, q, h1, h2⟩ <;>
    simp only [Mem.Item.isElem, Item.isElem, Heap.isElemB, h1, h2]

omit hr in
theorem inMem_isNode {x : Item F} {x' : Mem.Item F} (hx : InMem h t x x') : x'.isNode = x.isNode := by
  cases hx <;> rfl

omit hr in
theorem inMem_num {x : Item F} {x' : Mem.Item F} (hx : InMem h t x x') : x'.num = x.num := by
  cases hx <;> rfl

theorem inMem_truthy {x : Item F} {x' : Mem.Item F} (hx : InMem h t x x') : x'.truthy fo h = x.truthy fo doc := by
  unfold Mem.Item.truthy Item.truthy
  rw [inMem_strOf hr hx]
  cases hx <;> rfl

theorem inMem_orElse {x y : Item F} {x' y' : Mem.Item F} (hx : InMem h t x x') (hy : InMem h t y y') :
    InMem h t (x.orElse fo doc y) (x'.orElse fo h y') := by
  unfold Mem.Item.orElse Item.orElse
  rw [inMem_truthy fo hr hx]
  split
  · exact hx
  · exact hy

theorem inMem_nameOf {x : Item F} {x' : Mem.Item F} (hx : InMem h t x x') : x'.nameOf h = x.nameOf doc := by
  cases hx <;> try rfl
  rename_i hl
  rcases node_obj hr hl with ⟨n, as, ts, cs, q, h1, h2, _⟩ | ⟨s, q, h1, h2⟩ <;>
    simp only [Mem.Item.nameOf, Item.nameOf, Node.xmlName, h1, h2]

theorem inMem_toBool {x : Item F} {x' : Mem.Item F} (hx : InMem h t x x') : x'.toBool fo h = x.toBool fo doc := by
  have := inMem_strOf hr hx
  cases hx <;> simp only [Mem.Item.toBool, Item.toBool] at * <;> rw [this] <;> cases Item.strOf doc _ <;> rfl

theorem inMem_pyEq {x y : Item F} {x' y' : Mem.Item F} (hx : InMem h t x x') (hy : InMem h t y y') :
    x'.pyEq fo h y' = x.pyEq fo doc y := by
  unfold Mem.Item.pyEq Item.pyEq
  rw [inMem_num hx, inMem_num hy, inMem_strOf hr hx, inMem_strOf hr hy]
  cases x.num <;> cases y.num <;> try rfl
  cases x.strOf doc <;> cases y.strOf doc <;> try rfl
  have hb : ∀ {p q : Path} {i j : Id}, h.locate t p = some i → h.locate t q = some j → (i == j) = (p == q) := by
    intro p q i j hp hq
    rw [Bool.eq_iff_iff, beq_iff_eq, beq_iff_eq]
    constructor
    · rintro rfl; exact locate_inj hr _ p q rfl hp hq
    · rintro rfl; rw [hp] at hq; cases hq; rfl
  cases hx <;> cases hy <;> simp only [] <;> try rfl
  · simp
  · rename_i h1 _ _ h2; exact hb h1 h2
  · rename_i h1 _ _ _ _ h2; rw [hb h1 h2]

theorem inMem_pyRel (op : Rel) {x y : Item F} {x' y' : Mem.Item F} (hx : InMem h t x x') (hy : InMem h t y y') :
    x'.pyRel fo h op y' = x.pyRel fo doc op y := by
  unfold Mem.Item.pyRel Item.pyRel
  rw [inMem_num hx, inMem_num hy, inMem_strOf hr hx, inMem_strOf hr hy]
  cases x.num <;> cases y.num <;> cases x.strOf doc <;> cases y.strOf doc <;> rfl

theorem inMem_compute (ts : Test) {x : Item F} {x' : Mem.Item F} (hx : InMem h t x x') :
    All2 (InMem h t) (ts.compute doc x) (Mem.compute h ts x') := by
  have h1 := inMem_strOf hr hx
  have h2 := inMem_isNode hx
  have hone : All2 (InMem h t) [x] [x'] := .cons hx .nil
  cases ts with
  | star => exact hone
  | node =>
    simp only [Test.compute, Mem.compute, h1, h2]
    split
    · exact hone
    · exact .nil
  | text =>
    simp only [Test.compute, Mem.compute, h1]
    split
    · exact hone
    · exact .nil
  | name n =>
    cases hx <;> try exact .nil
    rename_i hl
    rcases node_obj hr hl with ⟨n, as, ts, cs, q, h1, h2, _⟩ | ⟨s, q, h1, h2⟩ <;>
      simp only [Test.compute, Mem.compute, h1, h2]
    · split
      · exact hone
      · exact .nil
    · exact .nil

theorem inMem_visit (ts : Test) {x : Item F} {x' : Mem.Item F} (hx : InMem h t x x') {cs cs'} (hc : All2 (InMem h t) cs cs') :
    All2 (InMem h t) (visit fo doc ts x cs) (Mem.visit fo h ts x' cs') :=
  all2_flatMap hc fun _ _ hy => inMem_compute hr ts (inMem_orElse fo hr hy hx)

omit hr in
theorem inMem_nodes {ps : List Path} {is : List Id} (hl : All2 (fun q j => h.locate t q = some j) ps is) :
    All2 (InMem h t) (ps.map (.node : Path → Item F)) (is.map .obj) := all2_map hl fun _ _ hh => .node hh

theorem inMem_children {x : Item F} {x' : Mem.Item F} (hx : InMem h t x x') :
    (x.children doc = none ∧ x'.kids h = none) ∨
    ∃ ps is, x.children doc = some (ps.map .node) ∧ x'.kids h = some is ∧ All2 (fun q j => h.locate t q = some j) ps is := by
  cases hx <;> try exact .inl ⟨rfl, rfl⟩
  · exact .inr ⟨[[]], [t], rfl, rfl, .cons rfl .nil⟩
  · rename_i p i hl
    right
    rcases node_obj hr hl with ⟨n, as, ts, cs, q, h1, h2, _⟩ | ⟨s, q, h1, h2⟩
    · refine ⟨_, _, ?_, ?_, located_kids hr hl h1⟩
      · simp only [Item.children, h1, List.map_map]; rfl
      · simp only [Mem.Item.kids, h2, Heap.children, Option.map_some, Option.getD_some]
    · exact ⟨[], [], by simp only [Item.children, h1, List.map_nil], by simp only [Mem.Item.kids, h2, Option.map_some, Obj.kids], .nil⟩

theorem inMem_parent {x : Item F} {x' : Mem.Item F} (hx : InMem h t x x') :
    (x.parent = none ∧ x'.up h = none) ∨ (x.parent = some none ∧ x'.up h = some none) ∨
    ∃ p i, x.parent = some (some (.node p)) ∧ x'.up h = some (some i) ∧ h.locate t p = some i := by
  cases hx <;> try exact .inl ⟨rfl, rfl⟩
  · exact .inr (.inl ⟨rfl, rfl⟩)
  · rename_i p i hl
    rcases List.eq_nil_or_concat p with rfl | ⟨q, j, rfl⟩
    · cases hl
      exact .inr (.inl ⟨rfl, by simp only [Mem.Item.up, rep_parent hr]⟩)
    · rw [List.concat_eq_append] at *
      obtain ⟨e, h1, _, h3⟩ := parent_snoc hr hl
      refine .inr (.inr ⟨q, e, ?_, ?_, h1⟩)
      · simp [Item.parent]
      · simp only [Mem.Item.up, h3]
  · rename_i p e _ _ hl
    refine .inr (.inr ⟨p, e, rfl, ?_, hl⟩)
    have : (h.obj e).isSome = true := by
      rcases node_obj hr hl with ⟨n, as, ts, cs, q, h1, h2, _⟩ | ⟨s, q, h1, h2⟩ <;> rw [h2] <;> rfl
    simp only [Mem.Item.up, Heap.deref, this, if_true]

end

theorem sim_nil {tl : Tail} : Sim h t (⟨[], tl⟩ : Res F) ⟨[], tl⟩ := ⟨.nil, rfl⟩

theorem sim_one {x : Item F} {x' : Mem.Item F} (hx : InMem h t x x') : Sim h t (.one x) (.one x') := ⟨.cons hx .nil, rfl⟩

theorem sim_append {a b : Res F} {a' b' : Mem.Res F} (ha : Sim h t a a') (hb : Sim h t b b') :
    Sim h t (a.append b) (a'.append b') := by
  obtain ⟨ha, e1⟩ := ha
  obtain ⟨hb, e2⟩ := hb
  unfold Res.append Mem.Res.append
  rw [← e1]
  cases a.tail
  · exact ⟨all2_append ha hb, e2⟩
  all_goals exact ⟨ha, rfl⟩

theorem sim_bindList {f : Item F → Res F} {f' : Mem.Item F → Mem.Res F} {tl : Tail} {xs xs'} (hx : All2 (InMem h t) xs xs')
    (hf : ∀ x x', InMem h t x x' → Sim h t (f x) (f' x')) : Sim h t (Res.bindList f tl xs) (Mem.Res.bindList f' tl xs') := by
  induction hx with
  | nil => exact sim_nil
  | cons h1 _ ih =>
    simp only [Res.bindList, Mem.Res.bindList]
    exact sim_append (hf _ _ h1) ih

theorem sim_bind {a : Res F} {a' : Mem.Res F} {f : Item F → Res F} {f' : Mem.Item F → Mem.Res F} (ha : Sim h t a a')
    (hf : ∀ x x', InMem h t x x' → Sim h t (f x) (f' x')) : Sim h t (a.bind f) (a'.bind f') := by
  unfold Res.bind Mem.Res.bind
  rw [← ha.2]
  exact sim_bindList ha.1 hf

theorem sim_need {a : Res F} {a' : Mem.Res F} {f : Item F → Res F} {f' : Mem.Item F → Mem.Res F} (ha : Sim h t a a')
    (hf : ∀ x x', InMem h t x x' → Sim h t (f x) (f' x')) : Sim h t (a.need f) (a'.need f') := by
  obtain ⟨ha, e⟩ := ha
  rcases a with ⟨xs, tl⟩
  rcases a' with ⟨xs', tl'⟩
  simp only at ha e
  subst e
  cases ha with
  | nil => cases tl <;> exact sim_nil
  | cons h1 _ => exact hf _ _ h1

theorem sim_orDefault {a : Res F} {a' : Mem.Res F} {d : Item F} {d' : Mem.Item F} (hd : InMem h t d d') {f : Item F → Res F}
    {f' : Mem.Item F → Mem.Res F} (ha : Sim h t a a')
    (hf : ∀ x x', InMem h t x x' → Sim h t (f x) (f' x')) : Sim h t (a.orDefault d f) (a'.orDefault d' f') := by
  obtain ⟨ha, e⟩ := ha
  rcases a with ⟨xs, tl⟩
  rcases a' with ⟨xs', tl'⟩
  simp only at ha e
  subst e
  cases ha with
  | nil =>
    cases tl
    · exact hf _ _ hd
    all_goals exact sim_nil
  | cons h1 _ => exact hf _ _ h1

section
include hr hk

theorem inMem_strval {x : Item F} {x' : Mem.Item F} (hx : InMem h t x x') : x'.strval h k = x.strval doc := by
  cases hx <;> try rfl
  rename_i p i hl
  obtain ⟨s, hs, hrs, _⟩ := locate_rep p hr hl
  have := count_at p hs
  simp only [Mem.Item.strval, Item.strval, hs]
  exact value_rep.1 s i _ k hrs (by omega)

theorem inMem_toStr {x : Item F} {x' : Mem.Item F} (hx : InMem h t x x') : x'.toStr fo h k = x.toStr fo doc := by
  have := inMem_strval hr hk hx
  cases hx <;> first | rfl | exact this

theorem inMem_toStrItem {x : Item F} {x' : Mem.Item F} (hx : InMem h t x x') :
    InMem h t (x.toStrItem fo doc) (x'.toStrItem fo h k) := by
  unfold Mem.Item.toStrItem Item.toStrItem
  rw [inMem_strOf hr hx, inMem_toStr fo hr hk hx]
  split
  · exact hx
  · exact .str

theorem sim_toNum {x : Item F} {x' : Mem.Item F} (hx : InMem h t x x') : Sim h t (x.toNum fo doc) (x'.toNum fo h k) := by
  have := inMem_toStr fo hr hk hx
  cases hx <;> simp only [Mem.Item.toNum, Item.toNum] at *
  case int => exact sim_one .int
  case float => exact sim_one .float
  case bool => exact sim_one .bool
  all_goals
    rw [this]
    cases fo.parse _
    · exact sim_nil
    · exact sim_one .float

theorem inMem_atom {x : Item F} {x' : Mem.Item F} (hx : InMem h t x x') : InMem h t (x.atom doc) (x'.atom h k) := by
  unfold Mem.Item.atom Item.atom
  rw [inMem_isNode hx, inMem_strval hr hk hx]
  split
  · exact .str
  · exact hx

theorem sim_getRoot {x : Item F} {x' : Mem.Item F} (hx : InMem h t x x') : Sim h t (x.getRoot doc) (x'.getRoot h k) := by
  have he := inMem_isElem hr hx
  cases hx with
  | root => exact sim_one .root
  | @node p i hl =>
    simp only [Mem.Item.isElem] at he
    simp only [Mem.Item.getRoot, Item.getRoot, he]
    split
    · obtain ⟨s, hs, _, _⟩ := locate_rep p hr hl
      have hc := count_at p hs
      rw [topOf_upTimes (rep_parent hr) p.length k i (up_located hr _ rfl hl) (by omega)]
      exact sim_one .root
    · exact sim_nil
  | _ => exact sim_nil

theorem inMem_below {x : Item F} {x' : Mem.Item F} (hx : InMem h t x x') :
    (x.below doc = none ∧ x'.kids h = none) ∨
    ∃ ps is, x.below doc = some (ps.map .node) ∧ x'.kids h = some is ∧ (Mem.walk h k is).2 = true ∧
      All2 (fun q j => h.locate t q = some j) ps (Mem.walk h k is).1 := by
  cases hx <;> try exact .inl ⟨rfl, rfl⟩
  · obtain ⟨l, h1, h2⟩ := located_under.1 doc [] t none hr rfl
    have hw : Mem.walk h k [t] = (t :: l, true) := by
      refine walk_allBelow h k [t] _ ?_ ?_
      · have := AllBelow.cons h1 .nil
        simpa using this
      · have := all2_length h2
        have := under_length.1 doc []
        simp only [List.length_cons]
        omega
    refine .inr ⟨[] :: doc.under [], [t], by simp only [Item.below, List.map_cons], rfl, by rw [hw], ?_⟩
    rw [hw]
    exact .cons rfl h2
  · rename_i p i hl
    right
    obtain ⟨s, hs, hrs, _⟩ := locate_rep p hr hl
    obtain ⟨l, h1, h2⟩ := located_under.1 s p i _ hrs hl
    have hw : Mem.walk h k (h.children i) = (l, true) := by
      refine walk_allBelow h k _ _ h1 ?_
      have := all2_length h2
      have := under_length.1 s p
      have := count_at p hs
      omega
    have hkids : ∃ o, h.obj i = some o := by
      rcases node_obj hr hl with ⟨n, as, ts, cs, q, h1, h2, _⟩ | ⟨s, q, h1, h2⟩ <;> exact ⟨_, h2⟩
    obtain ⟨o, ho⟩ := hkids
    refine ⟨s.under p, h.children i, by simp only [Item.below, hs], ?_, by rw [hw], by rw [hw]; exact h2⟩
    simp only [Mem.Item.kids, Heap.children, ho, Option.map_some, Option.getD_some]

theorem sim_below (ts : Test) {x : Item F} {x' : Mem.Item F} (hx : InMem h t x x') {g : Option (List (Item F)) → Res F}
    {g' : Option (List Id) → Mem.Res F}
    (hg : g = fun b => match b with | none => .fail .attribute | some ys => ⟨visit fo doc ts x ys, .done⟩)
    (hg' : g' = fun b => match b with
      | none => .fail .attribute
      | some cs => ⟨Mem.visit fo h ts x' ((Mem.walk h k cs).1.map .obj), Mem.tailOf (Mem.walk h k cs).2⟩) :
    Sim h t (g (x.below doc)) (g' (x'.kids h)) := by
  subst hg hg'
  rcases inMem_below hr hk hx with ⟨h1, h2⟩ | ⟨ps, is, h1, h2, h3, h4⟩
  · rw [h1, h2]; exact sim_nil
  · rw [h1, h2]
    simp only [h3]
    exact ⟨inMem_visit fo hr ts hx (inMem_nodes h4), rfl⟩

omit hk in
theorem located_flat {p : Path} : ∀ {js : List Nat} {cs : List Id}, All2 (fun j c => h.locate t (p ++ [j]) = some c) js cs →
    ∃ l, AllBelow h cs l ∧ All2 (InMem h t) (js.flatMap fun j => (.node (p ++ [j]) : Item F) :: (match doc.at? (p ++ [j]) with
      | some y => (y.under (p ++ [j])).map .node
      | none => [])) (l.map .obj) := by
  intro js cs hc
  induction hc with
  | nil => exact ⟨[], .nil, .nil⟩
  | @cons j c js cs h1 _ ih =>
    obtain ⟨l', a1, a2⟩ := ih
    obtain ⟨s, hs, hrs, _⟩ := locate_rep _ hr h1
    obtain ⟨l, b1, b2⟩ := located_under.1 s _ c _ hrs h1
    refine ⟨c :: (l ++ l'), .cons b1 a1, ?_⟩
    simp only [List.flatMap_cons, hs, List.map_cons, List.map_append, List.cons_append]
    exact .cons (.node h1) (all2_append (inMem_nodes b2) a2)

/-- The siblings of an item, by position and in memory. -/
theorem inMem_siblings {x : Item F} {x' : Mem.Item F} (hx : InMem h t x x') :
    (x.siblings doc = .noParent ∧ x'.siblings h = .noParent) ∨ (∃ e, x.siblings doc = .fail e ∧ x'.siblings h = .fail e) ∨
    ∃ p m cs ix, x.siblings doc = .at p m ix ∧ x'.siblings h = .at cs ix ∧ ix < m ∧
      All2 (fun j c => h.locate t (p ++ [j]) = some c) (List.range m) cs ∧ ∃ l, AllBelow h cs l ∧ l.length ≤ k := by
  cases hx with
  | root => exact .inl ⟨rfl, rfl⟩
  | attr hl =>
    refine .inr (.inl ⟨.value, rfl, ?_⟩)
    rename_i p e _ _
    have : (h.obj e).isSome = true := by
      rcases node_obj hr hl with ⟨n, as, ts, cs, q, h1, h2, _⟩ | ⟨s, q, h1, h2⟩ <;> rw [h2] <;> rfl
    simp only [Mem.Item.siblings, Heap.deref, this, if_true]
  | @node p i hl =>
    rcases List.eq_nil_or_concat p with rfl | ⟨q, j, rfl⟩
    · cases hl
      exact .inl ⟨rfl, by simp only [Mem.Item.siblings, rep_parent hr]⟩
    · rw [List.concat_eq_append] at *
      obtain ⟨e, h1, h2, h3⟩ := parent_snoc hr hl
      rcases node_obj hr h1 with ⟨n, as, ts, cs, _, a1, a2, _, a4⟩ | ⟨s, _, a1, a2⟩
      · have hix := index_located hr h1 h2 a1
        have hlen : (h.children e).length = ts.length := by
          rw [elem_children a2]; exact ((repList_iff ts cs).1 a4).1
        refine .inr (.inr ⟨q, ts.length, h.children e, _, ?_, by simp only [Mem.Item.siblings, h3, hix]; rfl, ?_, ?_, ?_⟩)
        · simp [Item.siblings, a1]
        · have := (List.findIdx?_eq_some_iff_getElem.1 hix).1
          omega
        · have hkids := located_kids hr h1 a1
          refine all2_of_index (by simpa using hlen.symm) fun m a b ha hb => ?_
          have hm : m < ts.length := by
            have := (List.getElem?_eq_some_iff.1 ha).1
            simpa using this
          rw [List.getElem?_range hm] at ha
          cases ha
          exact all2_index hkids m _ _ (by rw [List.getElem?_map, List.getElem?_range hm]; rfl) hb
        · obtain ⟨s, hs, hrs, _⟩ := locate_rep q hr h1
          obtain ⟨l, b1, b2⟩ := located_under.1 s q e _ hrs h1
          refine ⟨l, b1, ?_⟩
          have := all2_length b2
          have := under_length.1 s q
          have := count_at q hs
          omega
      · have hce : h.children e = [] := by simp [Heap.children, a2, Obj.kids]
        rw [hce] at h2
        simp at h2
  | _ => exact .inr (.inl ⟨.attribute, rfl, rfl⟩)

theorem sim_step (n : Nat) (a : Axis) (ts : Test) {x : Item F} {x' : Mem.Item F} (hx : InMem h t x x') :
    Sim h t (stepRes fo doc n a ts x) (Mem.stepRes fo h k n a ts x') := by
  have hself : Sim h t (⟨ts.compute doc x, .done⟩ : Res F) ⟨Mem.compute h ts x', .done⟩ := ⟨inMem_compute hr ts hx, rfl⟩
  cases a with
  | self => exact hself
  | child =>
    simp only [stepRes, Mem.stepRes]
    rcases inMem_children hr hx with ⟨h1, h2⟩ | ⟨ps, is, h1, h2, h3⟩
    · rw [h1, h2]; exact sim_nil
    · rw [h1, h2]
      refine ⟨inMem_visit fo hr ts hx ?_, rfl⟩
      split
      · have : (ps.map (.node : Path → Item F)).filter (fun y => y.isElem doc) =
            (ps.filter fun q => (Item.node q : Item F).isElem doc).map .node := by
          rw [List.filter_map]; rfl
        rw [this]
        refine inMem_nodes (all2_filter h3 fun q j hl => ?_)
        exact (inMem_isElem (x := (.node q : Item F)) hr (.node hl)).symm
      · exact inMem_nodes h3
  | «attribute» =>
    cases hx <;> simp only [stepRes, Mem.stepRes] <;> try exact sim_nil
    rename_i hl
    rcases node_obj hr hl with ⟨n, as, ts, cs, q, h1, h2, _⟩ | ⟨s, q, h1, h2⟩
    · rw [h1, h2]
      refine ⟨?_, rfl⟩
      simp only []
      generalize List.filter _ as = l
      induction l with
      | nil => exact .nil
      | cons kv l ih => exact .cons (.attr hl) ih
    · rw [h1, h2]; exact sim_nil
  | ancestor =>
    simp only [stepRes, Mem.stepRes]
    have hroot := sim_getRoot hr hk hx
    cases hx with
    | root =>
      have : Mem.climb h k none = ([], true) := by unfold Mem.climb; rfl
      simp only [Mem.Item.up, this]
      exact sim_one .root
    | @node p i hl =>
      obtain ⟨s, hs, _, _⟩ := locate_rep p hr hl
      have hc := count_at p hs
      obtain ⟨l, h1, h2⟩ := climb_located hr p.length k rfl (by omega) hl
      simp only [Mem.Item.up, h1]
      exact sim_append ⟨inMem_visit fo hr ts (.node hl) (inMem_nodes h2), rfl⟩ hroot
    | @attr p e _ _ hl =>
      obtain ⟨s, hs, _, _⟩ := locate_rep p hr hl
      have hc := count_at p hs
      have hcp := count_pos s
      have ho : (h.obj e).isSome = true := by
        rcases node_obj hr hl with ⟨n, as, ts, cs, q, h1, h2, _⟩ | ⟨s, q, h1, h2⟩ <;> rw [h2] <;> rfl
      obtain ⟨k', rfl⟩ : ∃ k', k = k' + 1 := ⟨k - 1, by omega⟩
      obtain ⟨l, h1, h2⟩ := climb_located hr p.length k' rfl (by omega) hl
      have h3 : Mem.climb h (k' + 1) (some e) = (e :: l, true) := by simp only [Mem.climb, h1]
      simp only [Mem.Item.up, Heap.deref, ho, if_true, h3]
      exact sim_append ⟨inMem_visit fo hr ts (.attr hl) (inMem_nodes (.cons hl h2)), rfl⟩ hroot
    | _ => exact sim_nil
  | ancestorOrSelf =>
    simp only [stepRes, Mem.stepRes]
    refine sim_append hself ?_
    rcases inMem_parent hr hx with ⟨h1, h2⟩ | ⟨h1, h2⟩ | ⟨p, i, h1, h2, h3⟩ <;> rw [h1, h2]
    · exact sim_nil
    · exact sim_nil
    · exact ⟨inMem_visit fo hr ts hx (all2_replicate (.node h3) n), rfl⟩
  | descendant => exact sim_below fo hr hk ts hx rfl rfl
  | descendantOrSelf => exact sim_append hself (sim_below fo hr hk ts hx rfl rfl)
  | following =>
    simp only [stepRes, Mem.stepRes]
    rcases inMem_siblings hr hk hx with ⟨h1, h2⟩ | ⟨e, h1, h2⟩ | ⟨p, m, cs, ix, h1, h2, h3, h4, l, h5, h6⟩ <;> rw [h1, h2]
    · exact sim_nil
    · exact sim_nil
    · obtain ⟨l', a1, a2⟩ := located_flat (F := F) hr (all2_drop h4 (ix + 1))
      obtain ⟨l0, b1, _⟩ := located_flat (F := F) hr (all2_take h4 (ix + 1))
      have hl : l = l0 ++ l' := by
        refine allBelow_unique h5 ?_
        have := allBelow_append b1 a1
        rwa [List.take_append_drop] at this
      have hw : Mem.walk h k (cs.drop (ix + 1)) = (l', true) := by
        refine walk_allBelow h k _ _ a1 ?_
        rw [hl, List.length_append] at h6
        omega
      simp only [hw]
      exact ⟨inMem_visit fo hr ts hx a2, rfl⟩
  | followingSibling =>
    simp only [stepRes, Mem.stepRes]
    rcases inMem_siblings hr hk hx with ⟨h1, h2⟩ | ⟨e, h1, h2⟩ | ⟨p, m, cs, ix, h1, h2, h3, h4, l, h5, h6⟩ <;> rw [h1, h2]
    · exact sim_nil
    · exact sim_nil
    · exact ⟨inMem_visit fo hr ts hx (all2_map (all2_drop h4 (ix + 1)) fun _ _ hh => .node hh), rfl⟩
  | «parent» =>
    simp only [stepRes, Mem.stepRes]
    have hroot := sim_getRoot hr hk hx
    rcases inMem_parent hr hx with ⟨h1, h2⟩ | ⟨h1, h2⟩ | ⟨p, i, h1, h2, h3⟩ <;> rw [h1, h2]
    · exact sim_nil
    · exact hroot
    · exact ⟨inMem_visit fo hr ts hx (.cons (.node h3) .nil), rfl⟩
  | preceding =>
    simp only [stepRes, Mem.stepRes]
    rcases inMem_siblings hr hk hx with ⟨h1, h2⟩ | ⟨e, h1, h2⟩ | ⟨p, m, cs, ix, h1, h2, h3, h4, l, h5, h6⟩ <;> rw [h1, h2] <;>
      exact sim_nil
  | precedingSibling =>
    simp only [stepRes, Mem.stepRes]
    rcases inMem_siblings hr hk hx with ⟨h1, h2⟩ | ⟨e, h1, h2⟩ | ⟨p, m, cs, ix, h1, h2, h3, h4, l, h5, h6⟩ <;> rw [h1, h2]
    · exact sim_nil
    · exact sim_nil
    · have ht : List.range ix = (List.range m).take ix := by
        rw [List.take_range]
        congr 1
        omega
      refine ⟨inMem_visit fo hr ts hx ?_, rfl⟩
      rw [ht]
      exact all2_map (all2_reverse (all2_take h4 ix)) fun _ _ hh => .node hh

end
end
end Amara
