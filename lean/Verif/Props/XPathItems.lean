import Verif.Spec.XPathItems
import Verif.Props.XPath
import Verif.Props.TreeUtil
/-
C126-C128: steps from text nodes, attributes, values and the root; `/node()`.
-/
namespace Amara

variable {F : Type}

theorem sel_taken {doc : Node} {t : Test} {q : Path} (h : doc.Has q) :
    t.sel doc (.node q : Item F) = true ↔ doc.Taken t q := by
  cases t with
  | name n => exact sel_name
  | star => exact ⟨fun _ => h, fun _ => rfl⟩
  | node => exact ⟨fun _ => h, fun _ => rfl⟩
  | text => exact sel_text

theorem child_at {doc : Node} {u : Path} {m : Str} {as : Attrs} {cs : List Node} (h : doc.at? u = some (.elem m as cs)) (k : Nat) :
    doc.at? (u ++ [k]) = cs[k]? := by
  rw [Node.at?_append, h]
  simp only [Option.bind_some, Node.at?, Node.xmlChildren]
  cases cs[k]? <;> rfl

theorem Node.Taken.has {doc : Node} {t : Test} {q : Path} (h : doc.Taken t q) : doc.Has q := by
  cases t with
  | name n => exact Node.Named.elemAt h |>.has
  | star => exact h
  | node => exact h
  | text => obtain ⟨s, h⟩ := h; exact ⟨_, h⟩

/-- There is always a first sibling equal to a node. -/
theorem firstLike_exists (doc : Node) (u : Path) (i : Nat) : ∃ j, doc.FirstLike u i j := by
  suffices key : ∀ n, n ≤ i → (∃ j, doc.FirstLike u i j) ∨ ∀ k, k < n → ¬ doc.SameText u i k by
    rcases key i (Nat.le_refl _) with h | h
    · exact h
    · exact ⟨i, Nat.le_refl _, .inl rfl, h⟩
  intro n
  induction n with
  | zero => intro _; exact .inr fun k hk => by omega
  | succ n ih =>
    intro hn
    rcases ih (by omega) with h | h
    · exact .inl h
    · by_cases hs : doc.SameText u i n
      · exact .inl ⟨n, by omega, .inr hs, h⟩
      · refine .inr fun k hk => ?_
        by_cases hk' : k = n
        · exact hk' ▸ hs
        · exact h k (by omega)

theorem siblings_eq {doc : Node} {u : Path} {i j : Nat} (hp : doc.Has (u ++ [i])) (hj : doc.FirstLike u i j) :
    ∃ k, (Item.node (u ++ [i]) : Item F).siblings doc = .at u k j ∧ ∀ q, doc.Has (u ++ [q]) ↔ q < k := by
  obtain ⟨m, as, cs, hu⟩ := hp.parent
  obtain ⟨h1, h2, h3⟩ := hj
  simp only [Node.SameText, child_at hu] at h2 h3
  have hi : i < cs.length := (has_child hu i).1 hp
  refine ⟨cs.length, ?_, has_child hu⟩
  have hf : ((List.range cs.length).find? fun k => sameChild cs k i) = some j := by
    rw [List.find?_range_eq_some]
    refine ⟨(sameChild_iff cs j i).2 h2, by rw [List.mem_range]; omega, ?_⟩
    intro k hk
    cases hs : sameChild cs k i with
    | false => rfl
    | true =>
      rcases (sameChild_iff cs k i).1 hs with h | h
      · omega
      · exact absurd h (h3 k hk)
  simp [Item.siblings, hu, hf]

theorem map_node_snoc (u : Path) (l : List Nat) :
    l.map (fun j => (Item.node (u ++ [j]) : Item F)) = (l.map fun j => u ++ [j]).map .node := by
  rw [List.map_map]; rfl

/-! ### C126 -/

/-- C126: the sibling axes from any node that has a parent, exactly: they count from the first sibling that is equal to
the node. -/
theorem C126_siblings_exactly (E : Env F) (hd : E.doc.NoEmptyText) (n : Nat) (t : Test) {u : Path} {i j : Nat}
    (hp : E.doc.Has (u ++ [i])) (hj : E.doc.FirstLike u i j) :
    (∃ ps : List Path, E.Yields n (.step .followingSibling t) (.node (u ++ [i])) (ps.map .node) ∧
      (∀ q, q ∈ ps ↔ (∃ k, j < k ∧ q = u ++ [k]) ∧ E.doc.Taken t q) ∧ ps.Pairwise docLt) ∧
    (∃ ps : List Path, E.Yields n (.step .precedingSibling t) (.node (u ++ [i])) (ps.map .node) ∧
      (∀ q, q ∈ ps ↔ (∃ k, k < j ∧ q = u ++ [k]) ∧ E.doc.Taken t q) ∧ ps.Pairwise (fun x y => docLt y x)) ∧
    (∃ ps : List Path, E.Yields n (.step .following t) (.node (u ++ [i])) (ps.map .node) ∧
      (∀ q, q ∈ ps ↔ (∃ k r, j < k ∧ q = u ++ k :: r) ∧ E.doc.Taken t q) ∧ ps.Pairwise docLt) ∧
    E.Yields n (.step .preceding t) (.node (u ++ [i])) [] := by
  obtain ⟨c, hs, hc⟩ := siblings_eq (F := F) hp hj
  have hjc : j < c := Nat.lt_of_le_of_lt hj.1 ((hc i).1 hp)
  have hmem : ∀ (L : List Path) (P : Path → Prop), (∀ q, q ∈ L ↔ P q ∧ E.doc.Has q) →
      ∀ q, q ∈ L.filter (fun q => t.sel E.doc (.node q : Item F)) ↔ P q ∧ E.doc.Taken t q := by
    intro L P hL q
    rw [List.mem_filter, hL]
    constructor
    · rintro ⟨⟨h1, h2⟩, h3⟩; exact ⟨h1, (sel_taken h2).1 h3⟩
    · rintro ⟨h1, h2⟩; exact ⟨⟨h1, h2.has⟩, (sel_taken h2.has).2 h2⟩
  refine ⟨⟨(((List.range c).drop (j + 1)).map fun k => u ++ [k]).filter (fun q => t.sel E.doc (.node q : Item F)), ?_, ?_, ?_⟩,
    ⟨((List.range j).reverse.map fun k => u ++ [k]).filter (fun q => t.sel E.doc (.node q : Item F)), ?_, ?_, ?_⟩,
    ⟨(((List.range c).drop (j + 1)).flatMap fun k => axisCands E.doc .descendantOrSelf (u ++ [k])).filter
      (fun q => t.sel E.doc (.node q : Item F)), ?_, ?_, ?_⟩, ?_⟩
  · rw [Env.Yields, run_step]
    simp only [stepRes, hs]
    rw [map_node_snoc, visit_nodes E.fo hd]
  · refine hmem _ _ fun q => ?_
    rw [List.mem_map]
    constructor
    · rintro ⟨k, hk, rfl⟩
      rw [mem_drop_range] at hk
      exact ⟨⟨k, by omega, rfl⟩, (hc k).2 hk.2⟩
    · rintro ⟨⟨k, hk, rfl⟩, h⟩
      exact ⟨k, mem_drop_range.2 ⟨by omega, (hc k).1 h⟩, rfl⟩
  · refine List.Pairwise.filter _ ?_
    rw [List.pairwise_map]
    exact List.Pairwise.imp (fun h => docLt_snoc _ h) (List.pairwise_lt_range.sublist (List.drop_sublist _ _))
  · rw [Env.Yields, run_step]
    simp only [stepRes, hs]
    rw [map_node_snoc, visit_nodes E.fo hd]
  · refine hmem _ _ fun q => ?_
    rw [List.mem_map]
    constructor
    · rintro ⟨k, hk, rfl⟩
      rw [List.mem_reverse, List.mem_range] at hk
      exact ⟨⟨k, hk, rfl⟩, (hc k).2 (by omega)⟩
    · rintro ⟨⟨k, hk, rfl⟩, _⟩
      exact ⟨k, by rw [List.mem_reverse, List.mem_range]; exact hk, rfl⟩
  · refine List.Pairwise.filter _ ?_
    rw [List.map_reverse, List.pairwise_reverse, List.pairwise_map]
    exact List.Pairwise.imp (fun h => docLt_snoc _ h) List.pairwise_lt_range
  · rw [Env.Yields, run_step]
    simp only [stepRes, hs]
    rw [← visit_nodes E.fo hd t (.node (u ++ [i])), List.map_flatMap]
    congr 2
    refine congrArg (fun f => List.flatMap f _) ?_
    funext k
    simp only [axisCands, List.map_cons]
    cases E.doc.at? (u ++ [k]) <;> rfl
  · refine hmem _ _ fun q => ?_
    rw [List.mem_flatMap]
    constructor
    · rintro ⟨k, hk, hq⟩
      rw [mem_drop_range] at hk
      obtain ⟨y, hy⟩ := (hc k).2 hk.2
      simp only [axisCands, hy, List.mem_cons] at hq
      rw [mem_under hy] at hq
      rcases hq with rfl | ⟨⟨r, _, rfl⟩, h⟩
      · exact ⟨⟨k, [], by omega, rfl⟩, _, hy⟩
      · exact ⟨⟨k, r, by omega, by simp⟩, h⟩
    · rintro ⟨⟨k, r, hk, rfl⟩, h⟩
      have hk2 : E.doc.Has (u ++ [k]) := Node.Has.prefix (r := r) (by simpa using h)
      obtain ⟨y, hy⟩ := hk2
      refine ⟨k, mem_drop_range.2 ⟨by omega, (hc k).1 ⟨y, hy⟩⟩, ?_⟩
      simp only [axisCands, hy, List.mem_cons]
      rw [mem_under hy]
      cases r with
      | nil => exact .inl rfl
      | cons x r => exact .inr ⟨⟨x :: r, by simp, by simp⟩, h⟩
  · refine List.Pairwise.filter _ ?_
    rw [List.pairwise_flatMap]
    refine ⟨fun k _ => axisCands_order .descendantOrSelf, ?_⟩
    refine List.Pairwise.imp ?_ (List.pairwise_lt_range.sublist (List.drop_sublist _ _))
    intro a b hab x hx y hy
    have key : ∀ k z, z ∈ axisCands E.doc .descendantOrSelf (u ++ [k]) → ∃ r, z = u ++ k :: r := by
      intro k z hz
      simp only [axisCands, List.mem_cons] at hz
      rcases hz with rfl | hz
      · exact ⟨[], rfl⟩
      · cases hy : E.doc.at? (u ++ [k]) with
        | none => rw [hy] at hz; cases hz
        | some w =>
          rw [hy] at hz
          obtain ⟨⟨r, _, rfl⟩, _⟩ := (mem_under hy z).1 hz
          exact ⟨r, by simp⟩
    obtain ⟨r, rfl⟩ := key a x hx
    obtain ⟨r', rfl⟩ := key b y hy
    exact docLt_sibling u hab r r'
  · rw [Env.Yields, run_step]
    simp only [stepRes, hs]
    rfl

/-- C126: the sibling axes yield what they denote, for elements and for text with no equal text before it.  Missing: text
with an equal text before it, for which the claim is false. -/
theorem C126_siblings_partial (E : Env F) (hd : E.doc.NoEmptyText) (n : Nat) (t : Test) {u : Path} {i : Nat}
    (hp : E.doc.Has (u ++ [i])) (hi : ∀ k, k < i → ¬ E.doc.SameText u i k) :
    (∃ ps : List Path, E.Yields n (.step .followingSibling t) (.node (u ++ [i])) (ps.map .node) ∧
      (∀ q, q ∈ ps ↔ OnAxis .followingSibling (u ++ [i]) q ∧ E.doc.Taken t q) ∧ ps.Pairwise docLt) ∧
    (∃ ps : List Path, E.Yields n (.step .precedingSibling t) (.node (u ++ [i])) (ps.map .node) ∧
      (∀ q, q ∈ ps ↔ OnAxis .precedingSibling (u ++ [i]) q ∧ E.doc.Taken t q) ∧ ps.Pairwise (fun x y => docLt y x)) := by
  obtain ⟨⟨ps, h1, h2, h3⟩, ⟨qs, h4, h5, h6⟩, _⟩ := C126_siblings_exactly E hd n t hp ⟨Nat.le_refl _, .inl rfl, hi⟩
  refine ⟨⟨ps, h1, fun q => ?_, h3⟩, ⟨qs, h4, fun q => ?_, h6⟩⟩
  · rw [h2]
    refine and_congr_left fun _ => ⟨fun ⟨k, hk, e⟩ => ⟨u, i, k, rfl, e, hk⟩, ?_⟩
    rintro ⟨u', i', k, h, rfl, hk⟩
    obtain ⟨rfl, h9⟩ := List.append_inj' h rfl
    cases h9
    exact ⟨k, hk, rfl⟩
  · rw [h5]
    refine and_congr_left fun _ => ⟨fun ⟨k, hk, e⟩ => ⟨u, i, k, rfl, e, hk⟩, ?_⟩
    rintro ⟨u', i', k, h, rfl, hk⟩
    obtain ⟨rfl, h9⟩ := List.append_inj' h rfl
    cases h9
    exact ⟨k, hk, rfl⟩

/-- C126: the other axes from a text node.  The ancestors are yielded, and then the search for the root node raises. -/
theorem C126_other_axes_from_text (E : Env F) (hd : E.doc.NoEmptyText) (n : Nat) (t : Test) {u : Path} {i : Nat} {s : Str}
    (hp : E.doc.at? (u ++ [i]) = some (.text s)) :
    let x : Item F := .node (u ++ [i])
    (t ≠ .node → t ≠ .text → t ≠ .star → E.Yields n (.step .self t) x [] ∧ E.Yields n (.step .descendantOrSelf t) x []) ∧
    (t = .node ∨ t = .text ∨ t = .star → E.Yields n (.step .self t) x [x] ∧ E.Yields n (.step .descendantOrSelf t) x [x]) ∧
    E.Yields n (.step .child t) x [] ∧ E.Yields n (.step .descendant t) x [] ∧ E.Yields n (.step .attribute t) x [] ∧
    (E.doc.Taken t u → E.Yields n (.step .parent t) x [.node u]) ∧
    (¬ E.doc.Taken t u → E.Yields n (.step .parent t) x []) ∧
    (∃ ps : List Path, E.YieldsThenRaises n (.step .ancestor t) x (ps.map .node) .assertion ∧
      (∀ q, q ∈ ps ↔ OnAxis .ancestor (u ++ [i]) q ∧ E.doc.Taken t q) ∧ ps.Pairwise (fun x y => docLt y x)) := by
  have hne : u ++ [i] ≠ [] := by simp
  have hu : E.doc.ElemAt u := Node.Has.parent ⟨_, hp⟩
  have hpar : stepRes E.fo E.doc n .parent t (.node (u ++ [i]) : Item F) =
      ⟨([u].filter fun q => t.sel E.doc (.node q : Item F)).map .node, .done⟩ := by
    have := visit_nodes E.fo hd t (.node (u ++ [i])) [u]
    simp only [List.map_cons, List.map_nil] at this
    simp [stepRes, Item.parent, this]
  refine ⟨?_, ?_, ?_, ?_, ?_, ?_, ?_, ?_⟩
  · intro h1 h2 h3
    cases t with
    | name m => simp [Env.Yields, run_step, stepRes, Test.compute, hp, Item.below, Node.under, visit, Res.append]
    | star => exact absurd rfl h3
    | node => exact absurd rfl h1
    | text => exact absurd rfl h2
  · rintro (rfl | rfl | rfl) <;>
      simp [Env.Yields, run_step, stepRes, Test.compute, Item.isNode, Item.strOf, Item.textOf, hp, Item.below, Node.under, visit,
        Res.append]
  · simp [Env.Yields, run_step, stepRes, Item.children, hp, visit]
  · simp [Env.Yields, run_step, stepRes, Item.below, hp, Node.under, visit]
  · simp [Env.Yields, run_step, stepRes, hp, Res.nil]
  · intro h
    rw [Env.Yields, run_step, hpar]
    simp [(sel_taken (F := F) hu.has).2 h]
  · intro h
    rw [Env.Yields, run_step, hpar]
    have : t.sel E.doc (.node u : Item F) = false := by
      cases hs : t.sel E.doc (.node u : Item F) with
      | false => rfl
      | true => exact absurd ((sel_taken hu.has).1 hs) h
    simp [this]
  · refine ⟨(ancestorsOf (u ++ [i])).filter (fun q => t.sel E.doc (.node q : Item F)), ?_, ?_, ?_⟩
    · have he : (Item.node (u ++ [i]) : Item F).isElem E.doc = false := by simp [Item.isElem, hp]
      rw [Env.YieldsThenRaises, run_step]
      simp only [stepRes]
      rw [visit_nodes E.fo hd]
      simp [Item.getRoot, he, Res.append, Res.fail]
    · intro q
      rw [List.mem_filter]
      have hm : q ∈ ancestorsOf (u ++ [i]) ↔ OnAxis .ancestor (u ++ [i]) q := by
        simp only [ancestorsOf, List.mem_map, List.mem_reverse, List.mem_range, OnAxis]
        constructor
        · rintro ⟨k, hk, rfl⟩
          exact ⟨(u ++ [i]).drop k, by intro h; have := congrArg List.length h; simp at this hk; omega,
            (List.take_append_drop k _).symm⟩
        · rintro ⟨r, hr, e⟩
          refine ⟨q.length, ?_, by rw [e, List.take_left]⟩
          rw [e, List.length_append]
          have := List.length_pos_iff.2 hr
          omega
      rw [hm]
      refine and_congr_right fun h => sel_taken ?_
      obtain ⟨r, _, e⟩ := h
      exact Node.Has.prefix (r := r) (e ▸ ⟨_, hp⟩)
    · exact List.Pairwise.filter _ (axisCands_order (doc := E.doc) (p := u ++ [i]) .ancestor)

/-- The tree `<a>x<b/>x</a>`. -/
def twinTree : Node := .elem ['a'] [] [.text ['x'], .elem ['b'] [] [], .text ['x']]

/-- C126 as stated is false: in `<a>x<b/>x</a>` the second text is taken for the first: it has no preceding siblings and
follows itself; and the ancestors of a text node end in AssertionError. -/
theorem C126_full_statement_is_false :
    let E : Env NoF := { exEnv with doc := twinTree }
    OnAxis .precedingSibling [2] [1] ∧ E.doc.Has [1] ∧
    E.Yields 0 (.step .precedingSibling .node) (.node [2]) [] ∧
    ¬ OnAxis .followingSibling [2] [2] ∧
    E.Yields 0 (.step .followingSibling .node) (.node [2]) [.node [1], .node [2]] ∧
    E.YieldsThenRaises 0 (.step .ancestor .node) (.node [0]) [.node []] .assertion := by
  refine ⟨⟨[], 2, 1, rfl, rfl, by omega⟩, ⟨_, rfl⟩, by unfold Env.Yields; decide, ?_, by unfold Env.Yields; decide,
    by unfold Env.YieldsThenRaises; decide⟩
  rintro ⟨u, i, j, h1, h2, h3⟩
  rw [h1] at h2
  obtain ⟨_, h⟩ := List.append_inj' h2 rfl
  cases h
  omega

-- the hypotheses are met, with `j = i` and with `j < i`
example : twinTree.Has ([] ++ [2]) ∧ twinTree.FirstLike [] 2 0 ∧ twinTree.FirstLike [] 1 1 := by
  refine ⟨⟨_, rfl⟩, ⟨by omega, .inr ⟨['x'], rfl, rfl⟩, fun k hk => by omega⟩, ⟨by omega, .inl rfl, ?_⟩⟩
  rintro k _ ⟨s, h, _⟩
  cases h

/-! ### C127 -/

/-- C127: steps from a string, a number or a boolean: only `self` and `@` can be asked; every other axis raises
AttributeError. -/
theorem C127_values (E : Env F) (n : Nat) (t : Test) (x : Item F) (hx : x.Atomic) :
    E.Yields n (.step .self t) x (x.selfOf t) ∧
    E.Yields n (.step .attribute t) x [] ∧
    (∀ a, a = .descendantOrSelf ∨ a = .ancestorOrSelf → E.YieldsThenRaises n (.step a t) x (x.selfOf t) .attribute) ∧
    (∀ a, a ≠ .self → a ≠ .attribute → a ≠ .descendantOrSelf → a ≠ .ancestorOrSelf →
      E.YieldsThenRaises n (.step a t) x [] .attribute) := by
  have hs : t.compute E.doc x = x.selfOf t := by
    cases x <;> first | (cases hx; done) | (cases t <;> rfl)
  refine ⟨?_, ?_, ?_, ?_⟩
  · rw [Env.Yields, run_step, stepRes, hs]
  · rw [Env.Yields, run_step]
    cases x <;> first | (cases hx; done) | rfl
  · rintro a (rfl | rfl) <;> rw [Env.YieldsThenRaises, run_step] <;> simp only [stepRes, hs] <;>
      cases x <;> first | (cases hx; done) | simp [Item.below, Item.parent, Res.append, Res.fail]
  · intro a h1 h2 h3 h4
    rw [Env.YieldsThenRaises, run_step]
    cases x <;> first | (cases hx; done) | (cases a <;> first | rfl | exact absurd rfl ‹_›)

/-- C127: steps from an attribute.  Its parent is its element; the ancestors are yielded and then the search for the root
raises; sibling axes raise ValueError, and the axes that look below it AttributeError. -/
theorem C127_attributes (E : Env F) (hd : E.doc.NoEmptyText) (n : Nat) (t : Test) {p : Path} (hp : E.doc.ElemAt p) (k v : Str) :
    let x : Item F := .attr p k v
    E.Yields n (.step .self t) x (x.selfOf t) ∧ E.Yields n (.step .attribute t) x [] ∧
    (E.doc.Taken t p → E.Yields n (.step .parent t) x [.node p]) ∧
    (¬ E.doc.Taken t p → E.Yields n (.step .parent t) x []) ∧
    (∃ ps : List Path, E.YieldsThenRaises n (.step .ancestor t) x (ps.map .node) .assertion ∧
      (∀ q, q ∈ ps ↔ OnAxis .ancestorOrSelf p q ∧ E.doc.Taken t q) ∧ ps.Pairwise (fun x y => docLt y x)) ∧
    (∀ a, a = .child ∨ a = .descendant → E.YieldsThenRaises n (.step a t) x [] .attribute) ∧
    E.YieldsThenRaises n (.step .descendantOrSelf t) x (x.selfOf t) .attribute ∧
    (∀ a, a = .following ∨ a = .followingSibling ∨ a = .preceding ∨ a = .precedingSibling →
      E.YieldsThenRaises n (.step a t) x [] .value) := by
  have hs : t.compute E.doc (.attr p k v : Item F) = (Item.attr p k v : Item F).selfOf t := by cases t <;> rfl
  have hpar : stepRes E.fo E.doc n .parent t (.attr p k v : Item F) =
      ⟨([p].filter fun q => t.sel E.doc (.node q : Item F)).map .node, .done⟩ := by
    have := visit_nodes E.fo hd t (.attr p k v) [p]
    simp only [List.map_cons, List.map_nil] at this
    simp [stepRes, Item.parent, this]
  refine ⟨?_, ?_, ?_, ?_, ?_, ?_, ?_, ?_⟩
  · rw [Env.Yields, run_step, stepRes, hs]
  · rw [Env.Yields, run_step]; rfl
  · intro h
    rw [Env.Yields, run_step, hpar]
    simp [(sel_taken (F := F) hp.has).2 h]
  · intro h
    rw [Env.Yields, run_step, hpar]
    have : t.sel E.doc (.node p : Item F) = false := by
      cases hs : t.sel E.doc (.node p : Item F) with
      | false => rfl
      | true => exact absurd ((sel_taken hp.has).1 hs) h
    simp [this]
  · refine ⟨(p :: ancestorsOf p).filter (fun q => t.sel E.doc (.node q : Item F)), ?_, ?_, ?_⟩
    · rw [Env.YieldsThenRaises, run_step]
      simp only [stepRes]
      rw [visit_nodes E.fo hd]
      simp [Item.getRoot, Item.isElem, Res.append, Res.fail]
    · intro q
      rw [List.mem_filter]
      have hm : q ∈ p :: ancestorsOf p ↔ OnAxis .ancestorOrSelf p q := by
        rw [List.mem_cons, show ancestorsOf p = axisCands E.doc .ancestor p from rfl, axisCands_mem hp rfl]
        constructor
        · rintro (rfl | ⟨⟨r, _, h⟩, _⟩)
          · exact ⟨[], by simp⟩
          · exact ⟨r, h⟩
        · rintro ⟨r, h⟩
          cases r with
          | nil => left; rw [h]; simp
          | cons j r => exact .inr ⟨⟨_, by simp, h⟩, Node.Has.prefix (h ▸ hp.has)⟩
      rw [hm]
      refine and_congr_right fun h => sel_taken ?_
      obtain ⟨r, e⟩ := h
      exact Node.Has.prefix (r := r) (e ▸ hp.has)
    · refine List.Pairwise.filter _ (List.pairwise_cons.2 ⟨?_, axisCands_order (doc := E.doc) (p := p) .ancestor⟩)
      intro q hq
      simp only [ancestorsOf, List.mem_map, List.mem_reverse, List.mem_range] at hq
      obtain ⟨k, hk, rfl⟩ := hq
      exact docLt_take p hk
  · rintro a (rfl | rfl) <;> rw [Env.YieldsThenRaises, run_step] <;> rfl
  · rw [Env.YieldsThenRaises, run_step]
    simp [stepRes, hs, Item.below, Res.append, Res.fail]
  · rintro a (rfl | rfl | rfl | rfl) <;> rw [Env.YieldsThenRaises, run_step] <;> rfl

/-- C127: steps from the root node upwards and sideways: it is its own parent and ancestor, whatever the test, and has no
siblings. -/
theorem C127_root (E : Env F) (n : Nat) (t : Test) :
    E.Yields n (.step .parent t) .root [.root] ∧ E.Yields n (.step .ancestor t) .root [.root] ∧
    E.Yields n (.step .attribute t) .root [] ∧
    E.YieldsThenRaises n (.step .ancestorOrSelf t) .root ((Item.root : Item F).selfOf t) .assertion ∧
    (∀ a, a = .following ∨ a = .followingSibling ∨ a = .preceding ∨ a = .precedingSibling →
      E.Yields n (.step a t) .root []) := by
  refine ⟨?_, ?_, ?_, ?_, ?_⟩
  · rw [Env.Yields, run_step]; rfl
  · rw [Env.Yields, run_step]; rfl
  · rw [Env.Yields, run_step]; rfl
  · rw [Env.YieldsThenRaises, run_step]
    cases t <;> rfl
  · rintro a (rfl | rfl | rfl | rfl) <;> rw [Env.Yields, run_step] <;> rfl

/-- C127 as stated is false: the ancestors of an attribute of `<a k="v"/>` end in AssertionError, the axis `child` from it in
AttributeError, and the root node is its own parent. -/
theorem C127_full_statement_is_false :
    let E : Env NoF := { exEnv with doc := .elem ['a'] [(['k'], ['v'])] [] }
    E.Yields 0 (.step .attribute (.name ['k'])) (.node []) [.attr [] ['k'] ['v']] ∧
    E.YieldsThenRaises 0 (.slash (.step .attribute (.name ['k'])) (.step .ancestor .node)) (.node []) [.node []] .assertion ∧
    E.YieldsThenRaises 0 (.slash (.step .attribute (.name ['k'])) (.step .child .node)) (.node []) [] .attribute ∧
    E.Yields 0 (.slash (.abs none) (.step .parent .node)) (.node []) [.root] := by
  unfold Env.Yields Env.YieldsThenRaises
  exact ⟨by decide, by decide, by decide, by decide⟩

-- `'s'/..` and `@k/following-sibling::node()`: the hypotheses are met
example : (Item.str ['s'] : Item NoF).Atomic ∧ exEnv.YieldsThenRaises 0 (.step .parent .node) (.str ['s']) [] .attribute ∧
    exEnv.YieldsThenRaises 0 (.step .followingSibling .node) (.attr [2] ['k'] ['v']) [] .value := by
  unfold Env.YieldsThenRaises
  exact ⟨trivial, by decide, by decide⟩

/-! ### C128 -/

/-- C128: `/node()` yields the root node and then the document element. -/
theorem C128_slash_node (E : Env F) (hd : E.doc.NoEmptyText) (n : Nat) (x : Item F)
    (hx : x = .root ∨ ∃ p, x = .node p ∧ E.doc.ElemAt p) :
    E.Yields n (.abs (some (.step .child .node))) x [.root, .node []] := by
  have hroot : x.getRoot E.doc = Res.one .root := by
    rcases hx with rfl | ⟨p, rfl, hp⟩
    · rfl
    · exact getRoot_elem hp
  obtain ⟨dyn, h⟩ := run_eval E n
  have h2 := (C46_root E hd n).2.1
  rw [Env.Yields, h] at h2
  rw [Env.Yields, h, eval, hroot, bind_one, h2]
  rfl

/-- C128: `//node()` yields the root node and then every node of the document, each exactly once. -/
theorem C128_slash_slash_node_partial (E : Env F) (hd : E.doc.NoEmptyText) (n : Nat) (x : Item F)
    (hx : x = .root ∨ ∃ p, x = .node p ∧ E.doc.ElemAt p) :
    ∃ ps : List Path, E.Yields n (.absAll (.step .child .node)) x (.root :: ps.map .node) ∧ ps.Nodup ∧
      ∀ q, q ∈ ps ↔ E.doc.Has q := by
  obtain ⟨f, ps, h1, h2, h3, h4⟩ := run_absAll_child' E hd n x hx .node
  refine ⟨ps, h1, h2, fun q => ?_⟩
  have : f q = true := by rw [h4]; simp [Test.sel, Item.isNode, Test.isName]
  rw [h3, this]
  simp

/-- C128: with any other step after `/` or `//` the root node is not added. -/
theorem C128_only_for_node (E : Env F) (n : Nat) (x : Item F) (hx : x = .root ∨ ∃ p, x = .node p ∧ E.doc.ElemAt p)
    (r : Expr F) (hr : ∀ a, r ≠ .step a .node) : E.run n (.abs (some r)) x = E.run n r .root := by
  have hroot : x.getRoot E.doc = Res.one .root := by
    rcases hx with rfl | ⟨p, rfl, hp⟩
    · rfl
    · exact getRoot_elem hp
  obtain ⟨dyn, h⟩ := run_eval E n
  have hj : r.isJustNode = false := by
    unfold Expr.isJustNode
    split
    · exact absurd rfl (hr _)
    · rfl
  rw [h, h, eval, hroot, bind_one, hj]
  rfl

/-- C128 as stated is false: XPath's `/node()` and `//node()` never contain the root node; in `<a>x<b/>x</a>` they do; and so does
`/attribute::node()`. -/
theorem C128_full_statement_is_false :
    let E : Env NoF := { exEnv with doc := twinTree }
    E.Yields 0 (.abs (some (.step .child .node))) (.node []) [.root, .node []] ∧
    E.Yields 0 (.absAll (.step .child .node)) (.node []) [.root, .node [], .node [0], .node [1], .node [2]] ∧
    E.Yields 0 (.abs (some (.step .attribute .node))) (.node []) [.root] := by
  unfold Env.Yields
  exact ⟨by decide, by decide, by decide⟩

end Amara
