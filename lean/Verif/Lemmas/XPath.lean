import Verif.Spec.XPath
import Verif.Props.TreeUtil
/-
Lemmas about positions, generators and the evaluator.
-/
namespace Amara

/-! ### positions -/

theorem Node.at?_append (x : Node) (p r : Path) : x.at? (p ++ r) = (x.at? p).bind fun y => y.at? r := by
  induction p generalizing x with
  | nil => simp [Node.at?]
  | cons i p ih =>
    simp only [List.cons_append, Node.at?]
    cases x.xmlChildren[i]? with
    | none => rfl
    | some y => exact ih y

theorem under_mem :
    (∀ (x : Node) (p q : Path), q ∈ x.under p ↔ ∃ r y, r ≠ [] ∧ q = p ++ r ∧ x.at? r = some y) ∧
    (∀ (xs : List Node) (p : Path) (i : Nat) (q : Path), q ∈ Node.underList p i xs ↔
      ∃ j z r y, xs[j]? = some z ∧ q = p ++ (i + j) :: r ∧ z.at? r = some y) := by
  apply Node.induct
  case elem =>
    intro n as cs ih p q
    rw [Node.under, ih]
    constructor
    · rintro ⟨j, z, r, y, h1, h2, h3⟩
      exact ⟨j :: r, y, by simp, by simpa using h2, by simp [Node.at?, Node.xmlChildren, h1, h3]⟩
    · rintro ⟨r, y, h1, h2, h3⟩
      cases r with
      | nil => exact absurd rfl h1
      | cons j r =>
        simp only [Node.at?, Node.xmlChildren] at h3
        cases hz : cs[j]? with
        | none => rw [hz] at h3; cases h3
        | some z => rw [hz] at h3; exact ⟨j, z, r, y, hz, by simpa using h2, h3⟩
  case text =>
    intro s p q
    simp only [Node.under, List.not_mem_nil, false_iff]
    rintro ⟨r, y, h1, h2, h3⟩
    cases r with
    | nil => exact h1 rfl
    | cons j r => simp [Node.at?, Node.xmlChildren] at h3
  case nil => intro p i q; simp [Node.underList]
  case cons =>
    intro x xs ih1 ih2 p i q
    rw [Node.underList, List.mem_cons, List.mem_append, ih1, ih2]
    constructor
    · rintro (h | ⟨r, y, h1, h2, h3⟩ | ⟨j, z, r, y, h1, h2, h3⟩)
      · exact ⟨0, x, [], x, rfl, by simpa using h, rfl⟩
      · exact ⟨0, x, r, y, rfl, by simpa using h2, h3⟩
      · exact ⟨j + 1, z, r, y, by simpa using h1, by simpa [Nat.add_assoc, Nat.add_comm 1] using h2, h3⟩
    · rintro ⟨j, z, r, y, h1, h2, h3⟩
      cases j with
      | zero =>
        simp only [List.getElem?_cons_zero, Option.some.injEq] at h1
        subst h1
        cases r with
        | nil => exact .inl (by simpa using h2)
        | cons k r => exact .inr (.inl ⟨k :: r, y, by simp, by simpa using h2, h3⟩)
      | succ j =>
        exact .inr (.inr ⟨j, z, r, y, by simpa using h1, by simpa [Nat.add_assoc, Nat.add_comm 1] using h2, h3⟩)

theorem under_order :
    (∀ (x : Node) (p : Path), (x.under p).Pairwise docLt) ∧
    (∀ (xs : List Node) (p : Path) (i : Nat), (Node.underList p i xs).Pairwise docLt) := by
  apply Node.induct
  case elem => intro n as cs ih p; exact ih p 0
  case text => intro s p; exact .nil
  case nil => intro p i; exact .nil
  case cons =>
    intro x xs ih1 ih2 p i
    have later : ∀ a ∈ Node.underList p (i + 1) xs, ∃ j r, i < j ∧ a = p ++ j :: r := by
      intro q h
      obtain ⟨j, z, r, y, _, h2, _⟩ := (under_mem.2 _ _ _ _).1 h
      exact ⟨_, r, by omega, h2⟩
    have below : ∀ a ∈ x.under (p ++ [i]), ∃ k r, a = p ++ i :: k :: r := by
      intro q h
      obtain ⟨r, y, h1, h2, _⟩ := (under_mem.1 _ _ _).1 h
      cases r with
      | nil => exact absurd rfl h1
      | cons k r => exact ⟨k, r, by simpa using h2⟩
    refine List.pairwise_cons.2 ⟨?_, List.pairwise_append.2 ⟨ih1 _, ih2 _ _, ?_⟩⟩
    · intro a ha
      rcases List.mem_append.1 ha with ha | ha
      · obtain ⟨k, r, h⟩ := below a ha
        rw [h]
        have := docLt_child (p ++ [i]) k r
        simpa using this
      · obtain ⟨j, r, h1, h2⟩ := later a ha
        rw [h2]
        exact docLt_sibling p h1 [] r
    · intro a ha b hb
      obtain ⟨k, r, h⟩ := below a ha
      obtain ⟨j, r', h1, h2⟩ := later b hb
      rw [h, h2]
      exact docLt_sibling p h1 _ _

theorem nodup_of_docLt {l : List Path} (h : l.Pairwise docLt) : l.Nodup := by
  refine List.Pairwise.imp ?_ h
  intro a b h he
  rw [he] at h
  exact docLt_irrefl _ h

/-! ### the worklist loops -/

variable {F : Type}

theorem worklist_mono {doc : Node} {n m : Nat} (h : n ≤ m) :
    ∀ {xs ys : List (Item F)}, worklist doc n xs = some ys → worklist doc m xs = some ys := by
  induction n generalizing m with
  | zero =>
    intro xs ys hw
    cases xs with
    | nil => cases m <;> simpa [worklist] using hw
    | cons x r => simp [worklist] at hw
  | succ n ih =>
    intro xs ys hw
    cases m with
    | zero => omega
    | succ m =>
      cases xs with
      | nil => simpa [worklist] using hw
      | cons x r =>
        rw [worklist] at hw ⊢
        cases hc : x.children doc with
        | none => rw [hc] at hw; cases hw
        | some cs =>
          rw [hc] at hw
          simp only at hw ⊢
          cases hw' : worklist doc n (cs ++ r) with
          | none => rw [hw'] at hw; cases hw
          | some zs => rw [hw'] at hw; rw [ih (by omega) hw']; exact hw

theorem range_map_cons (p : Path) (i : Nat) (x : Node) (xs : List Node) :
    (List.range (x :: xs).length).map (fun j => (Item.node (p ++ [i + j]) : Item F)) =
      .node (p ++ [i]) :: (List.range xs.length).map fun j => .node (p ++ [i + 1 + j]) := by
  rw [List.length_cons, List.range_succ_eq_map]
  simp [Nat.add_assoc, Nat.add_comm 1]

/-- The loop with `to_process` goes through what is below the nodes it starts from, in order. -/
theorem worklist_under (doc : Node) :
    (∀ (x : Node) (p : Path), doc.at? p = some x → ∀ (rest : List (Item F)) n ys, worklist doc n rest = some ys →
      ∃ m, worklist doc m (.node p :: rest) = some (.node p :: (x.under p).map .node ++ ys)) ∧
    (∀ (xs : List Node) (p : Path) (i : Nat), (∀ j z, xs[j]? = some z → doc.at? (p ++ [i + j]) = some z) →
      ∀ (rest : List (Item F)) n ys, worklist doc n rest = some ys →
      ∃ m, worklist doc m ((List.range xs.length).map (fun j => .node (p ++ [i + j])) ++ rest) =
        some ((Node.underList p i xs).map .node ++ ys)) := by
  apply Node.induct
  case elem =>
    intro n as cs ih p hp rest k ys hw
    obtain ⟨m, hm⟩ := ih p 0 (by
      intro j z hz
      rw [Node.at?_append, hp]
      simp [Node.at?, Node.xmlChildren, hz]) rest k ys hw
    refine ⟨m + 1, ?_⟩
    rw [worklist]
    simp only [Item.children, hp]
    simp only [Nat.zero_add] at hm
    rw [hm, Node.under]
    rfl
  case text =>
    intro s p hp rest k ys hw
    refine ⟨k + 1, ?_⟩
    rw [worklist]
    simp only [Item.children, hp, List.nil_append, hw, Node.under]
    rfl
  case nil => intro p i _ rest k ys hw; exact ⟨k, by simpa [Node.underList] using hw⟩
  case cons =>
    intro x xs ih1 ih2 p i h rest k ys hw
    obtain ⟨m, hm⟩ := ih2 p (i + 1) (by
      intro j z hz
      have := h (j + 1) z (by simpa using hz)
      rwa [show i + (j + 1) = i + 1 + j from by omega] at this) rest k ys hw
    obtain ⟨m', hm'⟩ := ih1 (p ++ [i]) (h 0 x rfl) _ m _ hm
    refine ⟨m', ?_⟩
    rw [range_map_cons, List.cons_append, hm', Node.underList]
    simp

/-- `Item.below` is what the loop `while to_process` of the code goes through, and the loop ends. -/
theorem worklist_below (doc : Node) (x : Item F) (cs : List (Item F)) (h : x.children doc = some cs) :
    ∃ n ys, worklist doc n cs = some ys ∧ x.below doc = some ys := by
  cases x with
  | root =>
    cases h
    obtain ⟨m, hm⟩ := (worklist_under (F := F) doc).1 doc [] rfl [] 0 [] rfl
    exact ⟨m, _, hm, by simp [Item.below]⟩
  | node p =>
    simp only [Item.children] at h
    simp only [Item.below]
    cases hp : doc.at? p with
    | none => rw [hp] at h; cases h
    | some y =>
      rw [hp] at h
      cases y with
      | text s => cases h; exact ⟨0, [], rfl, by simp [Node.under]⟩
      | elem m as ds =>
        simp only [Option.some.injEq] at h
        subst h
        obtain ⟨m, hm⟩ := (worklist_under (F := F) doc).2 ds p 0 (by
          intro j z hz
          rw [Node.at?_append, hp]
          simp [Node.at?, Node.xmlChildren, hz]) [] 0 [] rfl
        refine ⟨m, _, ?_, rfl⟩
        simpa [Node.under] using hm
  | _ => cases h

/-! ### tests -/

/-- Whether a node test lets an item pass. -/
def Test.sel (doc : Node) (t : Test) (x : Item F) : Bool :=
  match t with
  | .star => true
  | .name n => match x with
    | .node p => match doc.at? p with
      | some (.elem m _ _) => m == n
      | _ => false
    | _ => false
  | .node => x.isNode || (x.strOf doc).isSome
  | .text => (x.strOf doc).isSome

theorem compute_eq (doc : Node) (t : Test) (x : Item F) :
    t.compute doc x = if t.sel doc x then [x] else [] := by
  cases t with
  | star => rfl
  | node => rfl
  | text => rfl
  | name n =>
    cases x with
    | node p =>
      cases hy : doc.at? p with
      | none => simp [Test.compute, Test.sel, hy]
      | some y => cases y <;> simp [Test.compute, Test.sel, hy]
    | _ => rfl

theorem truthy_node {doc : Node} (fo : FloatOps F) (h : doc.NoEmptyText) (p : Path) :
    (Item.node p).truthy fo doc = true := by
  simp only [Item.truthy, Item.strOf, Item.textOf]
  cases hp : doc.at? p with
  | none => rfl
  | some x =>
    cases x with
    | elem m as cs => rfl
    | text s =>
      cases s with
      | nil => exact absurd hp (h p)
      | cons c s => rfl

theorem truthy_elem {doc : Node} (fo : FloatOps F) {p : Path} (h : doc.ElemAt p) :
    (Item.node p).truthy fo doc = true := by
  obtain ⟨m, as, cs, h⟩ := h
  simp [Item.truthy, Item.strOf, Item.textOf, h]

theorem visit_eq (fo : FloatOps F) (doc : Node) (t : Test) (cur : Item F) (cs : List (Item F))
    (h : ∀ c ∈ cs, c.truthy fo doc = true) : visit fo doc t cur cs = cs.filter (t.sel doc) := by
  induction cs with
  | nil => rfl
  | cons c cs ih =>
    have hc := h c (by simp)
    rw [visit, List.flatMap_cons, Item.orElse, if_pos hc, compute_eq, List.filter_cons]
    have := ih (fun c hc => h c (by simp [hc]))
    rw [visit] at this
    rw [this]
    split <;> simp

theorem visit_nodes (fo : FloatOps F) {doc : Node} (hd : doc.NoEmptyText) (t : Test) (cur : Item F) (ps : List Path) :
    visit fo doc t cur (ps.map .node) = (ps.filter fun q => t.sel doc (.node q : Item F)).map .node := by
  rw [visit_eq]
  · rw [List.filter_map]; rfl
  · intro c hc
    obtain ⟨p, _, rfl⟩ := List.mem_map.1 hc
    exact truthy_node fo hd p

theorem sel_name {doc : Node} {n : Str} {q : Path} :
    (Test.name n).sel doc (.node q : Item F) = true ↔ doc.Named n q := by
  simp only [Test.sel, Node.Named]
  cases hq : doc.at? q with
  | none => simp
  | some y => cases y <;> simp

theorem sel_text {doc : Node} {q : Path} :
    Test.text.sel doc (.node q : Item F) = true ↔ ∃ s, doc.at? q = some (.text s) := by
  simp only [Test.sel, Item.strOf, Item.textOf]
  cases hq : doc.at? q with
  | none => simp
  | some y => cases y <;> simp

theorem isElem_iff {doc : Node} {q : Path} : (Item.node q : Item F).isElem doc = true ↔ doc.ElemAt q := by
  simp only [Item.isElem, Node.ElemAt]
  cases hq : doc.at? q with
  | none => simp
  | some y => cases y <;> simp

theorem Node.Named.elemAt {doc : Node} {n : Str} {q : Path} : doc.Named n q → doc.ElemAt q :=
  fun ⟨as, cs, h⟩ => ⟨n, as, cs, h⟩

theorem Node.ElemAt.has {doc : Node} {q : Path} : doc.ElemAt q → doc.Has q :=
  fun ⟨_, _, _, h⟩ => ⟨_, h⟩

theorem Node.Has.parent {doc : Node} {u : Path} {i : Nat} (h : doc.Has (u ++ [i])) : doc.ElemAt u := by
  obtain ⟨x, h⟩ := h
  rw [Node.at?_append] at h
  cases hu : doc.at? u with
  | none => rw [hu] at h; cases h
  | some y =>
    rw [hu] at h
    cases y with
    | elem m as cs => exact ⟨m, as, cs, hu⟩
    | text s => simp [Node.at?, Node.xmlChildren] at h

theorem Node.Has.prefix {doc : Node} {u r : Path} (h : doc.Has (u ++ r)) : doc.Has u := by
  obtain ⟨x, h⟩ := h
  rw [Node.at?_append] at h
  cases hu : doc.at? u with
  | none => rw [hu] at h; cases h
  | some y => exact ⟨y, hu⟩

theorem has_child {doc : Node} {u : Path} {m : Str} {as : Attrs} {cs : List Node}
    (h : doc.at? u = some (.elem m as cs)) (i : Nat) : doc.Has (u ++ [i]) ↔ i < cs.length := by
  simp only [Node.Has, Node.at?_append, h, Option.bind_some, Node.at?, Node.xmlChildren]
  constructor
  · rintro ⟨x, hx⟩
    cases hc : cs[i]? with
    | none => rw [hc] at hx; cases hx
    | some y => exact (List.getElem?_eq_some_iff.1 hc).1
  · intro hi
    exact ⟨cs[i], by rw [List.getElem?_eq_getElem hi]⟩

/-! ### axes -/

/-- The positions an axis goes through, in order. -/
def axisCands (doc : Node) (a : Axis) (p : Path) : List Path :=
  match a with
  | .self => [p]
  | .child => match doc.at? p with
    | some (.elem _ _ cs) => (List.range cs.length).map fun i => p ++ [i]
    | _ => []
  | .descendant => match doc.at? p with
    | some x => x.under p
    | none => []
  | .descendantOrSelf => p :: match doc.at? p with
    | some x => x.under p
    | none => []
  | .parent => if p = [] then [] else [p.dropLast]
  | .ancestor => ancestorsOf p
  | .followingSibling => match p.getLast?, doc.at? p.dropLast with
    | some i, some (.elem _ _ cs) => ((List.range cs.length).drop (i + 1)).map fun j => p.dropLast ++ [j]
    | _, _ => []
  | .precedingSibling => match p.getLast? with
    | some i => (List.range i).reverse.map fun j => p.dropLast ++ [j]
    | none => []
  | _ => []

theorem eq_snoc {p : Path} {i : Nat} (h : p.getLast? = some i) : p = p.dropLast ++ [i] := by
  rw [List.getLast?_eq_some_iff] at h
  obtain ⟨ys, rfl⟩ := h
  simp

theorem mem_under {doc : Node} {p : Path} {x : Node} (h : doc.at? p = some x) (q : Path) :
    q ∈ x.under p ↔ (∃ r, r ≠ [] ∧ q = p ++ r) ∧ doc.Has q := by
  rw [under_mem.1]
  constructor
  · rintro ⟨r, y, h1, rfl, h3⟩
    exact ⟨⟨r, h1, rfl⟩, y, by rw [Node.at?_append, h]; exact h3⟩
  · rintro ⟨⟨r, h1, rfl⟩, y, h3⟩
    rw [Node.at?_append, h] at h3
    exact ⟨r, y, h1, rfl, h3⟩

theorem mem_drop_range {k n j : Nat} : j ∈ (List.range n).drop k ↔ k ≤ j ∧ j < n := by
  rw [List.mem_iff_getElem?]
  simp only [List.getElem?_drop]
  constructor
  · rintro ⟨m, hm⟩
    rw [List.getElem?_eq_some_iff] at hm
    obtain ⟨h1, h2⟩ := hm
    simp only [List.length_range] at h1
    simp only [List.getElem_range] at h2
    omega
  · rintro ⟨h1, h2⟩
    refine ⟨j - k, ?_⟩
    rw [List.getElem?_eq_some_iff]
    exact ⟨by simp; omega, by simp; omega⟩

/-- The axes that denote something the code gets right. -/
def Axis.sound : Axis → Bool
  | .self | .child | .descendant | .descendantOrSelf | .followingSibling | .precedingSibling | .parent
  | .ancestor => true
  | _ => false

/-- The axes in reverse document order. -/
def Axis.reverse : Axis → Bool
  | .precedingSibling | .ancestor | .parent => true
  | _ => false

theorem axisCands_mem {doc : Node} {p : Path} (hp : doc.ElemAt p) {a : Axis} (ha : a.sound = true) (q : Path) :
    q ∈ axisCands doc a p ↔ OnAxis a p q ∧ doc.Has q := by
  have hp0 := hp
  obtain ⟨m, as, cs, hp⟩ := hp
  cases a <;> try (cases ha; done)
  case self => simp only [axisCands, List.mem_singleton, OnAxis]; exact ⟨fun h => ⟨h, h ▸ hp0.has⟩, And.left⟩
  case child =>
    simp only [axisCands, hp, List.mem_map, List.mem_range, OnAxis]
    constructor
    · rintro ⟨i, h, rfl⟩; exact ⟨⟨i, rfl⟩, (has_child hp i).2 h⟩
    · rintro ⟨⟨i, rfl⟩, h⟩; exact ⟨i, (has_child hp i).1 h, rfl⟩
  case descendant => simp only [axisCands, hp, OnAxis]; exact mem_under hp q
  case descendantOrSelf =>
    simp only [axisCands, hp, OnAxis, List.mem_cons]
    rw [mem_under hp]
    constructor
    · rintro (rfl | ⟨⟨r, h1, rfl⟩, h⟩)
      · exact ⟨⟨[], by simp⟩, hp0.has⟩
      · exact ⟨⟨r, rfl⟩, h⟩
    · rintro ⟨⟨r, rfl⟩, h⟩
      cases r with
      | nil => exact .inl (by simp)
      | cons i r => exact .inr ⟨⟨i :: r, by simp, rfl⟩, h⟩
  case parent =>
    simp only [axisCands, OnAxis]
    split
    · rename_i h; subst h; simp
    · rename_i h
      obtain ⟨i, hi⟩ : ∃ i, p.getLast? = some i := by
        cases hl : p.getLast? with
        | none => exact absurd (List.getLast?_eq_none_iff.1 hl) h
        | some i => exact ⟨i, rfl⟩
      have hs := eq_snoc hi
      rw [List.mem_singleton]
      constructor
      · rintro rfl
        refine ⟨⟨i, hs⟩, ?_⟩
        have := hp0.has
        rw [hs] at this
        exact this.prefix
      · rintro ⟨⟨j, hj⟩, _⟩
        rw [hj]; simp
  case ancestor =>
    simp only [axisCands, ancestorsOf, OnAxis, List.mem_map, List.mem_reverse, List.mem_range]
    constructor
    · rintro ⟨k, hk, rfl⟩
      refine ⟨⟨p.drop k, ?_, (List.take_append_drop k p).symm⟩, ?_⟩
      · intro h; have := congrArg List.length h; simp at this; omega
      · have := hp0.has
        rw [← List.take_append_drop k p] at this
        exact this.prefix
    · rintro ⟨⟨r, h1, rfl⟩, _⟩
      refine ⟨q.length, ?_, by simp⟩
      cases r with
      | nil => exact absurd rfl h1
      | cons i r => simp
  case followingSibling =>
    simp only [axisCands, OnAxis]
    cases hl : p.getLast? with
    | none =>
      rw [List.getLast?_eq_none_iff] at hl
      subst hl
      simp
    | some i =>
      have hs := eq_snoc hl
      have hh : doc.Has (p.dropLast ++ [i]) := hs ▸ hp0.has
      obtain ⟨m', as', cs', hu⟩ := hh.parent
      simp only [hu, List.mem_map, mem_drop_range]
      constructor
      · rintro ⟨j, ⟨h1, h2⟩, rfl⟩
        exact ⟨⟨p.dropLast, i, j, hs, rfl, by omega⟩, (has_child hu j).2 h2⟩
      · rintro ⟨⟨u, i', j, h1, rfl, h3⟩, h⟩
        rw [hs] at h1
        obtain ⟨hu', h1⟩ := List.append_inj' h1 rfl
        simp only [List.cons.injEq, and_true] at h1
        rw [← hu'] at h ⊢
        exact ⟨j, ⟨by omega, (has_child hu j).1 h⟩, rfl⟩
  case precedingSibling =>
    simp only [axisCands, OnAxis]
    cases hl : p.getLast? with
    | none =>
      rw [List.getLast?_eq_none_iff] at hl
      subst hl
      simp
    | some i =>
      have hs := eq_snoc hl
      have hh : doc.Has (p.dropLast ++ [i]) := hs ▸ hp0.has
      obtain ⟨m', as', cs', hu⟩ := hh.parent
      have hi := (has_child hu i).1 hh
      simp only [List.mem_map, List.mem_reverse, List.mem_range]
      constructor
      · rintro ⟨j, h1, rfl⟩
        exact ⟨⟨p.dropLast, i, j, hs, rfl, h1⟩, (has_child hu j).2 (by omega)⟩
      · rintro ⟨⟨u, i', j, h1, rfl, h3⟩, h⟩
        rw [hs] at h1
        obtain ⟨hu', h1⟩ := List.append_inj' h1 rfl
        simp only [List.cons.injEq, and_true] at h1
        rw [← hu'] at h ⊢
        exact ⟨j, by omega, rfl⟩

theorem docLt_snoc (p : Path) {i j : Nat} (h : i < j) : docLt (p ++ [i]) (p ++ [j]) :=
  docLt_sibling p h [] []

theorem docLt_take (p : Path) {k : Nat} (h : k < p.length) : docLt (p.take k) p := by
  have : p.take k ++ (p.drop k) = p := List.take_append_drop k p
  cases hd : p.drop k with
  | nil => have := congrArg List.length hd; simp at this; omega
  | cons j r =>
    rw [hd] at this
    have h2 := docLt_child (p.take k) j r
    rwa [this] at h2

theorem axisCands_order {doc : Node} {p : Path} (a : Axis) :
    (axisCands doc a p).Pairwise (fun x y => if a.reverse then docLt y x else docLt x y) := by
  cases a
  case self => exact List.pairwise_singleton _ _
  case parent =>
    simp only [axisCands, Axis.reverse, if_true]
    by_cases hp : p = []
    · rw [if_pos hp]; exact .nil
    · rw [if_neg hp]; exact List.pairwise_singleton _ _
  case child =>
    simp only [axisCands, Axis.reverse, Bool.false_eq_true, if_false]
    split
    · rw [List.pairwise_map]
      exact List.Pairwise.imp (fun h => docLt_snoc p h) List.pairwise_lt_range
    · exact .nil
  case descendant =>
    simp only [axisCands, Axis.reverse, Bool.false_eq_true, if_false]
    split
    · exact under_order.1 _ _
    · exact .nil
  case descendantOrSelf =>
    simp only [axisCands, Axis.reverse, Bool.false_eq_true, if_false]
    split
    · rename_i x hx
      refine List.pairwise_cons.2 ⟨?_, under_order.1 _ _⟩
      intro q hq
      obtain ⟨r, y, h1, rfl, _⟩ := (under_mem.1 _ _ _).1 hq
      cases r with
      | nil => exact absurd rfl h1
      | cons i r => exact docLt_child p i r
    · exact List.pairwise_singleton _ _
  case ancestor =>
    simp only [axisCands, Axis.reverse, ancestorsOf]
    rw [List.map_reverse, List.pairwise_reverse, List.pairwise_map]
    refine List.Pairwise.imp_of_mem ?_ List.pairwise_lt_range
    intro i j hi hj h
    rw [List.mem_range] at hi hj
    have : p.take i = (p.take j).take i := by rw [List.take_take, Nat.min_eq_left (by omega)]
    simp only [if_true]
    rw [this]
    exact docLt_take _ (by simp; omega)
  case followingSibling =>
    simp only [axisCands, Axis.reverse, Bool.false_eq_true, if_false]
    split
    · rw [List.pairwise_map]
      exact List.Pairwise.imp (fun h => docLt_snoc _ h) (List.pairwise_lt_range.sublist (List.drop_sublist _ _))
    · exact .nil
  case precedingSibling =>
    simp only [axisCands, Axis.reverse, if_true]
    split
    · rw [List.map_reverse, List.pairwise_reverse, List.pairwise_map]
      exact List.Pairwise.imp (fun h => docLt_snoc _ h) List.pairwise_lt_range
    · exact .nil
  all_goals exact .nil

/-- What a step adds at the end: the root, on the ancestor axis and as the parent of the document element. -/
def rootTail (a : Axis) (p : Path) : List (Item F) :=
  match a with
  | .ancestor => [.root]
  | .parent => if p = [] then [.root] else []
  | _ => []

theorem find_index {cs : List Node} {i : Nat} {n : Str} {as : Attrs} {ds : List Node}
    (h : cs[i]? = some (.elem n as ds)) :
    ((List.range cs.length).find? fun j => sameChild cs j i) = some i := by
  rw [List.find?_range_eq_some]
  refine ⟨?_, ?_, ?_⟩
  · simp [sameChild]
  · rw [List.mem_range]; exact (List.getElem?_eq_some_iff.1 h).1
  · intro j hj
    simp only [sameChild, h]
    have : (j == i) = false := by simp; omega
    rw [this]
    cases cs[j]? with
    | none => rfl
    | some x => cases x <;> rfl

/-- A step from an element. -/
theorem step_elem (fo : FloatOps F) {doc : Node} (hd : doc.NoEmptyText) {p : Path} (hp : doc.ElemAt p) (n : Nat)
    {a : Axis} (ha : a.sound = true) (t : Test) :
    stepRes fo doc n a t (.node p) =
      ⟨((axisCands doc a p).filter fun q => t.sel doc (.node q : Item F) &&
          !(decide (a = .child) && t.isName && !(Item.node q : Item F).isElem doc)).map .node ++ rootTail a p, .done⟩ := by
  have hp0 := hp
  obtain ⟨m, as, cs, hp⟩ := hp
  cases a <;> try (cases ha; done)
  case self =>
    simp only [stepRes, axisCands, compute_eq, rootTail, List.append_nil]
    cases h : t.sel doc (.node p : Item F) <;> simp [h]
  case child =>
    simp only [stepRes, axisCands, Item.children, hp, rootTail, List.append_nil]
    have hm : (List.range cs.length).map (fun i => (Item.node (p ++ [i]) : Item F)) =
        ((List.range cs.length).map fun i => p ++ [i]).map .node := by rw [List.map_map]; rfl
    rw [hm]
    generalize (List.range cs.length).map (fun i => p ++ [i]) = ps
    cases ht : t.isName with
    | false =>
      simp only [Bool.false_eq_true, if_false, Bool.and_false, Bool.false_and, Bool.not_false, Bool.and_true]
      rw [visit_nodes fo hd]
    | true =>
      simp only [if_true, List.filter_map]
      rw [visit_nodes fo hd, List.filter_filter]
      simp
  case descendant =>
    simp only [stepRes, axisCands, Item.below, hp, rootTail, List.append_nil]
    rw [visit_nodes fo hd]
    simp
  case descendantOrSelf =>
    simp only [stepRes, axisCands, Item.below, hp, rootTail, List.append_nil, compute_eq]
    rw [visit_nodes fo hd]
    simp only [Res.append, List.filter_cons]
    cases h : t.sel doc (.node p : Item F) <;> simp
  case parent =>
    simp only [stepRes, axisCands, Item.parent, rootTail]
    by_cases h : p = []
    · subst h
      have : (Item.node [] : Item F).isElem doc = true := isElem_iff.2 hp0
      simp [Item.getRoot, this, Res.one]
    · simp only [if_neg h, List.append_nil]
      have := visit_nodes fo hd t (.node p) [p.dropLast]
      simp only [List.map_cons, List.map_nil] at this
      rw [this]
      simp
  case ancestor =>
    have : (Item.node p : Item F).isElem doc = true := isElem_iff.2 hp0
    simp only [stepRes, axisCands, rootTail, Item.getRoot, this, if_true, Res.one, Res.append]
    rw [visit_nodes fo hd]
    simp
  case followingSibling =>
    simp only [stepRes, axisCands, Item.siblings, rootTail, List.append_nil]
    cases hl : p.getLast? with
    | none => rfl
    | some i =>
      have hs := eq_snoc hl
      have hh : doc.Has (p.dropLast ++ [i]) := hs ▸ hp0.has
      obtain ⟨m', as', cs', hu⟩ := hh.parent
      have hi : cs'[i]? = some (.elem m as cs) := by
        have := hp
        rw [hs, Node.at?_append, hu] at this
        simp only [Option.bind_some, Node.at?, Node.xmlChildren] at this
        cases hc : cs'[i]? with
        | none => rw [hc] at this; cases this
        | some y => rw [hc] at this; exact this
      simp only [hu, find_index hi, Option.getD_some]
      have hm := fun (l : List Nat) => (List.map_map (f := fun j => p.dropLast ++ [j]) (g := (Item.node : Path → Item F))
        (l := l)).symm
      simp only [Function.comp_def] at hm
      rw [hm, visit_nodes fo hd]
      simp
  case precedingSibling =>
    simp only [stepRes, axisCands, Item.siblings, rootTail, List.append_nil]
    cases hl : p.getLast? with
    | none => rfl
    | some i =>
      have hs := eq_snoc hl
      have hh : doc.Has (p.dropLast ++ [i]) := hs ▸ hp0.has
      obtain ⟨m', as', cs', hu⟩ := hh.parent
      have hi : cs'[i]? = some (.elem m as cs) := by
        have := hp
        rw [hs, Node.at?_append, hu] at this
        simp only [Option.bind_some, Node.at?, Node.xmlChildren] at this
        cases hc : cs'[i]? with
        | none => rw [hc] at this; cases this
        | some y => rw [hc] at this; exact this
      simp only [hu, find_index hi, Option.getD_some]
      have hm := fun (l : List Nat) => (List.map_map (f := fun j => p.dropLast ++ [j]) (g := (Item.node : Path → Item F))
        (l := l)).symm
      simp only [Function.comp_def] at hm
      rw [hm, visit_nodes fo hd]
      simp

end Amara
