import Verif.Spec.Meaning
import Verif.Props.Routes
import Verif.Props.XPathErrors
import Verif.Props.XPathOps
/-
Lemmas for C156.
-/
namespace Amara

variable {F : Type}

theorem CoreAxis.element (a : CoreAxis) : ElementAxis a.axis := by cases a <;> simp [CoreAxis.axis, ElementAxis]

theorem spot_node {doc : Node} (u : Spot) (hu : doc.Place u) : (u.item : Item F) = .root ∨ ∃ p, (u.item : Item F) = .node p ∧ doc.ElemAt p := by
  cases u with
  | root => exact .inl rfl
  | «at» p => exact .inr ⟨p, rfl, hu⟩

theorem spot_truthy (E : Env F) (u : Spot) (hu : E.doc.Place u) : E.Truthy u.item := by
  cases u with
  | root => rfl
  | «at» p => exact truthy_elem E.fo hu

theorem spot_item_inj {u v : Spot} (h : (u.item : Item F) = v.item) : u = v := by
  cases u <;> cases v <;> first | rfl | cases h
  rfl

theorem axisBefore_not_both {a : Axis} {x y : Path} (h : AxisBefore a x y) : ¬ AxisBefore a y x := by
  unfold AxisBefore at *
  split
  · rw [if_pos ‹_›] at h; exact fun h' => docLt_irrefl _ (docLt_trans h h')
  · rw [if_neg ‹_›] at h; exact fun h' => docLt_irrefl _ (docLt_trans h h')

/-- The element at an index of a list in order, by the number of those before it. -/
theorem nth_of_order {a : Axis} {qs : List Path} (ho : qs.Pairwise (AxisBefore a)) (k : Nat) (q : Path) :
    (1 ≤ k ∧ qs[k - 1]? = some q) ↔ q ∈ qs ∧ ∃ ws : List Path, ws.Nodup ∧ ws.length + 1 = k ∧ ∀ w, w ∈ ws ↔ w ∈ qs ∧ AxisBefore a w q := by
  have hn : ∀ {l : List Path}, l.Pairwise (AxisBefore a) → l.Nodup := fun h =>
    h.imp fun {x y} h => by rintro rfl; exact axisBefore_irrefl a _ h
  have key : ∀ (l r : List Path), qs = l ++ q :: r → ∀ w, w ∈ l ↔ w ∈ qs ∧ AxisBefore a w q := by
    rintro l r rfl w
    rw [List.pairwise_append, List.pairwise_cons] at ho
    obtain ⟨h1, ⟨h2, _⟩, h3⟩ := ho
    constructor
    · intro h; exact ⟨by simp [h], h3 w h q (by simp)⟩
    · rintro ⟨h, hb⟩
      rcases List.mem_append.1 h with h | h
      · exact h
      · rcases List.mem_cons.1 h with rfl | h
        · exact absurd hb (axisBefore_irrefl a w)
        · exact absurd hb (axisBefore_not_both (h2 w h))
  have hno : ∀ (l r : List Path), qs = l ++ q :: r → l.Nodup := by
    rintro l r rfl
    exact hn (List.pairwise_append.1 ho).1
  constructor
  · rintro ⟨hk, h⟩
    obtain ⟨hlt, he⟩ := List.getElem?_eq_some_iff.1 h
    have hs : qs = qs.take (k - 1) ++ q :: qs.drop (k - 1 + 1) := by
      rw [← he, List.getElem_cons_drop hlt, List.take_append_drop]
    refine ⟨he ▸ List.getElem_mem hlt, qs.take (k - 1), hno _ _ hs, ?_, key _ _ hs⟩
    rw [List.length_take]
    omega
  · rintro ⟨hq, ws, h1, h2, h3⟩
    obtain ⟨l, r, hs⟩ := List.append_of_mem hq
    have hp : ws.Perm l := (List.perm_ext_iff_of_nodup h1 (hno l r hs)).2 fun w => (h3 w).trans (key l r hs w).symm
    have hl := hp.length_eq
    refine ⟨by omega, ?_⟩
    rw [show k - 1 = l.length by omega, hs]
    simp

theorem filter_map_node (f : Item F → Bool) (ps : List Path) :
    (ps.map Item.node).filter f = (ps.filter fun q => f (.node q)).map .node := by
  rw [List.filter_map]; rfl

/-- A name step from a place. -/
theorem step_from (E : Env F) (hd : E.doc.NoEmptyText) (n : Nat) (a : CoreAxis) (m : Str) {u : Spot} (hu : E.doc.Place u) :
    ∃ qs : List Path, E.Yields n (.step a.axis (.name m)) u.item (qs.map .node) ∧
      (∀ q, q ∈ qs ↔ u.Reach a q ∧ E.doc.Named m q) ∧ qs.Pairwise (AxisBefore a.axis) := by
  cases u with
  | «at» p => exact C47_name_tests E hd hu n a.axis a.element m
  | root =>
    have hnil : ∀ a : CoreAxis, E.Yields n (.step a.axis (.name m)) (Item.root : Item F) [] → (∀ q, ¬ Spot.Reach a .root q) →
        ∃ qs : List Path, E.Yields n (.step a.axis (.name m)) (Item.root : Item F) (qs.map .node) ∧
      (∀ q, q ∈ qs ↔ Spot.Reach a .root q ∧ E.doc.Named m q) ∧ qs.Pairwise (AxisBefore a.axis) := fun a h h' =>
      ⟨[], h, fun q => by simp [h' q], .nil⟩
    have hv : visit E.fo E.doc (.name m) .root (.node [] :: (E.doc.under []).map .node) =
        (([] :: E.doc.under []).filter fun q => (Test.name m).sel E.doc (.node q : Item F)).map (Item.node : Path → Item F) := by
      rw [show (Item.node [] : Item F) :: (E.doc.under []).map .node = ([] :: E.doc.under []).map .node from rfl,
        visit_nodes E.fo hd]
    have hmem : ∀ q, q ∈ (([] :: E.doc.under []).filter fun q => (Test.name m).sel E.doc (.node q : Item F)) ↔ True ∧ E.doc.Named m q := by
      intro q
      rw [List.mem_filter, sel_name, List.mem_cons, mem_under (p := []) rfl]
      constructor
      · rintro ⟨_, h⟩; exact ⟨trivial, h⟩
      · rintro ⟨_, h⟩
        refine ⟨?_, h⟩
        cases q with
        | nil => exact .inl rfl
        | cons i q => exact .inr ⟨⟨i :: q, by simp, rfl⟩, h.elemAt.has⟩
    have hord : (([] :: E.doc.under []).filter fun q => (Test.name m).sel E.doc (.node q : Item F)).Pairwise docLt := by
      refine List.Pairwise.filter _ (List.pairwise_cons.2 ⟨?_, under_order.1 _ _⟩)
      intro q hq
      obtain ⟨r, y, h1, h2, _⟩ := (under_mem.1 _ _ _).1 hq
      cases r with
      | nil => exact absurd rfl h1
      | cons i r => rw [h2]; trivial
    cases a with
    | self => exact hnil .self (by rw [Env.Yields, run_step]; rfl) fun q h => h
    | followingSibling => exact hnil .followingSibling (by rw [Env.Yields, run_step]; rfl) fun q h => h
    | precedingSibling => exact hnil .precedingSibling (by rw [Env.Yields, run_step]; rfl) fun q h => h
    | child =>
      refine ⟨([[]] : List Path).filter fun q => (Test.name m).sel E.doc (.node q : Item F), ?_, fun q => ?_, ?_⟩
      · rw [Env.Yields]
        show E.run n (.step .child (.name m)) .root = _
        rw [run_step]
        simp only [stepRes, Item.children, Test.isName, if_true]
        rw [show (List.filter (fun x => x.isElem E.doc) [Item.node []] : List (Item F)) =
          (([[]] : List Path).filter fun q => (Item.node q : Item F).isElem E.doc).map .node from filter_map_node _ [[]], visit_nodes E.fo hd, List.filter_filter]
        congr 2
        refine List.filter_congr fun q _ => ?_
        rw [Bool.eq_iff_iff, Bool.and_eq_true, sel_name, isElem_iff]
        exact ⟨fun h => h.1, fun h => ⟨h, h.elemAt⟩⟩
      · rw [List.mem_filter, sel_name]
        simp [Spot.Reach]
      · exact List.Pairwise.filter _ (by simp)
    | descendant =>
      refine ⟨_, ?_, hmem, hord.imp fun {_ _} h => by simpa [AxisBefore, CoreAxis.axis] using h⟩
      rw [Env.Yields]
      show E.run n (.step .descendant (.name m)) .root = _
      rw [run_step]
      simp only [stepRes, Item.below, hv]
    | descendantOrSelf =>
      refine ⟨_, ?_, hmem, hord.imp fun {_ _} h => by simpa [AxisBefore, CoreAxis.axis] using h⟩
      rw [Env.Yields]
      show E.run n (.step .descendantOrSelf (.name m)) .root = _
      rw [run_step]
      simp only [stepRes, Item.below, hv]
      rfl

/-- `*` from a place. -/
theorem children_from (E : Env F) (hd : E.doc.NoEmptyText) (n : Nat) {u : Spot} (hu : E.doc.Place u) :
    ∃ qs : List Path, E.Yields n (.step .child .star) u.item (qs.map .node) ∧ ∀ q, q ∈ qs ↔ u.Reach .child q ∧ E.doc.ElemAt q := by
  cases u with
  | «at» p =>
    obtain ⟨qs, h1, h2, _⟩ := C47_star_partial E hd hu n
    exact ⟨qs, h1, h2⟩
  | root =>
    refine ⟨([[]] : List Path).filter fun q => (Item.node q : Item F).isElem E.doc, ?_, fun q => ?_⟩
    · rw [Env.Yields]
      show E.run n (.step .child .star) .root = _
      rw [run_step]
      simp only [stepRes, Item.children, Test.isName, if_true]
      rw [show (List.filter (fun x => x.isElem E.doc) [Item.node []] : List (Item F)) =
          (([[]] : List Path).filter fun q => (Item.node q : Item F).isElem E.doc).map .node from filter_map_node _ [[]], visit_nodes E.fo hd, List.filter_filter]
      simp [Test.sel]
    · rw [List.mem_filter, isElem_iff]
      simp [Spot.Reach]

/-- The attribute nodes for the values of an attribute at a place. -/
def Spot.attrs (k : Str) (vs : List Str) : Spot → List (Item F)
  | .at p => vs.map (.attr p k)
  | .root => []

/-- The attributes of the element at a place. -/
theorem attr_from (E : Env F) (hdict : E.doc.Dicts) (n : Nat) {k : Str} (hk : k ≠ ['*']) {u : Spot} (hu : E.doc.Place u) :
    ∃ vs : List Str, E.Yields n (.step .attribute (.name k)) u.item (u.attrs k vs) ∧
      vs.length ≤ 1 ∧ ∀ v, v ∈ vs ↔ E.doc.AttrAt u k v := by
  cases u with
  | root =>
    refine ⟨[], ?_, by simp, fun v => by simp [Node.AttrAt]⟩
    rw [Env.Yields]
    show E.run n (.step .attribute (.name k)) .root = _
    rw [run_step]
    rfl
  | «at» p =>
    obtain ⟨m, as, cs, hp⟩ := hu
    obtain ⟨_, h1, h2⟩ := C66_attributes_partial E n p m as cs hp
    have hd := hdict p m as cs hp
    by_cases h : ∃ v, (k, v) ∈ as
    · obtain ⟨v, hv⟩ := h
      refine ⟨[v], h1 k v hk hd hv, by simp, fun v' => ?_⟩
      rw [List.mem_singleton]
      constructor
      · rintro rfl; exact ⟨m, as, cs, hp, hv⟩
      · rintro ⟨m', as', cs', hp', hv'⟩
        rw [hp] at hp'
        cases hp'
        have : ∀ (as : List (Str × Str)), as.Pairwise (fun a b => a.1 ≠ b.1) → (k, v) ∈ as → (k, v') ∈ as → v' = v := by
          intro as
          induction as with
          | nil => intro _ h; cases h
          | cons x as ih =>
            intro hd h1 h2
            rw [List.pairwise_cons] at hd
            rcases List.mem_cons.1 h1 with h0 | h1' <;> rcases List.mem_cons.1 h2 with h3 | h2'
            · rw [← h0] at h3; cases h3; rfl
            · rw [← h0] at hd; exact absurd rfl (hd.1 (k, v') h2')
            · rw [← h3] at hd; exact absurd rfl (hd.1 (k, v) h1')
            · exact ih hd.2 h1' h2'
        exact this as hd hv hv'
    · refine ⟨[], h2 k hk fun v hv => h ⟨v, hv⟩, by simp, fun v => ?_⟩
      simp only [List.not_mem_nil, false_iff]
      rintro ⟨m', as', cs', hp', hv'⟩
      rw [hp] at hp'
      cases hp'
      exact h ⟨v, hv'⟩

theorem and_bools (E : Env F) (n : Nat) {a b : Expr F} {x : Item F} {c d : Bool} (ha : E.Yields n a x [.bool c]) (hb : E.Yields n b x [.bool d]) :
    E.Yields n (.and a b) x [.bool (c && d)] ∧ E.Yields n (.or a b) x [.bool (c || d)] := by
  rw [Env.Yields] at ha hb
  simp only [Env.Yields, run_or, run_and, ha, hb, Res.need, Res.first]
  cases c <;> cases d <;> exact ⟨rfl, rfl⟩

end Amara
