import Verif.Lemmas.DocOrder
/-
C118: the order of the results of a union when the tree has been changed since an earlier query.
-/
namespace Amara

/-- C118: a union asked for at a node without a number (in a tree where nothing was numbered yet; at a new element; at
any text node or attribute) numbers the whole tree as it is now and yields the elements in document order, whatever
numbers there were. -/
theorem C118_numbered_anew {h : Heap} {t : Id} {tree : Node} (hr : Rep h none t tree) {order : List Id}
    (ho : ElementsOf h t order) (d : Id) (m : Numbers) {ctx : ONode} (hc : Within h t ctx) (hm : m.of ctx = none)
    (l r : List ONode) (hl : ∀ x ∈ l ++ r, ∃ i ∈ order, x = .obj i) :
    ∃ N m' zs, (∀ n, N ≤ n → unionObjs h d n ctx l r m = some (m', some zs)) ∧ Arranged (order.map .obj) (l ++ r) zs ∧
      GoUp m' (order.map .obj) ∧ m'.root = m.root := by
  have hd := elements_nodup hr ho
  have ht : h.xmlParent t = none := (rep_children hr).1
  obtain ⟨ids, hb, rfl⟩ := ho
  have key : ∀ i, Reachable h [t] i → ∃ N, ∀ n, N ≤ n → topOf h n i = some t := by
    intro i hi
    obtain ⟨k, hk⟩ := (rep_reach hr hi).1
    exact ⟨k, fun n hn => topOf_upTimes ht k n i hk hn⟩
  have key' : ∃ N, ∀ n, N ≤ n → indexDocorder h d n m ctx = numberRest h n (descGen t) 0 (m.put t 0) := by
    cases ctx with
    | root => exact hc.elim
    | obj i => obtain ⟨N, hN⟩ := key i hc; exact ⟨N, fun n hn => by rw [indexDocorder, hN n hn]; rfl⟩
    | attr e => obtain ⟨N, hN⟩ := key e hc; exact ⟨N, fun n hn => by rw [indexDocorder, hN n hn]; rfl⟩
  obtain ⟨N, hN⟩ := key'
  obtain ⟨m', e1, e2, e3, _, _⟩ := number_goUp h t ids ids.length 0 m hb hd (Nat.le_refl _)
  obtain ⟨zs, z1, z2⟩ := sort_arranged e3 (xs := l ++ r) (by
    intro x hx
    obtain ⟨i, hi, rfl⟩ := hl x hx
    exact List.mem_map.2 ⟨i, hi, rfl⟩)
  refine ⟨max N ids.length, m', zs, ?_, z2, e3, e2⟩
  intro n hn
  rw [unionObjs, hm, hN n (by omega), numberRest_more _ _ _ _ _ n (by omega) e1]
  simp [z1]

/-- C118: the first union asked for at the root: the root and the elements in document order. -/
theorem C118_first_at_the_root {h : Heap} {t : Id} {tree : Node} (hr : Rep h none t tree) {order : List Id}
    (ho : ElementsOf h t order) (m : Numbers) (hm : m.root = none)
    (l r : List ONode) (hl : ∀ x ∈ l ++ r, x = .root ∨ ∃ i ∈ order, x = .obj i) {n : Nat} (hn : order.length ≤ n) :
    ∃ m' zs, unionObjs h t n .root l r m = some (m', some zs) ∧ Arranged (.root :: order.map .obj) (l ++ r) zs ∧
      GoUp m' (.root :: order.map .obj) := by
  have hd := elements_nodup hr ho
  obtain ⟨ids, hb, rfl⟩ := ho
  obtain ⟨m', e1, e2, e3, e4, _⟩ := number_goUp h t ids n 1 ⟨some 0, m.obj⟩ hb hd (by simp at hn; omega)
  have e5 : GoUp m' (.root :: (t :: ids).map .obj) := by
    refine ⟨?_, List.pairwise_cons.2 ⟨?_, e3.2⟩⟩
    · intro x hx
      rcases List.mem_cons.1 hx with rfl | hx
      · exact ⟨0, e2⟩
      · exact e3.1 x hx
    · intro x hx p q hp hq
      obtain ⟨i, hi, rfl⟩ := List.mem_map.1 hx
      obtain ⟨j, hj, hkj⟩ := e4 i hi
      simp only [Numbers.of] at hp hq
      rw [e2] at hp; rw [hj] at hq
      cases hp; cases hq; omega
  obtain ⟨zs, z1, z2⟩ := sort_arranged e5 (xs := l ++ r) (by
    intro x hx
    rcases hl x hx with rfl | ⟨i, hi, rfl⟩
    · simp
    · exact List.mem_cons_of_mem _ (List.mem_map.2 ⟨i, hi, rfl⟩))
  refine ⟨m', zs, ?_, z2, e5⟩
  rw [unionObjs, show m.of .root = none from hm]
  simp only [Option.isSome_none, Bool.false_eq_true, if_false, indexDocorder]
  rw [e1]
  simp [z1]

/-- C118 (partial): after a tree was numbered by a union at one of its nodes, and as long as nodes have only been taken
out of it (and names, attributes and text changed), every further union at a numbered node yields what is left in
document order; the numbers stay as they are.  Missing: moved and added elements, `C118_full_statement_is_false`. -/
theorem C118_only_removals_partial {h h' : Heap} {t : Id} {tree : Node} (hr : Rep h none t tree) {order : List Id}
    (ho : ElementsOf h t order) {d : Id} {m m' : Numbers} {ctx : ONode} (hc : Within h t ctx) (hm : m.of ctx = none)
    {n : Nat} {l r : List ONode} {res : Option (List ONode)} (hu : unionObjs h d n ctx l r m = some (m', res))
    (hs : ∀ i, Reachable h [t] i → (h'.children i).Sublist (h.children i) ∧ h'.isElemB i = h.isElemB i) :
    ∃ order', ElementsOf h' t order' ∧ order'.Sublist order ∧
      ∀ (d' : Id) (n' : Nat) (ctx' : ONode) (l' r' : List ONode), (m'.of ctx').isSome = true →
        (∀ x ∈ l' ++ r', ∃ i ∈ order', x = .obj i) →
        ∃ zs, unionObjs h' d' n' ctx' l' r' m' = some (m', some zs) ∧ Arranged (order'.map .obj) (l' ++ r') zs := by
  have hg : GoUp m' (order.map .obj) := by
    have hd := elements_nodup hr ho
    have ht : h.xmlParent t = none := (rep_children hr).1
    obtain ⟨ids, hb, rfl⟩ := ho
    have key : ∀ i, Reachable h [t] i → ∀ t', topOf h n i = some t' → t' = t := by
      intro i hi t'
      obtain ⟨k, hk⟩ := (rep_reach hr hi).1
      exact topOf_unique ht k n i t' hk
    have key' : ∃ e, Reachable h [t] e ∧
        indexDocorder h d n m ctx = (topOf h n e).bind fun t => numberRest h n (descGen t) 0 (m.put t 0) := by
      cases ctx with
      | root => exact hc.elim
      | obj i => exact ⟨i, hc, rfl⟩
      | attr e => exact ⟨e, hc, rfl⟩
    obtain ⟨e, he1, he2⟩ := key'
    rw [unionObjs, hm] at hu
    simp only [Option.isSome_none, Bool.false_eq_true, if_false, he2] at hu
    cases hte : topOf h n e with
    | none => rw [hte] at hu; cases hu
    | some t' =>
      rw [hte, key e he1 t' hte] at hu
      simp only [Option.bind_some, Option.map_eq_some_iff, Prod.mk.injEq] at hu
      obtain ⟨m2, hu1, rfl, _⟩ := hu
      obtain ⟨m3, e1, _, e3, _, _⟩ := number_goUp h t ids (max n ids.length) 0 m hb hd (by omega)
      have := numberRest_more _ _ _ _ _ (max n ids.length) (by omega) hu1
      rw [e1] at this
      cases this
      exact e3
  obtain ⟨ids, hb, rfl⟩ := ho
  have htt : Reachable h [t] t := .root (by simp)
  obtain ⟨ids', b1, b2⟩ := below_shrinks (T := fun i => Reachable h [t] i) (fun i hi c hc => .child hi hc) hs hb
    (fun c hc => .child htt hc) (h'.children t) (hs t htt).1
  refine ⟨t :: ids', ⟨ids', b1, rfl⟩, b2.cons_cons t, ?_⟩
  intro d' n' ctx' l' r' hctx hx
  obtain ⟨zs, z1, z2⟩ := sort_arranged (goUp_sublist hg ((b2.cons_cons t).map ONode.obj)) (xs := l' ++ r') (by
    intro x hm
    obtain ⟨i, hi, rfl⟩ := hx x hm
    exact List.mem_map.2 ⟨i, hi, rfl⟩)
  exact ⟨zs, by rw [unionObjs, if_pos hctx]; simp [z1], z2⟩

/-- C118: at a node that has a number, nothing is numbered: if either side yields a node without one (an element added
since; a text node or an attribute at any time), the union raises AttributeError. -/
theorem C118_added_since (h : Heap) (d : Id) (n : Nat) (ctx : ONode) (l r : List ONode) (m : Numbers)
    (hc : (m.of ctx).isSome = true) (hx : ∃ x ∈ l ++ r, m.of x = none) :
    unionObjs h d n ctx l r m = some (m, none) := by
  rw [unionObjs, if_pos hc, Option.map_some, sortNumbered, mapM_unnumbered m _ hx]
  rfl

/-- No node has a number yet. -/
def Numbers.fresh : Numbers := ⟨none, fun _ => none⟩

/-- `<r><a/><a/></r>` after the first child has been removed and appended again. -/
def exMoved : Heap := ⟨3, fun i => if i = 0 then some (.elem ['r'] [] [2, 1] none)
  else if i = 1 then some (.elem ['a'] [] [] (some 0)) else if i = 2 then some (.elem ['a'] [] [] (some 0)) else none⟩

/-- The numbers of `<r><a/><a/></r>` when the first union was at `r`. -/
def exNumbers : Numbers := ((Numbers.fresh.put 0 0).put 1 1).put 2 2

theorem exPair_numbered (m : Numbers) (k : Nat) (n : Nat) :
    numberRest exPair (n + 2) (descGen 0) k m = some ((m.put 1 (k + 1)).put 2 (k + 2)) := by
  unfold numberRest
  rw [exPair_next]
  simp only
  unfold numberRest
  rw [show descNext exPair [(1, 0), (0, 1)] = some (2, [(2, 0), (0, 2)]) from by
    rw [descNext_cons]; simp only [show (exPair.children 1)[0]? = none from rfl]; rw [descNext_cons]; rfl]
  simp only
  unfold numberRest
  rw [show descNext exPair [(2, 0), (0, 2)] = none from by
    rw [descNext_cons]; simp only [show (exPair.children 2)[0]? = none from rfl]
    rw [descNext_cons]; simp only [show (exPair.children 0)[2]? = none from rfl]; rw [descNext_nil]]

/-- The first union at `r`: in document order, and the numbers are the places. -/
example : unionObjs exPair 0 2 (.obj 0) [.obj 2] [.obj 1, .obj 0] .fresh =
    some (exNumbers, some [.obj 0, .obj 1, .obj 2]) := by
  rw [unionObjs]
  simp only [indexDocorder, show topOf exPair 2 0 = some 0 from rfl, Option.bind_some, exPair_numbered]
  rfl

/-- After the first child has been removed, what is left is still yielded in document order; a fourth element, new since,
makes the same query fail. -/
example : ElementsOf exLess 0 [0, 2] ∧
    unionObjs exLess 0 0 (.obj 0) [.obj 2] [.obj 0] exNumbers = some (exNumbers, some [.obj 0, .obj 2]) ∧
    unionObjs exLess 0 0 (.obj 0) [.obj 2] [.obj 3] exNumbers = some (exNumbers, none) :=
  ⟨⟨[2], .elem (c := 2) (l := []) rfl .nil .nil, rfl⟩, rfl, rfl⟩

/-- C118 as stated is false.  An element that was moved keeps its old place: after `r` has been queried, its first child
removed and appended, `a1 | a2` yields the first of them last in the document.  And a query that numbers from an element
gives the document element the number that the root has, so that the same union at the root, of an unchanged tree,
yields the root after the document element. -/
theorem C118_full_statement_is_false :
    -- moved
    (unionObjs exPair 0 2 (.obj 0) [.obj 1] [.obj 2] .fresh = some (exNumbers, some [.obj 1, .obj 2]) ∧
      (∃ h1, exPair.xmlRemove 0 1 = .ok h1 ∧ h1.xmlAppend 0 (.node 1) = .ok exMoved) ∧ ElementsOf exMoved 0 [0, 2, 1] ∧
      unionObjs exMoved 0 2 (.obj 0) [.obj 1] [.obj 2] exNumbers = some (exNumbers, some [.obj 1, .obj 2]) ∧
      ¬ Arranged ([0, 2, 1].map ONode.obj) [.obj 1, .obj 2] [.obj 1, .obj 2]) ∧
    -- the root
    ∃ m1 m2 m3 zs,
      unionObjs exPair 0 2 .root [.obj 0] [.root] .fresh = some (m1, some [.root, .obj 0]) ∧
      unionObjs exPair 0 2 (.attr 1) [.obj 0] [.obj 1] m1 = some (m2, some zs) ∧
      unionObjs exPair 0 2 .root [.obj 0] [.root] m2 = some (m3, some [.obj 0, .root]) := by
  refine ⟨⟨?_, ?_, ?_, ?_, ?_⟩, ?_⟩
  · rw [unionObjs]
    simp only [indexDocorder, show topOf exPair 2 0 = some 0 from rfl, Option.bind_some, exPair_numbered]
    rfl
  · obtain ⟨_, _, hrem, _⟩ := C103_removal_misses
    refine ⟨exLess, hrem, ?_⟩
    simp only [Heap.xmlAppend, Heap.xmlInsert, show exLess.obj 0 = some (.elem ['r'] [] [2] none) from rfl, Heap.attach,
      show exLess.obj 1 = some (.elem ['a'] [] [] none) from rfl, if_true, Heap.setChildren]
    rw [show (exLess.set 1 (.elem ['a'] [] [] (some 0))).obj 0 = some (.elem ['r'] [] [2] none) from rfl]
    congr 1
    simp only [exMoved, Heap.set, exLess]
    congr 1
    funext j
    by_cases h0 : j = 0
    · simp [h0, Heap.children, Obj.kids]
    · by_cases h1 : j = 1
      · simp [h1]
      · simp [h0, h1]
  · refine ⟨[2, 1], ?_, rfl⟩
    rw [show exMoved.children 0 = [2, 1] from rfl]
    exact .elem (l := []) rfl .nil (.elem (l := []) rfl .nil .nil)
  · rfl
  · rintro ⟨_, h⟩
    rw [List.pairwise_cons] at h
    exact h.1 (.obj 2) (by simp) ⟨[.obj 0, .obj 2], [.obj 1], rfl, by simp, by simp⟩
  · refine ⟨(((Numbers.mk (some 0) fun _ => none).put 0 1).put 1 2).put 2 3, ((((((Numbers.mk (some 0) fun _ => none).put 0 1).put 1
      2).put 2 3).put 0 0).put 1 1).put 2 2, ((((((Numbers.mk (some 0) fun _ => none).put 0 1).put 1 2).put 2 3).put 0 0).put 1
      1).put 2 2, [.obj 0, .obj 1], ?_, ?_, ?_⟩
    · rw [unionObjs]
      simp only [indexDocorder, exPair_numbered]
      rfl
    · rw [unionObjs]
      simp only [indexDocorder, show topOf exPair 2 1 = some 0 from rfl, Option.bind_some, exPair_numbered]
      rfl
    · rfl

end Amara
