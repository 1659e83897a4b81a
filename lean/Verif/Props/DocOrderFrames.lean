import Verif.Lemmas.DocOrderFrames
import Verif.Props.DocOrder
/-
C149: a union that fails at Python's limit on nested calls, and unions after it.
-/
namespace Amara

/-- C149: if the tree is not too deep, the union yields what it finds in document order. -/
theorem C149_enough_room {h : Heap} {t : Id} {tree : Node} (hr : Rep h none t tree) {order : List Id} (ho : ElementsOf h t order) {room : Nat}
    (h0 : 0 < room) (hd : ∀ i ∈ order, ¬ Deep h t room i) (d : Id) (m : Numbers) {ctx : ONode} (hc : Within h t ctx) (hm : m.of ctx = none)
    (l r : List ONode) (hl : ∀ x ∈ l ++ r, ∃ i ∈ order, x = .obj i) :
    ∃ N, ∀ n, N ≤ n → ∃ m' zs, unionObjsK h d room n ctx l r m = some (m', .nodes zs) ∧ Arranged (order.map .obj) (l ++ r) zs ∧
      GoUp m' (order.map .obj) := by
  obtain ⟨N, hN⟩ := indexK hr d m room hc
  refine ⟨max N order.length, fun n hn => ?_⟩
  obtain ⟨m', e1, e2, e3, e4, _⟩ := numbersK_goUp hr (u := order) (v := []) (by simpa using ho) h0 ⟨hd, by simp⟩ m n 0 (by simp; omega)
  rw [List.take_nil, List.append_nil] at e3
  obtain ⟨zs, z1, z2⟩ := sort_arranged e3 (xs := l ++ r) (by
    intro x hx
    obtain ⟨i, hi, rfl⟩ := hl x hx
    exact List.mem_map.2 ⟨i, hi, rfl⟩)
  refine ⟨m', zs, ?_, z2, e3⟩
  rw [unionObjsK, hm, hN n (by omega), e1]
  simp [z1]

/-- C149: if there is an element that is too deep, `x` being the first, RecursionError is raised; the elements up to `x`
have numbers now, which go up in document order, and the others have what they had. -/
theorem C149_too_deep {h : Heap} {t : Id} {tree : Node} (hr : Rep h none t tree) {u v : List Id} {x : Id} (ho : ElementsOf h t (u ++ x :: v))
    {room : Nat} (h0 : 0 < room) (hu : ∀ i ∈ u, ¬ Deep h t room i) (hx : Deep h t room x) (d : Id) (m : Numbers) {ctx : ONode}
    (hc : Within h t ctx) (hm : m.of ctx = none) (l r : List ONode) :
    ∃ N, ∀ n, N ≤ n → ∃ m', unionObjsK h d room n ctx l r m = some (m', .recursionError) ∧ GoUp m' ((u ++ [x]).map .obj) ∧
      m'.root = m.root ∧ ∀ i, i ∉ u ++ [x] → m'.obj i = m.obj i := by
  obtain ⟨N, hN⟩ := indexK hr d m room hc
  refine ⟨max N (u ++ x :: v).length, fun n hn => ?_⟩
  obtain ⟨m', e1, e2, e3, e4, _⟩ := numbersK_goUp hr (u := u) (v := x :: v) ho h0
    ⟨hu, by simp only [List.head?_cons, Option.some.injEq]; rintro _ rfl; exact hx⟩ m n 0 (by omega)
  refine ⟨m', ?_, e3, e2, e4⟩
  rw [unionObjsK, hm, hN n (by omega), e1]
  simp

/-- C149, at the root: there `descendants` is called once more, so that there must be room for one call more. -/
theorem C149_root_enough_room {h : Heap} {t : Id} {tree : Node} (hr : Rep h none t tree) {order : List Id} (ho : ElementsOf h t order) {room : Nat}
    (h0 : 0 < room) (hd : ∀ i ∈ order, ¬ Deep h t room i) (m : Numbers) (hm : m.root = none)
    (l r : List ONode) (hl : ∀ x ∈ l ++ r, x = .root ∨ ∃ i ∈ order, x = .obj i) {n : Nat} (hn : order.length ≤ n) :
    ∃ m' zs, unionObjsK h t (room + 1) n .root l r m = some (m', .nodes zs) ∧ Arranged (.root :: order.map .obj) (l ++ r) zs ∧
      GoUp m' (.root :: order.map .obj) := by
  obtain ⟨m', e1, e2, e3, _, e5⟩ := numbersK_goUp hr (u := order) (v := []) (by simpa using ho) h0 ⟨hd, by simp⟩ ⟨some 0, m.obj⟩ n 1 (by simpa using hn)
  rw [List.take_nil, List.append_nil] at e3 e5
  have e6 := goUp_root e2 e3 e5
  obtain ⟨zs, z1, z2⟩ := sort_arranged e6 (xs := l ++ r) (by
    intro x hx
    rcases hl x hx with rfl | ⟨i, hi, rfl⟩
    · simp
    · exact List.mem_cons_of_mem _ (List.mem_map.2 ⟨i, hi, rfl⟩))
  refine ⟨m', zs, ?_, z2, e6⟩
  rw [unionObjsK, show m.of .root = none from hm]
  simp only [Option.isSome_none, Bool.false_eq_true, if_false, indexDocorderK, Nat.add_one_ne_zero, Nat.add_sub_cancel]
  rw [e1]
  simp [z1]

/-- C149, at the root: RecursionError if an element is too deep; the root and the elements up to the first one have numbers
now. -/
theorem C149_root_too_deep {h : Heap} {t : Id} {tree : Node} (hr : Rep h none t tree) {u v : List Id} {x : Id} (ho : ElementsOf h t (u ++ x :: v))
    {room : Nat} (h0 : 0 < room) (hu : ∀ i ∈ u, ¬ Deep h t room i) (hx : Deep h t room x) (m : Numbers) (hm : m.root = none)
    (l r : List ONode) {n : Nat} (hn : (u ++ x :: v).length ≤ n) :
    ∃ m', unionObjsK h t (room + 1) n .root l r m = some (m', .recursionError) ∧ GoUp m' (.root :: (u ++ [x]).map .obj) ∧
      ∀ i, i ∉ u ++ [x] → m'.obj i = m.obj i := by
  obtain ⟨m', e1, e2, e3, e4, e5⟩ := numbersK_goUp hr (u := u) (v := x :: v) ho h0
    ⟨hu, by simp only [List.head?_cons, Option.some.injEq]; rintro _ rfl; exact hx⟩ ⟨some 0, m.obj⟩ n 1 hn
  refine ⟨m', ?_, goUp_root e2 e3 e5, e4⟩
  rw [unionObjsK, show m.of .root = none from hm]
  simp only [Option.isSome_none, Bool.false_eq_true, if_false, indexDocorderK, Nat.add_one_ne_zero, Nat.add_sub_cancel]
  rw [e1]
  simp

/-- C149, at the root with no room at all: RecursionError, and only the root has a number now. -/
theorem C149_root_no_room (h : Heap) (t : Id) (n : Nat) (m : Numbers) (hm : m.root = none) (l r : List ONode) :
    unionObjsK h t 0 n .root l r m = some (⟨some 0, m.obj⟩, .recursionError) := by
  rw [unionObjsK, show m.of .root = none from hm]
  rfl

/-- C149, afterwards: a union at a node that has a number numbers nothing, however much room there is.  If all that it finds
has numbers, it yields that in document order; if it finds an element after `x`, it raises AttributeError. -/
theorem C149_afterwards {m : Numbers} {u v : List Id} {x : Id} (hnd : (u ++ x :: v).Nodup) (hg : GoUp m ((u ++ [x]).map .obj)) (hv : ∀ i ∈ v, m.obj i = none)
    (h : Heap) (d : Id) (room n : Nat) {ctx : ONode} (hc : (m.of ctx).isSome = true) (l r : List ONode) :
    ((∀ y ∈ l ++ r, ∃ i ∈ u ++ [x], y = .obj i) →
      ∃ zs, unionObjsK h d room n ctx l r m = some (m, .nodes zs) ∧ Arranged ((u ++ x :: v).map .obj) (l ++ r) zs) ∧
    ((∃ i ∈ v, .obj i ∈ l ++ r) → unionObjsK h d room n ctx l r m = some (m, .attributeError)) := by
  constructor
  · intro hin
    obtain ⟨zs, z1, z2, z3⟩ := sort_arranged hg (xs := l ++ r) (by
      intro y hy
      obtain ⟨i, hi, rfl⟩ := hin y hy
      exact List.mem_map.2 ⟨i, hi, rfl⟩)
    refine ⟨zs, ?_, z2, ?_⟩
    · rw [unionObjsK, if_pos hc]; simp [z1]
    · refine z3.imp_of_mem ?_
      intro a b ha hb hn hbef
      refine hn ?_
      have hmem : ∀ y ∈ zs, y ∈ (u ++ [x]).map ONode.obj := by
        intro y hy
        obtain ⟨i, hi, rfl⟩ := hin y (z2.mem_iff.1 hy)
        exact List.mem_map.2 ⟨i, hi, rfl⟩
      obtain ⟨p, q, hpq, hbp, haq⟩ := hbef
      have hnd' : ((u ++ [x]).map ONode.obj ++ v.map ONode.obj).Nodup := by
        rw [← List.map_append, List.append_assoc, List.singleton_append]
        exact List.pairwise_map.2 (hnd.imp fun hne he => hne (ONode.obj.inj he))
      rw [show (u ++ x :: v).map ONode.obj = (u ++ [x]).map .obj ++ v.map .obj by simp] at hpq
      rcases List.append_eq_append_iff.1 hpq with ⟨w, h1, h2⟩ | ⟨w, h1, h2⟩
      · exact absurd rfl ((List.nodup_append.1 hnd').2.2 a (hmem a ha) a (by rw [h2]; simp [haq]))
      · refine ⟨p, w, h1, hbp, ?_⟩
        rw [h2] at haq
        rcases List.mem_append.1 haq with h3 | h3
        · exact h3
        · exact absurd rfl ((List.nodup_append.1 hnd').2.2 a (hmem a ha) a h3)
  · rintro ⟨i, hi, hm⟩
    rw [unionObjsK, if_pos hc]
    simp only [Option.map_some, Bool.false_eq_true, if_false]
    rw [sortNumbered, mapM_unnumbered m _ ⟨_, hm, hv i hi⟩]
    rfl

/-! ### `<r><a/><a/></r>`, with room for one call -/

theorem exPair_K (m : Numbers) (k n : Nat) :
    numberRestK exPair 1 (n + 2) (descGen 0) k m = some (m.put 1 (k + 1), true) := by
  unfold numberRestK
  rw [if_neg (by decide), exPair_next]
  simp only
  unfold numberRestK
  rw [if_pos (by decide)]

/-- RecursionError; `r` and the first `a` have numbers. -/
theorem exPair_fails : unionObjsK exPair 0 1 2 (.obj 0) [.obj 2] [.obj 1] .fresh =
    some ((Numbers.fresh.put 0 0).put 1 1, .recursionError) := by
  rw [unionObjsK]
  simp only [indexDocorderK, show topOf exPair 2 0 = some 0 from rfl, Option.bind_some, exPair_K]
  rfl

/-- The first `a` is the first element that is too deep. -/
example : ElementsOf exPair 0 ([0] ++ 1 :: [2]) ∧ ¬ Deep exPair 0 1 0 ∧ Deep exPair 0 1 1 := by
  refine ⟨⟨[1, 2], .elem (h := exPair) (c := 1) (l := []) (l' := [2]) rfl .nil (.elem (c := 2) (l := []) (l' := []) rfl .nil .nil), rfl⟩, ?_, ⟨1, Nat.le_refl _, rfl⟩⟩
  rintro ⟨j, hj, h⟩
  cases j with
  | zero => cases hj
  | succ j => rw [upTimes] at h; cases h

/-- C149: a union that failed for want of room goes on failing with room for a thousand calls, and with the same query in a
tree that was never asked it is answered. -/
theorem C149_fails_for_good : ∃ m,
    unionObjsK exPair 0 1 2 (.obj 0) [.obj 2] [.obj 1] .fresh = some (m, .recursionError) ∧
    (∀ room n, unionObjsK exPair 0 room n (.obj 0) [.obj 2] [.obj 1] m = some (m, .attributeError)) ∧
    ∃ m', unionObjsK exPair 0 1000 2 (.obj 0) [.obj 2] [.obj 1] .fresh = some (m', .nodes [.obj 1, .obj 2]) := by
  refine ⟨_, exPair_fails, fun _ _ => rfl, exNumbers, ?_⟩
  rw [unionObjsK]
  simp only [indexDocorderK, show topOf exPair 2 0 = some 0 from rfl, Option.bind_some]
  unfold numberRestK
  rw [if_neg (by decide), exPair_next]
  simp only
  unfold numberRestK
  rw [if_neg (by decide), show descNext exPair [(1, 0), (0, 1)] = some (2, [(2, 0), (0, 2)]) from by
    rw [descNext_cons]; simp only [show (exPair.children 1)[0]? = none from rfl]; rw [descNext_cons]; rfl]
  simp only
  unfold numberRestK
  rw [if_neg (by decide), show descNext exPair [(2, 0), (0, 2)] = none from by
    rw [descNext_cons]; simp only [show (exPair.children 2)[0]? = none from rfl]
    rw [descNext_cons]; simp only [show (exPair.children 0)[2]? = none from rfl]; rw [descNext_nil]]
  rfl

end Amara
