import Verif.Spec.Edit
import Verif.Props.Html5
import Verif.Lemmas.XLive
/-
Lemmas for C140: trees in memory that are changed at one place.
-/
namespace Amara

/-! ### positions in a tree in memory -/

theorem repList_iff {h : Heap} {par : Id} : ∀ (ts : List Node) (cs : List Id), RepList h par cs ts ↔
    cs.length = ts.length ∧ ∀ (j : Nat) c t, cs[j]? = some c → ts[j]? = some t → Rep h (some par) c t := by
  intro ts
  induction ts with
  | nil =>
    intro cs
    simp only [RepList]
    constructor
    · rintro rfl; exact ⟨rfl, by intro j c t h; cases h⟩
    · rintro ⟨h, _⟩; exact List.eq_nil_of_length_eq_zero h
  | cons t ts ih =>
    intro cs
    simp only [RepList]
    constructor
    · rintro ⟨c, r, rfl, h1, h2⟩
      obtain ⟨h3, h4⟩ := (ih r).1 h2
      refine ⟨by simp [h3], ?_⟩
      intro j c' t' hc ht
      cases j with
      | zero => simp only [List.getElem?_cons_zero, Option.some.injEq] at hc ht; subst hc; subst ht; exact h1
      | succ j => exact h4 j c' t' hc ht
    · rintro ⟨h1, h2⟩
      cases cs with
      | nil => simp at h1
      | cons c r =>
        refine ⟨c, r, rfl, h2 0 c t rfl rfl, (ih r).2 ⟨by simpa using h1, fun j c' t' hc ht => h2 (j + 1) c' t' hc ht⟩⟩

theorem reach_trans {h : Heap} {i j k : Id} (h1 : Reachable h [i] j) (h2 : Reachable h [j] k) : Reachable h [i] k := by
  induction h2 with
  | root hm => rw [List.mem_singleton.1 hm]; exact h1
  | child _ hm ih => exact .child ih hm

theorem reach_self (h : Heap) (i : Id) : Reachable h [i] i := .root (List.mem_singleton.2 rfl)

theorem reach_up {h : Heap} {q : Option Id} {i : Id} {t : Node} (hr : Rep h q i t) {x : Id} (hx : Reachable h [i] x) :
    ∃ k, upTimes h k x = some i := by
  induction hx with
  | root hm => rw [List.mem_singleton.1 hm]; exact ⟨0, rfl⟩
  | @child j c hj hc ih =>
    obtain ⟨k, hk⟩ := ih
    exact ⟨k + 1, by rw [upTimes, (rep_kids hr hj).2 c hc]; exact hk⟩

/-- Two trees have a node in common only if they are the same. -/
theorem same_top {h : Heap} {r d : Id} {t u : Node} (hr : Rep h none r t) (hd : Rep h none d u) {x : Id}
    (h1 : Reachable h [r] x) (h2 : Reachable h [d] x) : r = d := by
  obtain ⟨a, ha⟩ := reach_up hr h1
  obtain ⟨b, hb⟩ := reach_up hd h2
  have pr := rep_parent hr
  have pd := rep_parent hd
  rcases Nat.lt_trichotomy a b with hab | rfl | hab
  · obtain ⟨c, rfl⟩ : ∃ c, b = a + (c + 1) := ⟨b - a - 1, by omega⟩
    rw [upTimes_add h a _ x r ha, upTimes, pr] at hb
    cases hb
  · rw [ha] at hb; exact Option.some.inj hb
  · obtain ⟨c, rfl⟩ : ∃ c, a = b + (c + 1) := ⟨a - b - 1, by omega⟩
    rw [upTimes_add h b _ x d hb, upTimes, pd] at ha
    cases ha

theorem sub_rep {h : Heap} {r i : Id} {t : Node} (hr : Rep h none r t) (hi : Reachable h [r] i) : ∃ q u, Rep h q i u :=
  below_rep hr hi

/-- Nothing is below itself. -/
theorem no_cycle {h : Heap} {r e c : Id} {t : Node} (hr : Rep h none r t) (he : Reachable h [r] e)
    (hc : c ∈ h.children e) : ¬ Reachable h [c] e := by
  intro hce
  obtain ⟨q, u, hu⟩ := below_rep hr (Reachable.child he hc)
  obtain ⟨k, hk⟩ := reach_up hu hce
  obtain ⟨a, ha⟩ := reach_up hr he
  have hp := (rep_kids hr he).2 c hc
  have h1 : upTimes h (k + (1 + a)) e = some r := by
    rw [upTimes_add h k _ e c hk, show 1 + a = a + 1 by omega, upTimes, hp]
    exact ha
  have := upTimes_unique (rep_parent hr) _ _ _ h1 ha
  omega

/-- What is below one child is not below another. -/
theorem one_child {h : Heap} {r i c c' x : Id} {t : Node} (hr : Rep h none r t) (hi : Reachable h [r] i)
    (hc : c ∈ h.children i) (hc' : c' ∈ h.children i) (hx : Reachable h [c] x) (hx' : Reachable h [c'] x) : c = c' := by
  obtain ⟨q, u, hu⟩ := below_rep hr (Reachable.child hi hc)
  obtain ⟨q', u', hu'⟩ := below_rep hr (Reachable.child hi hc')
  obtain ⟨a, ha⟩ := reach_up hu hx
  obtain ⟨b, hb⟩ := reach_up hu' hx'
  obtain ⟨m, hm⟩ := reach_up hr hi
  have e1 : upTimes h (a + (m + 1)) x = some r := by
    rw [upTimes_add h a _ x c ha, upTimes, (rep_kids hr hi).2 c hc]; exact hm
  have e2 : upTimes h (b + (m + 1)) x = some r := by
    rw [upTimes_add h b _ x c' hb, upTimes, (rep_kids hr hi).2 c' hc']; exact hm
  have := upTimes_unique (rep_parent hr) _ _ _ e1 e2
  have hab : a = b := by omega
  subst hab
  rw [ha] at hb
  exact Option.some.inj hb

theorem elem_children {h : Heap} {i : Id} {n as cs q} (ho : h.obj i = some (.elem n as cs q)) : h.children i = cs := by
  simp [Heap.children, ho, Obj.kids]

theorem rep_elem_iff {h : Heap} {p : Option Id} {i : Id} {n as ts} : Rep h p i (.elem n as ts) ↔
    ∃ cs q, h.obj i = some (.elem n as cs q) ∧ h.xmlParent i = p ∧ cs.Nodup ∧ RepList h i cs ts := by
  simp only [Rep]

/-- The object at a position is the tree at that position. -/
theorem locate_rep {h : Heap} : ∀ (p : Path) {i e : Id} {q : Option Id} {t : Node}, Rep h q i t → h.locate i p = some e →
    ∃ s, t.at? p = some s ∧ Rep h (h.xmlParent e) e s ∧ Reachable h [i] e := by
  intro p
  induction p with
  | nil =>
    intro i e q t hr hl
    cases hl
    exact ⟨t, rfl, by rw [rep_parent hr]; exact hr, reach_self _ _⟩
  | cons k p ih =>
    intro i e q t hr hl
    simp only [Heap.locate] at hl
    cases hk : (h.children i)[k]? with
    | none => rw [hk] at hl; cases hl
    | some c =>
      rw [hk] at hl
      cases t with
      | text s =>
        obtain ⟨_, ho, _⟩ := hr
        simp [Heap.children, ho, Obj.kids] at hk
      | elem n as ts =>
        obtain ⟨cs, l, ho, h2, h3, h4⟩ := hr
        rw [elem_children ho] at hk
        obtain ⟨hlen, hall⟩ := (repList_iff ts cs).1 h4
        have hlt : k < cs.length := (List.getElem?_eq_some_iff.1 hk).1
        have htk : ts[k]? = some (ts[k]'(hlen ▸ hlt)) := List.getElem?_eq_getElem _
        obtain ⟨s, hs, hrs, hre⟩ := ih (hall k c _ hk htk) hl
        refine ⟨s, ?_, hrs, ?_⟩
        · simp only [Node.at?, Node.xmlChildren, htk]; exact hs
        · refine reach_trans (.child (reach_self _ _) ?_) hre
          rw [elem_children ho]
          exact List.mem_of_getElem? hk

/-- And the other way round: where the tree has a node, there is an object. -/
theorem rep_locate {h : Heap} : ∀ (p : Path) {i : Id} {q : Option Id} {t s : Node}, Rep h q i t → t.at? p = some s →
    ∃ e, h.locate i p = some e := by
  intro p
  induction p with
  | nil => intro i q t s _ _; exact ⟨i, rfl⟩
  | cons k p ih =>
    intro i q t s hr hs
    cases t with
    | text x => simp [Node.at?, Node.xmlChildren] at hs
    | elem n as ts =>
      obtain ⟨cs, l, ho, h2, h3, h4⟩ := hr
      obtain ⟨hlen, hall⟩ := (repList_iff ts cs).1 h4
      simp only [Node.at?, Node.xmlChildren] at hs
      cases hk : ts[k]? with
      | none => rw [hk] at hs; cases hs
      | some u =>
        rw [hk] at hs
        have hlt : k < ts.length := (List.getElem?_eq_some_iff.1 hk).1
        have hck : cs[k]? = some (cs[k]'(hlen ▸ hlt)) := List.getElem?_eq_getElem _
        obtain ⟨e, he⟩ := ih (hall k _ u hck hk) hs
        refine ⟨e, ?_⟩
        simp only [Heap.locate, elem_children ho, hck]
        exact he

theorem locate_snoc {h : Heap} {k : Nat} : ∀ (p : Path) {i e c : Id}, h.locate i p = some e →
    h.locate i (p ++ [k]) = some c → (h.children e)[k]? = some c := by
  intro p
  induction p with
  | nil =>
    intro i e c h1 h2
    cases h1
    simp only [List.nil_append, Heap.locate] at h2
    cases hk : (h.children i)[k]? with
    | none => rw [hk] at h2; cases h2
    | some d => rw [hk] at h2; exact h2
  | cons j p ih =>
    intro i e c h1 h2
    simp only [List.cons_append, Heap.locate] at h1 h2
    cases hk : (h.children i)[j]? with
    | none => rw [hk] at h1; cases h1
    | some d => rw [hk] at h1 h2; exact ih h1 h2

theorem at_snoc {k : Nat} : ∀ (p : Path) {t s : Node}, t.at? p = some s → t.at? (p ++ [k]) = s.xmlChildren[k]? := by
  intro p
  induction p with
  | nil =>
    intro t s h
    cases h
    simp only [List.nil_append, Node.at?]
    cases t.xmlChildren[k]? <;> rfl
  | cons j p ih =>
    intro t s h
    simp only [List.cons_append, Node.at?] at h ⊢
    cases hj : t.xmlChildren[j]? with
    | none => rw [hj] at h; cases h
    | some u => rw [hj] at h; exact ih h

/-! ### changes of memory at a few objects -/

/-- Nothing but the objects in `S` and new ones differ. -/
structure Touches (h h' : Heap) (S : Id → Prop) : Prop where
  next : h.next ≤ h'.next
  alive : ∀ i, i < h.next → (h'.obj i).isSome = (h.obj i).isSome
  same : ∀ k, ¬ S k → k < h.next → h'.obj k = h.obj k

theorem parent_same {h h' : Heap} (hb : Bounded h) {S} (ht : Touches h h' S) {k : Id}
    (hk : (h'.obj k).bind Obj.link = (h.obj k).bind Obj.link) : h'.xmlParent k = h.xmlParent k := by
  simp only [Heap.xmlParent, hk]
  cases hl : (h.obj k).bind Obj.link with
  | none => rfl
  | some p =>
    simp only [Heap.deref]
    obtain ⟨o, ho, hp⟩ := Option.bind_eq_some_iff.1 hl
    rw [ht.alive p ((hb k o ho).2 p hp)]

theorem rep_alive' {h : Heap} (hb : Bounded h) {q : Option Id} {j : Id} {t : Node} (hr : Rep h q j t) {k : Id}
    (hk : Reachable h [j] k) : k < h.next := by
  obtain ⟨q', u, hu⟩ := below_rep hr hk
  obtain ⟨o, ho⟩ := rep_alive hu
  exact (hb k o ho).1

/-- A tree none of whose nodes is touched. -/
theorem touches_rep {h h' : Heap} (hb : Bounded h) {S} (ht : Touches h h' S) {q : Option Id} {j : Id} {t : Node}
    (hr : Rep h q j t) (hn : ∀ k, Reachable h [j] k → ¬ S k) : Rep h' q j t := by
  refine rep_frame.1 t q j hr fun k hk => ?_
  have ho := ht.same k (hn k hk) (rep_alive' hb hr hk)
  exact ⟨ho, parent_same hb ht (by rw [ho])⟩

/-- A tree that is touched at one place only, where it becomes what `f` says. -/
theorem rep_change {h h' : Heap} (hb : Bounded h) {S} (ht : Touches h h' S) {r e : Id} {T : Node} (hr : Rep h none r T)
    (f : Node → Node) (hS : ∀ k, S k → Reachable h [r] k → Reachable h [e] k) : ∀ (p : Path) {i : Id} {q : Option Id} {t : Node},
    Reachable h [r] i → Rep h q i t → h.locate i p = some e →
    (∀ s, t.at? p = some s → Rep h' (h.xmlParent e) e (f s)) → Rep h' q i (t.change f p) := by
  intro p
  induction p with
  | nil =>
    intro i q t hi hit hl hf
    cases hl
    have := hf t rfl
    rw [rep_parent hit] at this
    exact this
  | cons k p ih =>
    intro i q t hi hit hl hf
    obtain ⟨s, hs, hrs, hre⟩ := locate_rep (k :: p) hit hl
    simp only [Heap.locate] at hl
    cases hk : (h.children i)[k]? with
    | none => rw [hk] at hl; cases hl
    | some c =>
      rw [hk] at hl
      have hci : c ∈ h.children i := List.mem_of_getElem? hk
      cases t with
      | text s =>
        obtain ⟨_, ho, _⟩ := hit
        simp [Heap.children, ho, Obj.kids] at hk
      | elem n as ts =>
        obtain ⟨cs, l, ho, h2, h3, h4⟩ := rep_elem_iff.1 hit
        have hcs := elem_children ho
        rw [hcs] at hk
        obtain ⟨hlen, hall⟩ := (repList_iff ts cs).1 h4
        have hlt : k < cs.length := (List.getElem?_eq_some_iff.1 hk).1
        have htk : ts[k]? = some (ts[k]'(hlen ▸ hlt)) := List.getElem?_eq_getElem _
        have hrc := hall k c _ hk htk
        obtain ⟨_, _, _, hce⟩ := locate_rep p hrc hl
        have hni : ¬ S i := fun hSi => no_cycle hr hi hci (reach_trans hce (hS i hSi hi))
        have hoi := ht.same i hni (rep_alive' hb hr hi)
        refine rep_elem_iff.2 ⟨cs, l, by rw [hoi, ho], by rw [parent_same hb ht (by rw [hoi]), h2], h3, ?_⟩
        refine (repList_iff _ _).2 ⟨by simp [hlen], ?_⟩
        intro j c' t' hc' ht'
        rw [List.getElem?_modify] at ht'
        by_cases hjk : k = j
        · subst hjk
          rw [hk] at hc'
          cases hc'
          rw [htk] at ht'
          simp only [if_true, Option.map_eq_map, Option.map_some, Option.some.injEq] at ht'
          subst ht'
          refine ih (.child hi hci) hrc hl ?_
          intro s' hs'
          apply hf
          simp only [Node.at?, Node.xmlChildren, htk]
          exact hs'
        · simp only [if_neg hjk, Option.map_eq_map, Option.map_id'] at ht'
          have hc'i : c' ∈ h.children i := by rw [hcs]; exact List.mem_of_getElem? hc'
          refine touches_rep hb ht (hall j c' t' hc' ht') ?_
          intro x hx hSx
          have hxr : Reachable h [r] x := reach_trans (.child hi hc'i) hx
          have := one_child hr hi hci hc'i (reach_trans hce (hS x hSx hxr)) hx
          subst this
          exact hjk ((List.getElem?_inj hlt h3).1 (hk.trans hc'.symm))

end Amara
