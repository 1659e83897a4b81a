import Verif.Spec.Grow
import Verif.Props.Mark
import Verif.Props.Move
/-
C179: adding a child to everything a query with tests finds.
-/
namespace Amara
variable {F : Type}

/-! ### trees -/

theorem growList_get {u : Addition} {ps : List Path} {here : Path} : ∀ (ts : List Node) (k j : Nat),
    (Node.growList u ps here k ts)[j]? = (ts[j]?).map fun t => t.growAt u ps (here ++ [k + j])
  | [], _, _ => by simp [Node.growList]
  | t :: ts, k, 0 => by simp [Node.growList]
  | t :: ts, k, j + 1 => by
    rw [Node.growList, List.getElem?_cons_succ, growList_get ts (k + 1) j, List.getElem?_cons_succ]
    rw [show k + 1 + j = k + (j + 1) by omega]

theorem growList_length {u : Addition} {ps : List Path} {here : Path} : ∀ (ts : List Node) (k : Nat), (Node.growList u ps here k ts).length = ts.length
  | [], _ => rfl
  | t :: ts, k => by rw [Node.growList, List.length_cons, growList_length ts (k + 1), List.length_cons]

theorem grow_apart {u : Addition} {p : Path} {ps : List Path} :
    (∀ (x : Node) (here : Path), (∀ r, p ≠ here ++ r) → x.growAt u (p :: ps) here = x.growAt u ps here) ∧
    (∀ (ts : List Node) (here : Path) (k : Nat), (∀ j r, k ≤ j → p ≠ here ++ j :: r) → Node.growList u (p :: ps) here k ts = Node.growList u ps here k ts) := by
  apply Node.induct
  case elem =>
    intro n as cs ih here h
    have h1 : here ≠ p := fun e => h [] (by simp [e])
    rw [Node.growAt, Node.growAt, ih here 0 fun j r _ => h (j :: r)]
    simp [h1]
  case text => intro s here _; rfl
  case nil => intro here k _; rfl
  case cons =>
    intro t ts iht ihts here k h
    rw [Node.growList, Node.growList, iht (here ++ [k]) fun r => by
      have := h k r (Nat.le_refl _)
      simpa using this, ihts here (k + 1) fun j r hj => h j r (by omega)]

theorem grow_step {u : Addition} {ps : List Path} : ∀ (r here : Path) {x : Node}, x.ElemAt r → here ++ r ∉ ps →
    x.growAt u ((here ++ r) :: ps) here = (x.growAt u ps here).change (Node.insertChild (-1) u.node) r
  | [], here, x, hx, hn => by
    obtain ⟨n, as, cs, h⟩ := hx
    cases h
    rw [List.append_nil] at hn ⊢
    rw [Node.growAt, Node.growAt, grow_apart.2 cs here 0 fun j r _ e => by simpa using congrArg List.length e]
    simp [hn, Node.change, Node.insertChild, insertPos]
  | k :: r, here, .text s, hx, hn => by obtain ⟨_, _, _, h⟩ := hx; simp [Node.at?, Node.xmlChildren] at h
  | k :: r, here, .elem n as cs, hx, hn => by
    have hne : here ≠ here ++ k :: r := fun e => by simpa using congrArg List.length e
    obtain ⟨m, bs, ds, h⟩ := hx
    simp only [Node.at?, Node.xmlChildren] at h
    have hk : k < cs.length := by
      by_cases hk : k < cs.length
      · exact hk
      · rw [List.getElem?_eq_none (by omega)] at h; cases h
    rw [List.getElem?_eq_getElem hk] at h
    have ih := grow_step (u := u) r (here ++ [k]) (x := cs[k]) ⟨m, bs, ds, h⟩ (by simpa using hn)
    rw [Node.growAt, Node.growAt, Node.change]
    congr 1
    apply List.ext_getElem?
    intro j
    have hif : (if here ∈ (here ++ k :: r) :: ps then [u.node] else []) = if here ∈ ps then [u.node] else [] := by simp [hne]
    rw [hif, List.getElem?_modify]
    by_cases hj : j < cs.length
    · rw [List.getElem?_append_left (by rw [growList_length]; exact hj), List.getElem?_append_left (by rw [growList_length]; exact hj),
        growList_get, growList_get, List.getElem?_eq_getElem hj]
      by_cases hjk : k = j
      · subst hjk
        simp only [Option.map_some, if_true, Nat.zero_add, Option.map_eq_map, Option.some.injEq]
        rw [← ih]
        simp
      · simp only [Option.map_some, if_neg hjk, Nat.zero_add, Option.map_eq_map, Option.some.injEq]
        rw [grow_apart.1]
        intro r' e
        simp at e
        exact hjk e.1
    · have hkj : k ≠ j := by omega
      rw [List.getElem?_append_right (by rw [growList_length]; omega), List.getElem?_append_right (by rw [growList_length]; omega),
        growList_length, growList_length]
      simp [hkj]

theorem grow_none {u : Addition} : (∀ (x : Node) (here : Path), x.growAt u [] here = x) ∧
    (∀ (ts : List Node) (here : Path) (k : Nat), Node.growList u [] here k ts = ts) := by
  apply Node.induct
  case elem => intro n as cs ih here; rw [Node.growAt, ih]; simp
  case text => intro s here; rfl
  case nil => intro here k; rfl
  case cons => intro t ts h1 h2 here k; rw [Node.growList, h1, h2]

theorem grow_same {u : Addition} {ps qs : List Path} (h : ∀ q, q ∈ ps ↔ q ∈ qs) : (∀ (x : Node) (here : Path), x.growAt u ps here = x.growAt u qs here) ∧
    (∀ (ts : List Node) (here : Path) (k : Nat), Node.growList u ps here k ts = Node.growList u qs here k ts) := by
  apply Node.induct
  case elem => intro n as cs ih here; rw [Node.growAt, Node.growAt, ih]; simp only [h]
  case text => intro s here; rfl
  case nil => intro here k; rfl
  case cons => intro t ts h1 h2 here k; rw [Node.growList, Node.growList, h1, h2]

/-- The nodes there were are where they were. -/
theorem grow_keeps {u : Addition} {ps : List Path} : ∀ (q here : Path) {x z : Node}, x.at? q = some z → (x.growAt u ps here).at? q = some (z.growAt u ps (here ++ q))
  | [], here, x, z, h => by cases h; rw [List.append_nil]; rfl
  | k :: q, here, .text s, z, h => by simp [Node.at?, Node.xmlChildren] at h
  | k :: q, here, .elem n as cs, z, h => by
    simp only [Node.at?, Node.xmlChildren] at h
    cases hc : cs[k]? with
    | none => rw [hc] at h; cases h
    | some c =>
      rw [hc] at h
      have hk := (List.getElem?_eq_some_iff.1 hc).1
      rw [Node.growAt]
      simp only [Node.at?, Node.xmlChildren]
      rw [List.getElem?_append_left (by rw [growList_length]; exact hk), growList_get, hc]
      have := grow_keeps (u := u) (ps := ps) q (here ++ [k]) h
      simpa using this

theorem add_leaf (u : Addition) : u.node.xmlChildren = [] := by cases u <;> rfl

/-- The others are those added, each the last child of one of the elements. -/
theorem grow_from {u : Addition} {ps : List Path} : ∀ (q here : Path) {x y : Node}, (x.growAt u ps here).at? q = some y →
    (∃ z, x.at? q = some z ∧ y = z.growAt u ps (here ++ q)) ∨
    (x.at? q = none ∧ y = u.node ∧ ∃ p n as cs, here ++ p ∈ ps ∧ x.at? p = some (.elem n as cs) ∧ q = p ++ [cs.length])
  | [], here, x, y, h => by cases h; exact .inl ⟨x, rfl, by rw [List.append_nil]⟩
  | k :: q, here, .text s, y, h => by simp [Node.growAt, Node.at?, Node.xmlChildren] at h
  | k :: q, here, .elem n as cs, y, h => by
    rw [Node.growAt] at h
    simp only [Node.at?, Node.xmlChildren] at h ⊢
    by_cases hk : k < cs.length
    · rw [List.getElem?_append_left (by rw [growList_length]; exact hk), growList_get, List.getElem?_eq_getElem hk] at h
      rw [List.getElem?_eq_getElem hk]
      simp only [Option.map_some, Nat.zero_add] at h
      rcases grow_from q (here ++ [k]) h with ⟨z, h1, h2⟩ | ⟨h1, h2, p, m, bs, ds, h3, h4, h5⟩
      · exact .inl ⟨z, h1, by simpa using h2⟩
      · refine .inr ⟨h1, h2, k :: p, m, bs, ds, by simpa using h3, ?_, by simp [h5]⟩
        simp only [Node.at?, Node.xmlChildren]
        rw [List.getElem?_eq_getElem hk]
        exact h4
    · rw [List.getElem?_append_right (by rw [growList_length]; omega), growList_length] at h
      by_cases hm : here ∈ ps
      · rw [if_pos hm] at h
        rcases hkl : k - cs.length with _ | j
        · rw [hkl] at h
          simp only [List.getElem?_cons_zero] at h
          cases q with
          | nil =>
            cases h
            refine .inr ⟨by rw [List.getElem?_eq_none (by omega)], rfl, [], n, as, cs, by simpa using hm, rfl, ?_⟩
            have : k = cs.length := by omega
            rw [this]; rfl
          | cons j q => simp [Node.at?, add_leaf] at h
        · rw [hkl] at h; simp at h
      · rw [if_neg hm] at h; simp at h

/-! ### the loop -/

theorem locate_mono {h h1 : Heap} (hc : ∀ i, h.children i ≠ [] → ∃ l, h1.children i = h.children i ++ l) : ∀ (q : Path) {i x : Id}, h.locate i q = some x →
    h1.locate i q = some x
  | [], _, _, h => h
  | k :: q, i, x, hl => by
    simp only [Heap.locate] at hl ⊢
    cases hk : (h.children i)[k]? with
    | none => rw [hk] at hl; cases hl
    | some c =>
      rw [hk] at hl
      obtain ⟨l, hl'⟩ := hc i fun e => by rw [e] at hk; cases hk
      rw [hl', List.getElem?_append_left (List.getElem?_eq_some_iff.1 hk).1, hk]
      exact locate_mono hc q hl

theorem add_round (c : Addition) {h h0 : Heap} {F0 T : Forest} (hs : EditSteps h0 F0 h T) (hT : Holds h T) {t0 : Id} {t : Node} (h0' : T t0 = some t)
    {p : Path} {e : Id} (hl : h.locate t0 p = some e) (hel : t.ElemAt p) :
    (∃ h1, c.onHeap h e = .ok h1) ∧ ∀ h1, c.onHeap h e = .ok h1 →
      EditSteps h0 F0 h1 (T.put t0 (t.change (Node.insertChild (-1) c.node) p)) ∧ ∀ i q x, h.locate i q = some x → h1.locate i q = some x := by
  obtain ⟨m, as, cs, hp⟩ := hel
  obtain ⟨y, hy, hry, _⟩ := locate_rep p (hT.trees t0 t h0') hl
  rw [hp] at hy
  cases hy
  obtain ⟨ds, q0, ho, _⟩ := rep_elem_iff.1 hry
  have hfresh : h.obj h.next = none := by
    cases hn : h.obj h.next with
    | none => rfl
    | some o => exact absurd (hT.bounded _ _ hn).1 (Nat.lt_irrefl _)
  have hen : e ≠ h.next := fun he => by rw [he, hfresh] at ho; cases ho
  have hkids : ∀ i, h.children i ≠ [] → i ≠ h.next := by
    rintro i hi rfl
    exact hi (by simp [Heap.children, hfresh])
  cases c with
  | string s =>
    refine ⟨insert_total (c := .str s) ⟨_, _, _, _, ho⟩ (fun k hk => by cases hk) (-1), fun h1 hok => ?_⟩
    refine ⟨.tail hs (.insertString h0' hl (.inl rfl) hok), fun i q x hx => locate_mono (fun i hi => ?_) q hx⟩
    obtain ⟨n', as', cs', p', ho', _, hobj⟩ := insertString_obj hT.bounded (.inl rfl) hok
    have := hobj i
    by_cases hie : i = e
    · rw [if_pos hie] at this
      rw [elem_children this, hie, elem_children ho']
      exact ⟨[h.next], by simp [insertPos]⟩
    · rw [if_neg hie, if_neg (hkids i hi)] at this
      exact ⟨[], by simp [Heap.children, this]⟩
  | element n bs =>
    have hobj1 : ∀ k, (h.newElement n bs).2.obj k = if k = h.next then some (.elem n bs [] none) else h.obj k := fun k => Heap.alloc_obj' _ _ _
    have hon : (h.newElement n bs).2.obj h.next = some (.elem n bs [] none) := by rw [hobj1, if_pos rfl]
    have hoe : (h.newElement n bs).2.obj e = some (.elem m as ds q0) := by rw [hobj1, if_neg hen, ho]
    have hch : ∀ i, h.children i ≠ [] → (h.newElement n bs).2.children i = h.children i := fun i hi => by
      simp only [Heap.children, hobj1, if_neg (hkids i hi)]
    have hl1 : (h.newElement n bs).2.locate t0 p = some e := locate_mono (fun i hi => ⟨[], by rw [hch i hi]; simp⟩) p hl
    have htn : ∀ u, T h.next ≠ some u := fun u hu => by
      have := hT.trees _ _ hu
      cases u with
      | text s => obtain ⟨_, h1, _⟩ : ∃ q, h.obj h.next = some (.text s q) ∧ h.xmlParent h.next = none := this; rw [hfresh] at h1; cases h1
      | elem => obtain ⟨_, _, h1, _⟩ := rep_elem_iff.1 this; rw [hfresh] at h1; cases h1
    have ht0 : t0 ≠ h.next := fun he => htn t (he ▸ h0')
    refine ⟨insert_total ⟨_, _, _, _, hoe⟩ (fun k hk => by cases hk; show ((h.newElement n bs).2.obj h.next).isSome = true; rw [hon]; rfl) (-1), fun h1 hok => ?_⟩
    have st := EditSteps.tail (.tail hs (.newElement n bs)) (.insertTree (r := t0) (t := t) (p := p) (e := e) (d := h.next) (u := .elem n bs []) (i := -1)
      (by simp [Forest.put, Heap.newElement, ht0, h0']) hl1 (by simp [Forest.put, Heap.newElement]) rfl (Ne.symm ht0) hok)
    refine ⟨?_, fun i q x hx => ?_⟩
    · have : ((T.put (h.newElement n bs).1 (.elem n bs [])).drop h.next).put t0 (t.change (Node.insertChild (-1) (.elem n bs [])) p) =
          T.put t0 (t.change (Node.insertChild (-1) (.elem n bs [])) p) := by
        funext j
        simp only [Forest.put, Forest.drop, Heap.newElement]
        split
        · rfl
        · by_cases hj : j = h.next
          · rw [if_pos hj]
            cases hq : T j with
            | none => rfl
            | some u => exact absurd (hj ▸ hq) (htn u)
          · rw [if_neg hj]; exact if_neg hj
      rw [this] at st
      exact st
    · refine locate_mono (fun i hi => ?_) q hx
      obtain ⟨n', as', cs', p', ho', _, hobj⟩ := insertTree_obj hon (Ne.symm hen) hok
      have := hobj i
      by_cases hie : i = e
      · rw [if_pos hie] at this
        rw [hoe] at ho'
        cases ho'
        rw [elem_children this, hie, elem_children ho]
        exact ⟨[h.next], by simp [insertPos]⟩
      · rw [if_neg hie, if_neg (hkids i hi), hobj1, if_neg (hkids i hi)] at this
        exact ⟨[], by simp [Heap.children, this]⟩

theorem add_loop (c : Addition) {d : Node} {t0 : Id} {T : Forest} : ∀ {ps : List Path} {xs : List Id} (acc : List Path) {h : Heap},
    EditSteps Heap.empty (fun _ => none) h (T.put t0 (d.growAt c acc [])) → (ps ++ acc).Nodup → (∀ p ∈ ps, d.ElemAt p) →
    ps.map (h.locate t0) = xs.map some →
    (∃ h', AddEach c h xs h') ∧ ∀ h', AddEach c h xs h' → EditSteps Heap.empty (fun _ => none) h' (T.put t0 (d.growAt c (ps.reverse ++ acc) [])) ∧
      ∀ i q x, h.locate i q = some x → h'.locate i q = some x
  | [], [], acc, h, hs, _, _, _ => by
    refine ⟨⟨h, .nil⟩, fun h' ha => ?_⟩
    cases ha
    exact ⟨hs, fun _ _ _ hx => hx⟩
  | [], _ :: _, _, _, _, _, _, hx => by cases hx
  | _ :: _, [], _, _, _, _, _, hx => by cases hx
  | p :: ps, e :: xs, acc, h, hs, hnd, hel, hx => by
    rw [List.map_cons, List.map_cons] at hx
    obtain ⟨hl, hx⟩ := List.cons.inj hx
    rw [List.cons_append] at hnd
    obtain ⟨hn1, hn2⟩ := List.nodup_cons.1 hnd
    have hpa : p ∉ acc := fun hm => hn1 (List.mem_append_right _ hm)
    obtain ⟨m, as, cs, hp⟩ := hel p (by simp)
    obtain ⟨r1, r2⟩ := add_round c hs (holds_steps hs holds_empty) (t0 := t0) (t := d.growAt c acc []) (by simp [Forest.put]) hl
      ⟨m, as, _, by rw [grow_keeps p [] hp, Node.growAt]⟩
    have go := fun (h1 : Heap) (hok : c.onHeap h e = .ok h1) => by
      obtain ⟨a1, a2⟩ := r2 h1 hok
      have hst := grow_step (u := c) (ps := acc) p [] (x := d) ⟨m, as, cs, hp⟩ (by simpa using hpa)
      rw [List.nil_append] at hst
      have hf : (T.put t0 (d.growAt c acc [])).put t0 ((d.growAt c acc []).change (Node.insertChild (-1) c.node) p) = T.put t0 (d.growAt c (p :: acc) []) := by
        rw [hst]
        funext j
        simp only [Forest.put]
        split <;> rfl
      rw [hf] at a1
      exact And.intro a2 (add_loop c (ps := ps) (xs := xs) (p :: acc) a1
        ((List.perm_middle (l₁ := ps) (l₂ := acc) (a := p)).nodup_iff.2 hnd) (fun q hq => hel q (by simp [hq])) (by
          rw [← hx]
          refine List.map_congr_left fun q hq => ?_
          have hm : h.locate t0 q ∈ xs.map some := by rw [← hx]; exact List.mem_map.2 ⟨q, hq, rfl⟩
          obtain ⟨x, _, hxq⟩ := List.mem_map.1 hm
          rw [← hxq]
          exact a2 _ _ _ hxq.symm))
    constructor
    · obtain ⟨h1, hok⟩ := r1
      obtain ⟨_, ⟨h', ha⟩, _⟩ := go h1 hok
      exact ⟨h', .cons hok ha⟩
    · intro h' ha
      cases ha with
      | cons b1 b2 =>
        obtain ⟨a2, _, g⟩ := go _ b1
        obtain ⟨g1, g2⟩ := g h' b2
        refine ⟨by simpa using g1, fun i q x hx => g2 i q x (a2 i q x hx)⟩

/-! ### what is there then -/

theorem grow_isText {d : Node} (h : d.isText = false) (c : Addition) (ps : List Path) (here : Path) : (d.growAt c ps here).isText = false := by
  cases d with
  | text => cases h
  | elem => rfl

theorem grow_elem {c : Addition} {ps : List Path} {here : Path} {z : Node} {n : Str} {as : Attrs} {cs : List Node} (h : Node.elem n as cs = z.growAt c ps here) :
    ∃ cs', z = .elem n as cs' := by
  cases z with
  | text => cases h
  | elem m bs ds => cases h; exact ⟨ds, rfl⟩

theorem grow_noEmpty {c : Addition} (hc : c.Fine) {d : Node} (hd : d.NoEmptyText) (ps : List Path) : (d.growAt c ps []).NoEmptyText := by
  intro q hq
  rcases grow_from q [] hq with ⟨z, h1, h2⟩ | ⟨_, h2, _⟩
  · cases z with
    | text s => cases h2; exact hd q h1
    | elem => cases h2
  · cases c with
    | string s => cases h2; exact hc rfl
    | element => cases h2

theorem grow_dicts {c : Addition} (hc : c.Fine) {d : Node} (hd : d.Dicts) (ps : List Path) : (d.growAt c ps []).Dicts := by
  intro q n as cs hq
  rcases grow_from q [] hq with ⟨z, h1, h2⟩ | ⟨_, h2, _⟩
  · obtain ⟨cs', rfl⟩ := grow_elem h2
    exact hd q n as cs' h1
  · cases c with
    | string s => cases h2
    | element m bs => cases h2; exact hc

theorem grow_added {c : Addition} {d : Node} {ps : List Path} {p : Path} (hp : p ∈ ps) {n : Str} {as : Attrs} {cs : List Node} (h : d.at? p = some (.elem n as cs)) :
    (d.growAt c ps []).at? (p ++ [cs.length]) = some c.node := by
  have := grow_keeps (u := c) (ps := ps) p [] h
  rw [List.nil_append, Node.growAt, if_pos hp] at this
  rw [at_snoc p this]
  simp only [Node.xmlChildren]
  rw [List.getElem?_append_right (by rw [growList_length]; exact Nat.le_refl _), growList_length, Nat.sub_self]
  rfl

theorem grow_named {c : Addition} {d : Node} {ps : List Path} {n : Str} {q : Path} :
    (d.growAt c ps []).Named n q ↔ d.Named n q ∨ ((∃ as, c = .element n as) ∧ ∃ p m as cs, p ∈ ps ∧ d.at? p = some (.elem m as cs) ∧ q = p ++ [cs.length]) := by
  constructor
  · rintro ⟨as, cs, hq⟩
    rcases grow_from q [] hq with ⟨z, h1, h2⟩ | ⟨_, h2, p, m, bs, ds, h3, h4, h5⟩
    · obtain ⟨cs', rfl⟩ := grow_elem h2
      exact .inl ⟨as, cs', h1⟩
    · cases c with
      | string => cases h2
      | element m' as' => cases h2; exact .inr ⟨⟨_, rfl⟩, p, m, bs, ds, h3, h4, h5⟩
  · rintro (⟨as, cs, hq⟩ | ⟨⟨as, rfl⟩, p, m, bs, cs, h1, h2, rfl⟩)
    · exact ⟨as, _, by rw [grow_keeps q [] hq, Node.growAt]⟩
    · exact ⟨as, [], grow_added h1 h2⟩

/-! ### the properties -/

/-- C179: `for e in list(doc.xml_xpath('//m[t]…')): e.xml_append(…)` for one of the trees a program holds, where a string or a new element is
appended.  The list has each element called `m` of which the tests hold once and nothing else, and the loop always runs to its end.  Afterwards the
tree is what it was, but each of these elements has one more child, after those it had; every object is in its old place; and the other trees the
program holds are what they were. -/
theorem C179_adding (fo : FloatOps F) (k : Nat) {h : Heap} {T : Forest} (hs : EditSteps Heap.empty (fun _ => none) h T) {t0 : Id} {d : Node}
    (hT : T t0 = some d) (htx : d.isText = false) (hd : d.NoEmptyText) (hdict : d.Dicts) (m : Str) {ts : Tests} (ht : ts.Ok)
    {wt : List (X.Tok F)} (hwr : WritesTests wt ts) {s : Str} (hq : X.Written fo (.abbrevSep :: X.nameTok m :: wt) s) (c : Addition) :
    ∃ (ps : List Path) (xs : List Id), ps.Nodup ∧ (∀ q, q ∈ ps ↔ d.Named m q ∧ ts.Hold d (.at q)) ∧ ps.map (h.locate t0) = xs.map some ∧
      (∀ j, d.count ≤ j → Mem.xmlXPath fo h j (fun _ => none) k t0 (.str s) = ⟨xs.map .obj, .done⟩) ∧
      (∃ h', AddEach c h xs h') ∧ ∀ h', AddEach c h xs h' → Rep h' none t0 (d.growAt c ps []) ∧
        (∀ i q x, h.locate i q = some x → h'.locate i q = some x) ∧ ∀ i u, i ≠ t0 → T i = some u → Rep h' none i u := by
  obtain ⟨ps, h1, h2, h3⟩ := everywhere_finds fo k hd hdict m ht hwr hq
  have hel : ∀ p ∈ ps, d.ElemAt p := fun p hp => named_elemAt ((h2 p).1 hp).1
  obtain ⟨xs, h4, h5⟩ := in_memory fo k (C140_memory_is_the_forest hs hT) htx hel h3
  have hT0 : T.put t0 (d.growAt c [] []) = T := by
    funext j
    simp only [Forest.put, grow_none.1]
    split
    · next hj => rw [hj, hT]
    · rfl
  obtain ⟨a1, a2⟩ := add_loop c (d := d) (t0 := t0) (T := T) (ps := ps) (xs := xs) [] (h := h) (by rw [hT0]; exact hs) (by simpa using h1) hel h4
  refine ⟨ps, xs, h1, h2, h4, h5, a1, fun h' ha => ?_⟩
  obtain ⟨b1, b2⟩ := a2 h' ha
  rw [(grow_same (qs := ps) fun q => by simp).1] at b1
  exact ⟨C140_memory_is_the_forest b1 (by simp [Forest.put]), b2, fun i u hi hu => C140_memory_is_the_forest b1 (by simp [Forest.put, hi, hu])⟩

/-- C179: what queries find then.  With tests on the name and the attributes of the element itself, and if what is added is not called `m`, the same
query finds the same objects again.  And if elements called `n` were added, `//n` finds exactly the objects it found before and the new last
children of the elements of the list. -/
theorem C179_found_then (fo : FloatOps F) (k : Nat) {h : Heap} {T : Forest} (hs : EditSteps Heap.empty (fun _ => none) h T) {t0 : Id} {d : Node}
    (hT : T t0 = some d) (htx : d.isText = false) (hd : d.NoEmptyText) (hdict : d.Dicts) (m : Str) {ts : Tests} (ht : ts.Ok)
    {wt : List (X.Tok F)} (hwr : WritesTests wt ts) {s : Str} (hq : X.Written fo (.abbrevSep :: X.nameTok m :: wt) s) (c : Addition) (hc : c.Fine) :
    ∃ xs : List Id, (∀ j, d.count ≤ j → Mem.xmlXPath fo h j (fun _ => none) k t0 (.str s) = ⟨xs.map .obj, .done⟩) ∧ ∀ h', AddEach c h xs h' →
      (ts.ofItself = true → (∀ as, c ≠ .element m as) → ∃ (b : Nat) (xs' : List Id), xs'.Nodup ∧ (∀ i, i ∈ xs' ↔ i ∈ xs) ∧
        ∀ j, b ≤ j → Mem.xmlXPath fo h' j (fun _ => none) k t0 (.str s) = ⟨xs'.map .obj, .done⟩) ∧
      (∀ n as s', c = .element n as → X.Written fo [.abbrevSep, X.nameTok n] s' → ∃ (b : Nat) (ys ys' : List Id), ys'.Nodup ∧
        (∀ i, i ∈ ys' ↔ i ∈ ys ∨ ∃ x ∈ xs, (h'.children x).getLast? = some i) ∧
        ∀ j, b ≤ j → Mem.xmlXPath fo h j (fun _ => none) k t0 (.str s') = ⟨ys.map .obj, .done⟩ ∧
          Mem.xmlXPath fo h' j (fun _ => none) k t0 (.str s') = ⟨ys'.map .obj, .done⟩) := by
  obtain ⟨ps, xs, a1, a2, a3, a4, _, a6⟩ := C179_adding fo k hs hT htx hd hdict m ht hwr hq c
  have hel : ∀ p ∈ ps, d.ElemAt p := fun p hp => named_elemAt ((a2 p).1 hp).1
  have hr := C140_memory_is_the_forest hs hT
  refine ⟨xs, a4, fun h' ha => ?_⟩
  obtain ⟨b1, b2, _⟩ := a6 h' ha
  have htx' := grow_isText htx c ps []
  -- the objects at positions of the document are those before
  have hsame : ∀ q, d.ElemAt q → h'.locate t0 q = h.locate t0 q := fun q hq => by
    obtain ⟨_, _, _, hq⟩ := hq
    obtain ⟨x, hx⟩ := rep_locate q hr hq
    rw [hx, b2 _ _ _ hx]
  constructor
  · intro hit hcm
    obtain ⟨ps', c1, c2, c3⟩ := everywhere_finds fo k (grow_noEmpty hc hd ps) (grow_dicts hc hdict ps) m ht hwr hq
    obtain ⟨xs', d1, d2⟩ := in_memory fo k b1 htx' (fun p hp => named_elemAt ((c2 p).1 hp).1) c3
    have hmem : ∀ q, q ∈ ps' ↔ q ∈ ps := fun q => by
      rw [c2, a2]
      constructor
      · rintro ⟨hn, hh⟩
        rcases grow_named.1 hn with hn' | ⟨⟨as, rfl⟩, _⟩
        · obtain ⟨as, cs, h1⟩ := hn'
          have h2 := grow_keeps (u := c) (ps := ps) q [] h1
          rw [Node.growAt] at h2
          exact ⟨⟨as, cs, h1⟩, (itself_tests ts hit h1 h2).2 hh⟩
        · exact absurd rfl (hcm as)
      · rintro ⟨⟨as, cs, h1⟩, hh⟩
        have h2 := grow_keeps (u := c) (ps := ps) q [] h1
        rw [Node.growAt] at h2
        exact ⟨⟨as, _, h2⟩, (itself_tests ts hit h1 h2).1 hh⟩
    refine ⟨_, xs', (located_nodup b1 d1).2 c1, fun i => ?_, d2⟩
    have e1 : i ∈ xs' ↔ some i ∈ ps'.map (h'.locate t0) := by rw [d1]; simp
    have e2 : i ∈ xs ↔ some i ∈ ps.map (h.locate t0) := by rw [a3]; simp
    rw [e1, e2, List.mem_map, List.mem_map]
    constructor
    · rintro ⟨q, h1, h2⟩
      exact ⟨q, (hmem q).1 h1, by rw [← h2, hsame q (hel q ((hmem q).1 h1))]⟩
    · rintro ⟨q, h1, h2⟩
      exact ⟨q, (hmem q).2 h1, by rw [← h2, hsame q (hel q h1)]⟩
  · rintro n as s' rfl hs'
    obtain ⟨qs, c1, c2, c3⟩ := everywhere_plain fo k hd n hs'
    obtain ⟨ys, d1, d2⟩ := in_memory fo k hr htx (fun p hp => named_elemAt ((c2 p).1 hp)) c3
    obtain ⟨qs', e1, e2, e3⟩ := everywhere_plain fo k (grow_noEmpty hc hd ps) n hs'
    obtain ⟨ys', f1, f2⟩ := in_memory fo k b1 htx' (fun p hp => named_elemAt ((e2 p).1 hp)) e3
    -- the last child of an element of the list
    have hlast : ∀ p m' bs cs x, p ∈ ps → d.at? p = some (.elem m' bs cs) → h.locate t0 p = some x →
        (h'.children x).getLast? = h'.locate t0 (p ++ [cs.length]) := by
      intro p m' bs cs x hp hat hx
      have hx' := b2 _ _ _ hx
      obtain ⟨y, hy, hry, _⟩ := locate_rep p b1 hx'
      rw [grow_keeps p [] hat, List.nil_append, Node.growAt, if_pos hp] at hy
      cases hy
      obtain ⟨ds, q0, ho, _, _, hl⟩ := rep_elem_iff.1 hry
      have hlen := ((repList_iff _ ds).1 hl).1
      rw [List.length_append, growList_length] at hlen
      rw [locate_kid p hx', elem_children ho, List.getLast?_eq_getElem?, hlen]
      simp
    refine ⟨max d.count (d.growAt (.element n as) ps []).count, ys, ys', (located_nodup b1 f1).2 e1, fun i => ?_, fun j hj => ⟨d2 j (by omega), f2 j (by omega)⟩⟩
    have g1 : i ∈ ys' ↔ some i ∈ qs'.map (h'.locate t0) := by rw [f1]; simp
    have g2 : i ∈ ys ↔ some i ∈ qs.map (h.locate t0) := by rw [d1]; simp
    have g3 : ∀ x, x ∈ xs ↔ some x ∈ ps.map (h.locate t0) := fun x => by rw [a3]; simp
    rw [g1, g2, List.mem_map, List.mem_map]
    constructor
    · rintro ⟨q, h1, h2⟩
      rcases grow_named.1 ((e2 q).1 h1) with hn | ⟨_, p, m', bs, cs, h3, h4, rfl⟩
      · exact .inl ⟨q, (c2 q).2 hn, by rw [← h2, hsame q (named_elemAt hn)]⟩
      · obtain ⟨x, hx⟩ := rep_locate p hr h4
        exact .inr ⟨x, (g3 x).2 (List.mem_map.2 ⟨p, h3, hx⟩), by rw [hlast p m' bs cs x h3 h4 hx, h2]⟩
    · rintro (⟨q, h1, h2⟩ | ⟨x, h1, h2⟩)
      · have hn := (c2 q).1 h1
        exact ⟨q, (e2 q).2 (grow_named.2 (.inl hn)), by rw [← h2, hsame q (named_elemAt hn)]⟩
      · obtain ⟨p, h3, hx⟩ := List.mem_map.1 ((g3 x).1 h1)
        obtain ⟨m', bs, cs, h4⟩ := hel p h3
        exact ⟨p ++ [cs.length], (e2 _).2 (grow_named.2 (.inr ⟨⟨as, rfl⟩, p, m', bs, cs, h3, h4, rfl⟩)), by rw [← hlast p m' bs cs x h3 h4 hx, h2]⟩

theorem grow_writable {ok : Str → Prop} {c : Addition} (hc : c.node.WritableWith ok) {ps : List Path} :
    (∀ (t : Node) (here : Path), t.WritableWith ok → (t.growAt c ps here).WritableWith ok) ∧
    (∀ (ts : List Node) (here : Path) (k : Nat), Node.WritableList ok ts → Node.WritableList ok (Node.growList c ps here k ts)) := by
  have happ : ∀ (a : List Node), Node.WritableList ok a → Node.WritableList ok (a ++ [c.node]) := by
    intro a ha
    induction a with
    | nil => exact ⟨hc, trivial⟩
    | cons x r ih => exact ⟨ha.1, ih ha.2⟩
  apply Node.induct
  case elem =>
    intro n as cs ih here h
    refine ⟨h.1, h.2.1, h.2.2.1, ?_⟩
    split
    · exact happ _ (ih here 0 h.2.2.2)
    · rw [List.append_nil]; exact ih here 0 h.2.2.2
  case text => intro s here h; exact h
  case nil => intro here k _; trivial
  case cons => intro t ts iht ihts here k h; exact ⟨iht _ h.1, ihts here (k + 1) h.2⟩

/-- C179: and if what is added and the tree could be written as MicroXML, the result can: serialised and parsed again, it is the tree in memory with
adjacent texts merged. -/
theorem C179_add_and_save (fo : FloatOps F) (k : Nat) {h : Heap} {T : Forest} (hs : EditSteps Heap.empty (fun _ => none) h T) {t0 : Id} {d : Node}
    (hT : T t0 = some d) (htx : d.isText = false) (hd : d.NoEmptyText) (hdict : d.Dicts) (hdw : d.Writable) (m : Str) {ts : Tests} (ht : ts.Ok)
    {wt : List (X.Tok F)} (hwr : WritesTests wt ts) {s : Str} (hq : X.Written fo (.abbrevSep :: X.nameTok m :: wt) s) (c : Addition)
    (hc : c.node.Writable) :
    ∃ xs : List Id, (∀ j, d.count ≤ j → Mem.xmlXPath fo h j (fun _ => none) k t0 (.str s) = ⟨xs.map .obj, .done⟩) ∧ ∀ h', AddEach c h xs h' →
      ∃ d', Rep h' none t0 d' ∧ ∀ b r b', TreeParse b d'.encode r b' → ∃ i, r = .returned (some i) ∧ Rep b'.heap none i d'.norm := by
  obtain ⟨ps, xs, _, _, _, a4, _, a6⟩ := C179_adding fo k hs hT htx hd hdict m ht hwr hq c
  refine ⟨xs, a4, fun h' ha => ⟨_, (a6 h' ha).1, fun b r b' hp => ?_⟩⟩
  exact C15_serialise_then_parse ((grow_writable hc).1 d [] hdw) (grow_isText htx c ps []) hp

-- what the loop does to a tree with one `b` in another, and to a program that makes an `r` with a `b` in it
example : (Node.elem ['r'] [] [.elem ['b'] [] [.text ['x'], .elem ['b'] [] []]]).growAt (.element ['n'] []) [[0], [0, 1]] [] =
      .elem ['r'] [] [.elem ['b'] [] [.text ['x'], .elem ['b'] [] [.elem ['n'] [] []], .elem ['n'] [] []]] ∧
    (Addition.string ['s']).Fine ∧ (Addition.element ['n'] [(['k'], ['1'])]).Fine ∧ exNoKey.Ok ∧ exNoKey.ofItself = true ∧
    WritesTests (F := F) [.lbrack, .name "not".toList, .lparen, .at, .name ['k'], .rparen, .rbrack] exNoKey ∧
    ∃ h T h' h'', EditSteps Heap.empty (fun _ => none) h T ∧ T 0 = some (.elem ['r'] [] [.elem ['b'] [] []]) ∧
      (Node.elem ['r'] [] [.elem ['b'] [] []]).NoEmptyText ∧ (Node.elem ['r'] [] [.elem ['b'] [] []]).Dicts ∧
      (Node.elem ['r'] [] [.elem ['b'] [] []]).Writable ∧ (Addition.string ['s']).node.Writable ∧ (Addition.element ['n'] []).node.Writable ∧
      h.locate 0 [0] = some 1 ∧ AddEach (.string ['s']) h [1] h' ∧ AddEach (.element ['n'] []) h [1] h'' ∧ h'.children 1 = [2] ∧ h''.children 1 = [2] := by
  refine ⟨by decide, List.cons_ne_nil _ _, List.pairwise_singleton _ _, by simp [exNoKey, Tests.Ok, ValueTest.Ok, TestedList.Ok, CoreList.Ok, CoreEnd.Ok], rfl,
    .one (.not (.found (.core (.rel (.last (.attr (k := .name ['k']) trivial)))))), _, _, _, _,
    .tail (.tail (.tail .refl (.newElement ['r'] [])) (.newElement ['b'] []))
      (.insertTree (r := 0) (p := []) (e := 0) (d := 1) (i := -1) rfl rfl rfl rfl (by decide) rfl), rfl,
    ?_, ?_, ?_, ?_, ?_, rfl, .cons rfl .nil, .cons rfl .nil, rfl, rfl⟩
  · intro p hp
    match p with
    | [] => cases hp
    | [0] => cases hp
    | 0 :: _ :: _ => cases hp
    | (_ + 1) :: _ => cases hp
  · intro p n as cs hp
    match p with
    | [] => cases hp; exact .nil
    | [0] => cases hp; exact .nil
    | 0 :: _ :: _ => cases hp
    | (_ + 1) :: _ => cases hp
  · exact ⟨by decide, by simp, by simp, ⟨by decide, by simp, by simp, trivial⟩, trivial⟩
  · show ∀ c ∈ ['s'], Legal c
    decide
  · exact ⟨by decide, by simp, by simp, trivial⟩

end Amara
