import Verif.Spec.Move
import Verif.Props.Mark
/-
C178: moving everything a query with tests finds to another tree.
-/
namespace Amara
variable {F : Type}

/-! ### taking out -/

theorem bounded_unlink {h : Heap} (hb : Bounded h) (c : Id) : Bounded (h.unlink c) := by
  unfold Heap.unlink
  split
  · next ho => exact bounded_set hb (hb _ _ ho).1 fun q hq => by cases hq
  · next ho => exact bounded_set hb (hb _ _ ho).1 fun q hq => by cases hq
  · exact hb

theorem removeAll_bounded {h h' : Heap} {xs : List Id} (hq : RemoveAll h xs h') (hb : Bounded h) : Bounded h' ∧ h'.next = h.next := by
  induction hq with
  | nil => exact ⟨hb, rfl⟩
  | cons _ a2 _ ih =>
    unfold Heap.xmlRemove at a2
    split at a2
    · split at a2
      · cases a2
        obtain ⟨b1, b2⟩ := ih (bounded_setChildren (bounded_unlink hb _) _ _)
        exact ⟨b1, by rw [b2, setChildren_next, unlink_next]⟩
      · cases a2
    · cases a2

theorem removeAll_others {h h' : Heap} {T : Forest} (hT : Holds h T) {t0 : Id} {d : Node} (h0 : T t0 = some d) {ps : List Path} {xs : List Id}
    (hx : ps.map (h.locate t0) = xs.map some) (hps : ∀ p ∈ ps, d.ElemAt p) (hq : RemoveAll h xs h') :
    ∀ i u, i ≠ t0 → T i = some u → Rep h' none i u := by
  have hr := hT.trees t0 d h0
  have init : PruneInv h t0 [] h :=
    ⟨fun i _ => by simp [List.filter_eq_self.2], fun _ => rfl, fun _ _ => rfl, by simp, fun _ _ => rfl⟩
  obtain ⟨_, _, fin⟩ := prune_done hr hq init (located_elems hr hx hps)
  refine others_stay hT (S := fun i => Reachable h [t0] i) ⟨?_, fun i _ => ?_, fun i hi _ => fin.outside i hi⟩ h0 fun _ hk => hk
  · exact Nat.le_of_eq (removeAll_bounded hq hT.bounded).2.symm
  · have := congrArg Option.isSome (fin.shell i)
    simpa using this

/-- All trees there are in memory. -/
theorem all_trees {h : Heap} (hb : Bounded h) : ∃ T : Forest, Holds h T ∧ ∀ i u, T i = some u ↔ Rep h none i u := by
  classical
  refine ⟨fun i => if hi : ∃ u, Rep h none i u then some hi.choose else none, ⟨hb, fun i u hi => ?_⟩, fun i u => ?_⟩
  · by_cases hx : ∃ u, Rep h none i u
    · simp only [dif_pos hx, Option.some.injEq] at hi
      rw [← hi]
      exact hx.choose_spec
    · simp only [dif_neg hx] at hi
      cases hi
  · by_cases hx : ∃ u, Rep h none i u
    · simp only [dif_pos hx, Option.some.injEq]
      constructor
      · rintro rfl; exact hx.choose_spec
      · intro hu; exact rep_unique hx.choose_spec hu
    · simp only [dif_neg hx]
      constructor
      · intro e; cases e
      · intro e; exact absurd ⟨u, e⟩ hx

/-! ### putting in -/

theorem xmlAppend_children {h h1 : Heap} {w x : Id} {m : Str} {bs : Attrs} {ds : List Id} {q : Option Id} (hx : h.obj x = some (.elem m bs ds q))
    (hne : x ≠ w) (hok : h.xmlAppend w (.node x) = .ok h1) : h1.children w = h.children w ++ [x] := by
  obtain ⟨n, as, cs, p, ho, _, hobj⟩ := insertTree_obj hx hne hok
  have h1w := hobj w
  rw [if_pos rfl] at h1w
  rw [elem_children h1w, elem_children ho]
  simp [insertPos]

theorem append_loop {w : Id} {n : Str} {as : Attrs} : ∀ (L : List (Id × Node)) {h : Heap} {T : Forest} {ts : List Node}, Holds h T →
    T w = some (.elem n as ts) → (L.map Prod.fst).Nodup → (∀ e ∈ L, T e.1 = some e.2 ∧ e.2.isText = false ∧ e.1 ≠ w) →
    (∃ h', AppendAll w h (L.map Prod.fst) h') ∧
    ∀ h', AppendAll w h (L.map Prod.fst) h' → Rep h' none w (.elem n as (ts ++ L.map Prod.snd)) ∧
      h'.children w = h.children w ++ L.map Prod.fst ∧
      ∀ i u, i ≠ w → i ∉ L.map Prod.fst → T i = some u → Rep h' none i u
  | [], h, T, ts, hT, hw, _, _ => by
    refine ⟨⟨h, .nil⟩, fun h' ha => ?_⟩
    cases ha
    exact ⟨by simpa using hT.trees w _ hw, by simp, fun i u _ _ hi => hT.trees i u hi⟩
  | (x, u) :: L, h, T, ts, hT, hw, hnd, hL => by
    obtain ⟨hx, hu, hxw⟩ := hL (x, u) (by simp)
    obtain ⟨hn1, hn2⟩ := List.nodup_cons.1 hnd
    have hrw := hT.trees w _ hw
    have hrx := hT.trees x u hx
    obtain ⟨m, bs, ds, q, hox⟩ : ∃ m bs ds q, h.obj x = some (.elem m bs ds q) := by
      cases u with
      | text => cases hu
      | elem m bs us => obtain ⟨ds, q, ho, _⟩ := rep_elem_iff.1 hrx; exact ⟨_, _, _, _, ho⟩
    obtain ⟨cs, q', how, _⟩ := rep_elem_iff.1 hrw
    obtain ⟨h1, hok⟩ := insert_total (h := h) (e := w) ⟨_, _, _, _, how⟩ (c := .node x) (fun k hk => by cases hk; rw [hox]; rfl) (-1)
    have go := fun (h1 : Heap) (hok : h.xmlAppend w (.node x) = .ok h1) =>
      append_loop (w := w) (n := n) (as := as) L (h := h1) (T := (T.drop x).put w (Node.change (Node.insertChild (-1) u) [] (.elem n as ts))) (ts := ts ++ [u])
        (holds_insertTree hT hw (p := []) rfl hx hu hxw hok)
        (by simp [Forest.put, Node.change, Node.insertChild, insertPos]) hn2 (fun e he => by
          obtain ⟨a1, a2, a3⟩ := hL e (by simp [he])
          refine ⟨?_, a2, a3⟩
          have : e.1 ≠ x := fun hex => hn1 (by rw [← hex]; exact List.mem_map.2 ⟨e, he, rfl⟩)
          simp [Forest.put, Forest.drop, a3, this, a1])
    constructor
    · obtain ⟨⟨h', ha⟩, _⟩ := go _ hok
      exact ⟨h', .cons hok ha⟩
    · intro h' ha
      cases ha with
      | cons b1 b2 =>
        obtain ⟨_, c⟩ := go _ b1
        obtain ⟨c1, c2, c3⟩ := c h' b2
        refine ⟨by simpa using c1, by rw [c2, xmlAppend_children hox hxw b1]; simp, fun i v hi hni hv => c3 i v hi ?_ ?_⟩
        · exact fun hm => hni (by simp [hm])
        · have : i ≠ x := fun hix => hni (by simp [hix])
          simp [Forest.put, Forest.drop, hi, this, hv]

/-! ### both -/

theorem pieces_zip {h : Heap} {t0 : Id} {d : Node} : ∀ {qs : List Path} {xs : List Id} (ps : List Path), qs.map (h.locate t0) = xs.map some → (∀ p ∈ qs, d.ElemAt p) →
    ∃ L : List (Id × Node), L.map Prod.fst = xs ∧ L.map Prod.snd = qs.filterMap (fun p => (d.at? p).map fun x => x.cutAt ps p) ∧
      ∀ e ∈ L, ∃ p x, p ∈ qs ∧ h.locate t0 p = some e.1 ∧ d.at? p = some x ∧ x.isText = false ∧ e.2 = x.cutAt ps p
  | [], [], _, _, _ => ⟨[], rfl, rfl, by simp⟩
  | [], _ :: _, _, h, _ => by cases h
  | _ :: _, [], _, h, _ => by cases h
  | p :: qs, x :: xs, ps, hx, hel => by
    rw [List.map_cons, List.map_cons] at hx
    obtain ⟨hl, hx⟩ := List.cons.inj hx
    obtain ⟨L, h1, h2, h3⟩ := pieces_zip ps hx fun q hq => hel q (by simp [hq])
    obtain ⟨m, as, cs, hp⟩ := hel p (by simp)
    refine ⟨(x, (Node.elem m as cs).cutAt ps p) :: L, by simp [h1], by simp [hp, h2], fun e he => ?_⟩
    rcases List.mem_cons.1 he with rfl | he
    · exact ⟨p, _, by simp, hl, hp, rfl, rfl⟩
    · obtain ⟨q, y, c1, c2⟩ := h3 e he
      exact ⟨q, y, by simp [c1], c2⟩

theorem cut_isText {x : Node} (h : x.isText = false) (ps : List Path) (p : Path) : (x.cutAt ps p).isText = false := by
  cases x with
  | text => cases h
  | elem => rfl

/-- The two loops, for any list of positions of elements. -/
theorem move_loops {h : Heap} {T : Forest} (hT : Holds h T) {t0 : Id} {d : Node} (h0 : T t0 = some d) {w : Id} (hwt : w ≠ t0) {n : Str} {as : Attrs}
    {us : List Node} (hw : T w = some (.elem n as us)) {ps : List Path} {xs : List Id} (hx : ps.map (h.locate t0) = xs.map some)
    (hnd : ps.Nodup) (hel : ∀ p ∈ ps, d.ElemAt p) :
    ((∃ h1 h2, RemoveAll h xs h1 ∧ AppendAll w h1 xs h2) ↔ [] ∉ ps) ∧
    ∀ h1 h2, RemoveAll h xs h1 → AppendAll w h1 xs h2 → Rep h2 none t0 (d.cutAt ps []) ∧ Rep h2 none w (.elem n as (us ++ d.pieces ps)) ∧
      h2.children w = h.children w ++ xs ∧ ∀ i u, i ≠ t0 → i ≠ w → T i = some u → Rep h2 none i u := by
  have hr := hT.trees t0 d h0
  have hwhen := C144_when_it_succeeds hr hx hel
  have hxnd := (located_nodup hr hx).2 hnd
  obtain ⟨L, l1, l2, l3⟩ := pieces_zip ps hx hel
  have hxt : ∀ x ∈ xs, Reachable h [t0] x := fun x hm => (located_elems hr hx hel x hm).1
  have hapart : ∀ i u, i ≠ t0 → T i = some u → i ∉ xs := fun i u hi hu hm =>
    hi (same_top (hT.trees i u hu) hr (.root (by simp)) (hxt i hm))
  have key : ∀ h1, RemoveAll h xs h1 → ∃ T1 : Forest, Holds h1 T1 ∧ (∀ i u, T1 i = some u ↔ Rep h1 none i u) ∧ T1 w = some (.elem n as us) ∧
      (L.map Prod.fst).Nodup ∧ (∀ e ∈ L, T1 e.1 = some e.2 ∧ e.2.isText = false ∧ e.1 ≠ w) := by
    intro h1 hq
    obtain ⟨T1, t1, t2⟩ := all_trees (removeAll_bounded hq hT.bounded).1
    have ho := removeAll_others hT h0 hx hel hq
    refine ⟨T1, t1, t2, (t2 _ _).2 (ho w _ hwt hw), by rw [l1]; exact hxnd, fun e he => ?_⟩
    obtain ⟨p, x, c1, c2, c3, c4, c5⟩ := l3 e he
    have := (C144_what_is_left hr hx hel hq).2.1 p e.1 x c2 c3
    rw [if_pos c1, ← c5] at this
    refine ⟨(t2 _ _).2 this, by rw [c5]; exact cut_isText c4 ps p, fun hew => hapart w _ hwt hw ?_⟩
    rw [← l1, ← hew]
    exact List.mem_map.2 ⟨e, he, rfl⟩
  constructor
  · constructor
    · rintro ⟨h1, _, hq, _⟩
      exact (hwhen.1 ⟨h1, hq⟩).1
    · intro hno
      obtain ⟨h1, hq⟩ := hwhen.2 ⟨hno, hnd⟩
      obtain ⟨T1, t1, _, t3, t4, t5⟩ := key h1 hq
      obtain ⟨⟨h2, ha⟩, _⟩ := append_loop L t1 t3 t4 t5
      rw [l1] at ha
      exact ⟨h1, h2, hq, ha⟩
  · intro h1 h2 hq ha
    obtain ⟨T1, t1, t2, t3, t4, t5⟩ := key h1 hq
    obtain ⟨_, hfin⟩ := append_loop L t1 t3 t4 t5
    rw [l1] at hfin
    obtain ⟨f1, f2, f3⟩ := hfin h2 ha
    have hleft := (C144_what_is_left hr hx hel hq)
    have ht0 : t0 ∉ xs := fun hm => (hwhen.1 ⟨h1, hq⟩).1 ((located_mem hr hx rfl).1 hm)
    refine ⟨f3 t0 _ (Ne.symm hwt) ht0 ((t2 _ _).2 hleft.1), by rw [l2] at f1; exact f1, ?_, fun i u hi hiw hu => ?_⟩
    · rw [f2]
      have : ¬ Reachable h [t0] w := fun hm => hwt (same_top (hT.trees w _ hw) hr (.root (by simp)) hm)
      have := hleft.2.2 w this
      simp only [Heap.children, this]
    · exact f3 i u hiw (hapart i u hi hu) ((t2 _ _).2 (removeAll_others hT h0 hx hel hq i u hi hu))

/-! ### the tree with the pieces -/

theorem pieces_mem {d : Node} {ps : List Path} {y : Node} (h : y ∈ d.pieces ps) : ∃ p x, p ∈ ps ∧ d.at? p = some x ∧ y = x.cutAt ps p := by
  obtain ⟨p, hp, he⟩ := List.mem_filterMap.1 h
  cases hx : d.at? p with
  | none => rw [hx] at he; cases he
  | some x => rw [hx] at he; cases he; exact ⟨p, x, hp, hx, rfl⟩

theorem joined_at {n : Str} {as : Attrs} {us vs : List Node} {q : Path} {y : Node} (h : (Node.elem n as (us ++ vs)).at? q = some y) :
    (q = [] ∧ y = .elem n as (us ++ vs)) ∨ (∃ k r, q = k :: r ∧ k < us.length ∧ (Node.elem n as us).at? q = some y) ∨
    ∃ j r v, q = (us.length + j) :: r ∧ vs[j]? = some v ∧ v.at? r = some y := by
  cases q with
  | nil => cases h; exact .inl ⟨rfl, rfl⟩
  | cons k r =>
    right
    simp only [Node.at?, Node.xmlChildren] at h
    by_cases hk : k < us.length
    · rw [List.getElem?_append_left hk] at h
      exact .inl ⟨k, r, rfl, hk, h⟩
    · have hk := Nat.le_of_not_lt hk
      rw [List.getElem?_append_right hk] at h
      cases hv : vs[k - us.length]? with
      | none => rw [hv] at h; cases h
      | some v =>
        rw [hv] at h
        exact .inr ⟨k - us.length, r, v, by rw [Nat.add_sub_cancel' hk], hv, h⟩

/-- A node in one of the pieces was in the document, with the same tag or text, and is the top of the piece or not one of those moved. -/
theorem piece_node {d : Node} {ps : List Path} {v y : Node} (hv : v ∈ d.pieces ps) {r : Path} (hy : v.at? r = some y) :
    ∃ q x, d.at? q = some x ∧ y = x.cutAt ps q ∧ (r = [] ∨ q ∉ ps) := by
  obtain ⟨p, x, h1, h2, rfl⟩ := pieces_mem hv
  obtain ⟨p', x', h3, h4, h5⟩ := cut_from r hy
  refine ⟨p ++ p', x', ?_, h4, ?_⟩
  · rw [Node.at?_append, h2]; exact h3
  · rcases h5 with ⟨_, h5⟩ | h5
    · exact .inl h5
    · exact .inr h5

theorem joined_noEmpty {d : Node} (hd : d.NoEmptyText) (ps : List Path) {n : Str} {as : Attrs} {us : List Node} (hu : (Node.elem n as us).NoEmptyText) :
    (Node.elem n as (us ++ d.pieces ps)).NoEmptyText := by
  intro q hq
  rcases joined_at hq with ⟨_, h⟩ | ⟨_, _, _, _, h⟩ | ⟨j, r, v, _, h1, h2⟩
  · cases h
  · exact hu q h
  · obtain ⟨q', x, h3, h4, _⟩ := piece_node (List.mem_of_getElem? h1) h2
    cases x with
    | text s => rw [Node.cutAt] at h4; cases h4; exact hd q' h3
    | elem => cases h4

theorem joined_dicts {d : Node} (hd : d.Dicts) (ps : List Path) {n : Str} {as : Attrs} {us : List Node} (hu : (Node.elem n as us).Dicts) :
    (Node.elem n as (us ++ d.pieces ps)).Dicts := by
  intro q m bs cs hq
  rcases joined_at hq with ⟨_, h⟩ | ⟨_, _, _, _, h⟩ | ⟨j, r, v, _, h1, h2⟩
  · cases h; exact hu [] n as us rfl
  · exact hu q m bs cs h
  · obtain ⟨q', x, h3, h4, _⟩ := piece_node (List.mem_of_getElem? h1) h2
    obtain ⟨cs', rfl⟩ := cut_elem h4.symm
    exact hd q' m bs cs' h3

/-- What a test on the element itself finds in the tree the pieces were put into. -/
theorem joined_results {d : Node} {m : Str} {ts : Tests} (hit : ts.ofItself = true) {ps : List Path}
    (hps : ∀ q, q ∈ ps ↔ d.Named m q ∧ ts.Hold d (.at q)) {n : Str} {as : Attrs} {us : List Node}
    (hno : ∀ q, ¬ ((Node.elem n as us).Named m q ∧ ts.Hold (.elem n as us) (.at q))) (q : Path) :
    let e : Node := .elem n as (us ++ d.pieces ps)
    (e.Named m q ∧ ts.Hold e (.at q)) ↔ ∃ j, j < (d.pieces ps).length ∧ q = [us.length + j] := by
  intro e
  constructor
  · rintro ⟨⟨bs, cs, hq⟩, hh⟩
    rcases joined_at hq with ⟨rfl, h⟩ | ⟨_, _, _, _, h⟩ | ⟨j, r, v, rfl, h1, h2⟩
    · cases h
      exact absurd ⟨⟨_, _, rfl⟩, (itself_tests ts hit (d := .elem m as us) (p := []) rfl hq).2 hh⟩ (hno [])
    · exact absurd ⟨⟨_, _, h⟩, (itself_tests ts hit h hq).2 hh⟩ (hno q)
    · obtain ⟨q', x, h3, h4, h5⟩ := piece_node (List.mem_of_getElem? h1) h2
      obtain ⟨cs', rfl⟩ := cut_elem h4.symm
      rcases h5 with rfl | h5
      · exact ⟨j, (List.getElem?_eq_some_iff.1 h1).1, rfl⟩
      · exact absurd ((hps q').2 ⟨⟨_, _, h3⟩, (itself_tests ts hit h3 hq).2 hh⟩) h5
  · rintro ⟨j, hj, rfl⟩
    have hv := List.getElem?_eq_getElem hj
    obtain ⟨p, x, h1, h2, h3⟩ := pieces_mem (List.getElem_mem hj)
    obtain ⟨⟨bs, cs, h4⟩, h5⟩ := (hps p).1 h1
    rw [h2] at h4
    cases h4
    have hq : e.at? [us.length + j] = some (.elem m bs (Node.cutAtList ps p 0 cs)) := by
      simp only [e, Node.at?, Node.xmlChildren]
      rw [List.getElem?_append_right (Nat.le_add_right _ _), Nat.add_sub_cancel_left, hv, h3, Node.cutAt]
    exact ⟨⟨_, _, hq⟩, (itself_tests ts hit h2 hq).1 h5⟩

/-! ### the properties -/

/-- C178: `xs = list(doc.xml_xpath('//m[t]…'))`, then `for x in xs: x.xml_parent.xml_remove(x)` and `for x in xs: w.xml_append(x)`, in a program
that holds the two trees and perhaps others.  The list has each element called `m` of which the tests hold once and nothing else.  The loops run
to their ends exactly if the document element is not one of them.  Then the document is what it was without these elements; they are the last
children of `w`, in the order of the list, each without the others that were inside it; and no other tree has changed. -/
theorem C178_moving (fo : FloatOps F) (k : Nat) {h : Heap} {T : Forest} (hs : EditSteps Heap.empty (fun _ => none) h T) {t0 : Id} {d : Node}
    (hT : T t0 = some d) (htx : d.isText = false) (hd : d.NoEmptyText) (hdict : d.Dicts) {w : Id} (hwt : w ≠ t0) {n : Str} {as : Attrs}
    {us : List Node} (hw : T w = some (.elem n as us)) (m : Str) {ts : Tests} (ht : ts.Ok) {wt : List (X.Tok F)} (hwr : WritesTests wt ts) {s : Str}
    (hq : X.Written fo (.abbrevSep :: X.nameTok m :: wt) s) :
    ∃ (ps : List Path) (xs : List Id), ps.Nodup ∧ (∀ q, q ∈ ps ↔ d.Named m q ∧ ts.Hold d (.at q)) ∧ ps.map (h.locate t0) = xs.map some ∧
      (∀ j, d.count ≤ j → Mem.xmlXPath fo h j (fun _ => none) k t0 (.str s) = ⟨xs.map .obj, .done⟩) ∧
      ((∃ h1 h2, RemoveAll h xs h1 ∧ AppendAll w h1 xs h2) ↔ ¬ (d.Named m [] ∧ ts.Hold d (.at []))) ∧
      ∀ h1 h2, RemoveAll h xs h1 → AppendAll w h1 xs h2 → Rep h2 none t0 (d.cutAt ps []) ∧ Rep h2 none w (.elem n as (us ++ d.pieces ps)) ∧
        h2.children w = h.children w ++ xs ∧ ∀ i u, i ≠ t0 → i ≠ w → T i = some u → Rep h2 none i u := by
  obtain ⟨ps, h1, h2, h3⟩ := everywhere_finds fo k hd hdict m ht hwr hq
  have hel : ∀ p ∈ ps, d.ElemAt p := fun p hp => named_elemAt ((h2 p).1 hp).1
  obtain ⟨xs, h4, h5⟩ := in_memory fo k (C140_memory_is_the_forest hs hT) htx hel h3
  obtain ⟨a1, a2⟩ := move_loops (holds_steps hs holds_empty) hT hwt hw h4 h1 hel
  exact ⟨ps, xs, h1, h2, h4, h5, by rw [a1, h2], a2⟩

/-- C178: with tests on the name and the attributes of the element itself, and if the query found nothing in the tree of `w` before, everything
it finds is then there: asked of the document it finds nothing, and asked of `w` just the objects that were moved, each once. -/
theorem C178_found_there (fo : FloatOps F) (k : Nat) {h : Heap} {T : Forest} (hs : EditSteps Heap.empty (fun _ => none) h T) {t0 : Id} {d : Node}
    (hT : T t0 = some d) (htx : d.isText = false) (hd : d.NoEmptyText) (hdict : d.Dicts) {w : Id} (hwt : w ≠ t0) {n : Str} {as : Attrs}
    {us : List Node} (hw : T w = some (.elem n as us)) (hu : (Node.elem n as us).NoEmptyText) (hudict : (Node.elem n as us).Dicts)
    (m : Str) {ts : Tests} (ht : ts.Ok) (hit : ts.ofItself = true) {wt : List (X.Tok F)} (hwr : WritesTests wt ts) {s : Str}
    (hq : X.Written fo (.abbrevSep :: X.nameTok m :: wt) s)
    (hno : ∀ q, ¬ ((Node.elem n as us).Named m q ∧ ts.Hold (.elem n as us) (.at q))) :
    ∃ xs : List Id, (∀ j, d.count ≤ j → Mem.xmlXPath fo h j (fun _ => none) k t0 (.str s) = ⟨xs.map .obj, .done⟩) ∧
      ∀ h1 h2, RemoveAll h xs h1 → AppendAll w h1 xs h2 → ∃ c, ∀ j, c ≤ j →
        Mem.xmlXPath fo h2 j (fun _ => none) k t0 (.str s) = ⟨[], .done⟩ ∧
        ∃ xs' : List Id, xs'.Nodup ∧ (∀ i, i ∈ xs' ↔ i ∈ xs) ∧ Mem.xmlXPath fo h2 j (fun _ => none) k w (.str s) = ⟨xs'.map .obj, .done⟩ := by
  obtain ⟨ps, xs, a1, a2, a3, a4, a5, a6⟩ := C178_moving fo k hs hT htx hd hdict hwt hw m ht hwr hq
  have hel : ∀ p ∈ ps, d.ElemAt p := fun p hp => named_elemAt ((a2 p).1 hp).1
  refine ⟨xs, a4, fun h1 h2 hr ha => ?_⟩
  obtain ⟨b1, b2, b3, _⟩ := a6 h1 h2 hr ha
  have hroot : [] ∉ ps := fun hm => (a5.1 ⟨h1, h2, hr, ha⟩) ((a2 []).1 hm)
  obtain ⟨ps1, _, c2, c3⟩ := everywhere_finds fo k (cut_noEmpty hd ps) (cut_dicts hdict ps) m ht hwr hq
  have hnil : ps1 = [] := by
    refine List.eq_nil_iff_forall_not_mem.2 fun q' hq' => ?_
    obtain ⟨⟨bs, cs, ha⟩, hh⟩ := (c2 q').1 hq'
    obtain ⟨q, x, e1, e2, e3⟩ := cut_from q' ha
    obtain ⟨cs', rfl⟩ := cut_elem e2.symm
    have hin : q ∈ ps := (a2 q).2 ⟨⟨bs, cs', e1⟩, (itself_tests ts hit e1 ha).2 hh⟩
    rcases e3 with ⟨rfl, _⟩ | e3
    · exact hroot hin
    · exact e3 hin
  subst hnil
  obtain ⟨ps2, d1, d2, d3⟩ := everywhere_finds fo k (joined_noEmpty hd ps hu) (joined_dicts hdict ps hudict) m ht hwr hq
  obtain ⟨ys, f1, f2⟩ := in_memory fo k b1 (cut_isText htx ps []) (ps := []) (by simp) c3
  obtain ⟨xs', g1, g2⟩ := in_memory fo k b2 rfl (fun p hp => named_elemAt ((d2 p).1 hp).1) d3
  have hys : ys = [] := by cases ys with
    | nil => rfl
    | cons => cases f1
  subst hys
  obtain ⟨L, l1, l2, _⟩ := pieces_zip ps a3 hel
  have hlen : (d.pieces ps).length = xs.length := by rw [← l1, Node.pieces, ← l2]; simp
  have hul : (h.children w).length = us.length := by
    obtain ⟨cs, q, ho, _, _, hl⟩ := rep_elem_iff.1 (C140_memory_is_the_forest hs hw)
    rw [elem_children ho]
    exact ((repList_iff us cs).1 hl).1
  have hloc : ∀ j, h2.locate w [us.length + j] = xs[j]? := by
    intro j
    simp only [Heap.locate, b3]
    rw [← hul, List.getElem?_append_right (Nat.le_add_right _ _), Nat.add_sub_cancel_left]
    cases xs[j]? <;> rfl
  refine ⟨max (d.cutAt ps []).count (Node.elem n as (us ++ d.pieces ps)).count, fun j hj => ⟨f2 j (by omega), xs', (located_nodup b2 g1).2 d1, fun i => ?_, g2 j (by omega)⟩⟩
  constructor
  · intro hi
    have : some i ∈ ps2.map (h2.locate w) := by rw [g1]; exact List.mem_map.2 ⟨i, hi, rfl⟩
    obtain ⟨q, hq1, hq2⟩ := List.mem_map.1 this
    obtain ⟨j, _, rfl⟩ := (joined_results hit a2 hno q).1 ((d2 q).1 hq1)
    rw [hloc] at hq2
    exact List.mem_of_getElem? hq2
  · intro hi
    obtain ⟨j, hj, rfl⟩ := List.getElem_of_mem hi
    have hm := (d2 [us.length + j]).2 ((joined_results hit a2 hno _).2 ⟨j, by rw [hlen]; exact hj, rfl⟩)
    have : h2.locate w [us.length + j] ∈ xs'.map some := by rw [← g1]; exact List.mem_map.2 ⟨_, hm, rfl⟩
    rw [hloc, List.getElem?_eq_getElem hj] at this
    obtain ⟨i, hi1, hi2⟩ := List.mem_map.1 this
    cases hi2
    exact hi1

-- the hypotheses are met by a program that makes an `r` with a `b` in it and a `w`, and the loops move the `b`
example : exNoKey.Ok ∧ exNoKey.ofItself = true ∧
    WritesTests (F := F) [.lbrack, .name "not".toList, .lparen, .at, .name ['k'], .rparen, .rbrack] exNoKey ∧
    ∃ h T h1 h2, EditSteps Heap.empty (fun _ => none) h T ∧ T 0 = some (.elem ['r'] [] [.elem ['b'] [] []]) ∧ T 2 = some (.elem ['w'] [] []) ∧
      (Node.elem ['r'] [] [.elem ['b'] [] []]).NoEmptyText ∧ (Node.elem ['r'] [] [.elem ['b'] [] []]).Dicts ∧
      (Node.elem ['w'] [] []).NoEmptyText ∧ (Node.elem ['w'] [] []).Dicts ∧
      (∀ q, ¬ ((Node.elem ['w'] [] []).Named ['b'] q ∧ exNoKey.Hold (.elem ['w'] [] []) (.at q))) ∧
      h.locate 0 [0] = some 1 ∧ RemoveAll h [1] h1 ∧ AppendAll 2 h1 [1] h2 ∧ h2.children 0 = [] ∧ h2.children 2 = [1] ∧
      (Node.elem ['r'] [] [.elem ['b'] [] []]).pieces [[0]] = [.elem ['b'] [] []] ∧
      exNestTree.pieces [[0], [0, 0]] = [.elem ['b'] [] [], .elem ['b'] [] []] := by
  refine ⟨by simp [exNoKey, Tests.Ok, ValueTest.Ok, TestedList.Ok, CoreList.Ok, CoreEnd.Ok], rfl,
    .one (.not (.found (.core (.rel (.last (.attr (k := .name ['k']) trivial)))))), _, _, _, _,
    .tail (.tail (.tail (.tail .refl (.newElement ['r'] [])) (.newElement ['b'] []))
      (.insertTree (r := 0) (p := []) (e := 0) (d := 1) (i := -1) rfl rfl rfl rfl (by decide) rfl)) (.newElement ['w'] []), rfl, rfl,
    ?_, ?_, ?_, ?_, ?_, rfl, .cons rfl rfl .nil, .cons rfl .nil, rfl, rfl, rfl, rfl⟩
  · intro p hp
    match p with
    | [] => cases hp
    | [0] => cases hp
    | 0 :: _ :: _ => cases hp
    | (_ + 1) :: _ => cases hp
  · intro p n as cs hp
    match p with
    | [] => cases hp; exact .nil
    | [0] => cases hp; exact .nil
    | 0 :: _ :: _ => cases hp
    | (_ + 1) :: _ => cases hp
  · intro p hp
    match p with
    | [] => cases hp
    | _ :: _ => cases hp
  · intro p n as cs hp
    match p with
    | [] => cases hp; exact .nil
    | _ :: _ => cases hp
  · rintro q ⟨⟨as, cs, hp⟩, _⟩
    match q with
    | [] => cases hp
    | _ :: _ => cases hp

end Amara
