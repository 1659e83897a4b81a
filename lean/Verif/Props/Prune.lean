import Verif.Spec.Prune
import Verif.Props.XLivePath
import Verif.Props.XLive
/-
C144: taking the results of a query out of the tree.
-/
namespace Amara

/-- A step of a position. -/
theorem locate_split {h : Heap} {k : Nat} : ∀ (p : Path) {i c : Id}, h.locate i (p ++ [k]) = some c →
    ∃ e, h.locate i p = some e ∧ (h.children e)[k]? = some c := by
  intro p
  induction p with
  | nil =>
    intro i c hl
    exact ⟨i, rfl, locate_snoc (i := i) [] rfl hl⟩
  | cons j p ih =>
    intro i c hl
    simp only [List.cons_append, Heap.locate] at hl ⊢
    cases hk : (h.children i)[j]? with
    | none => rw [hk] at hl; cases hl
    | some d => rw [hk] at hl; exact ih hl

theorem nodup_index {l : List Id} (hnd : l.Nodup) {j k : Nat} (hj : j < l.length) (hk : k < l.length) (he : l[j] = l[k]) :
    j = k := by
  have h := List.pairwise_iff_getElem.1 hnd
  rcases Nat.lt_trichotomy j k with h1 | h1 | h1
  · exact (h j k hj hk h1 he).elim
  · exact h1
  · exact (h k j hk hj h1 he.symm).elim

/-- Every object of a tree has one position. -/
theorem locate_inj {h : Heap} {t0 : Id} {tree : Node} (hr : Rep h none t0 tree) : ∀ (n : Nat) (p q : Path) {x : Id},
    p.length = n → h.locate t0 p = some x → h.locate t0 q = some x → p = q := by
  have top : ∀ {p : Path} {k : Nat}, h.locate t0 (p ++ [k]) = some t0 → False := by
    intro p k hl
    obtain ⟨e, h1, h2⟩ := locate_split p hl
    obtain ⟨_, _, _, hre⟩ := locate_rep p hr h1
    have := (rep_reach hr hre).2.2 _ (List.mem_of_getElem? h2)
    rw [rep_parent hr] at this
    cases this
  intro n
  induction n with
  | zero =>
    intro p q x hn hp hq
    cases List.eq_nil_of_length_eq_zero hn
    cases hp
    rcases List.eq_nil_or_concat q with rfl | ⟨q', k, rfl⟩
    · rfl
    · exact (top (by simpa using hq)).elim
  | succ n ih =>
    intro p q x hn hp hq
    rcases List.eq_nil_or_concat p with rfl | ⟨p', j, rfl⟩
    · cases hn
    rcases List.eq_nil_or_concat q with rfl | ⟨q', k, rfl⟩
    · cases hq
      exact (top (by simpa using hp)).elim
    · rw [List.concat_eq_append] at *
      obtain ⟨a, a1, a2⟩ := locate_split p' hp
      obtain ⟨b, b1, b2⟩ := locate_split q' hq
      obtain ⟨_, _, _, hra⟩ := locate_rep p' hr a1
      obtain ⟨_, _, _, hrb⟩ := locate_rep q' hr b1
      have e1 := (rep_reach hr hra).2.2 _ (List.mem_of_getElem? a2)
      have e2 := (rep_reach hr hrb).2.2 _ (List.mem_of_getElem? b2)
      rw [e1] at e2
      cases e2
      have hpq := ih p' q' (by simpa using hn) a1 b1
      subst hpq
      have hnd := (rep_reach hr hra).2.1
      obtain ⟨l1, v1⟩ := List.getElem?_eq_some_iff.1 a2
      obtain ⟨l2, v2⟩ := List.getElem?_eq_some_iff.1 b2
      have := nodup_index hnd l1 l2 (by rw [v1, v2])
      rw [this, List.concat_eq_append]

/-- Where the removal stands: the elements `dn` are out. -/
structure PruneInv (h0 : Heap) (t0 : Id) (dn : List Id) (h : Heap) : Prop where
  kids : ∀ i, Reachable h0 [t0] i → h.children i = (h0.children i).filter fun c => !dn.contains c
  shell : ∀ i, (h.obj i).map Obj.shell = (h0.obj i).map Obj.shell
  parent : ∀ i, i ∉ dn → h.xmlParent i = h0.xmlParent i
  gone : ∀ i ∈ dn, h.xmlParent i = none
  outside : ∀ i, ¬ Reachable h0 [t0] i → h.obj i = h0.obj i

theorem isElem_of_shell {h h' : Heap} {i : Id} (hs : (h'.obj i).map Obj.shell = (h.obj i).map Obj.shell) (he : h.isElem i) :
    h'.isElem i := by
  obtain ⟨n, as, cs, p, ho⟩ := he
  rw [ho] at hs
  cases ho' : h'.obj i with
  | none => rw [ho'] at hs; cases hs
  | some o =>
    cases o with
    | text s q => rw [ho'] at hs; simp [Obj.shell] at hs
    | elem m bs ds q => exact ⟨m, bs, ds, q, ho'⟩

/-- A node of the tree other than the top is listed by its parent. -/
theorem listed {h : Heap} {t0 y : Id} (hy : Reachable h [t0] y) (hne : y ≠ t0) :
    ∃ p, Reachable h [t0] p ∧ y ∈ h.children p := by
  cases hy with
  | root hm => exact (hne (List.mem_singleton.1 hm)).elim
  | child hj hc => exact ⟨_, hj, hc⟩

theorem prune_step {h0 h : Heap} {t0 y : Id} {tree : Node} {dn : List Id} (hr : Rep h0 none t0 tree)
    (hi : PruneInv h0 t0 dn h) (hy : Reachable h0 [t0] y) (hne : y ≠ t0) (hel : h0.isElem y) (hdn : y ∉ dn) :
    ∃ p h1, h.xmlParent y = some p ∧ h.xmlRemove p y = .ok h1 ∧ PruneInv h0 t0 (dn ++ [y]) h1 := by
  obtain ⟨p, hp1, hp2⟩ := listed hy hne
  have hpy0 : h0.xmlParent y = some p := (rep_reach hr hp1).2.2 y hp2
  have hpy : h.xmlParent y = some p := by rw [hi.parent y hdn, hpy0]
  have hyel : h.isElem y := isElem_of_shell (hi.shell y) hel
  have hymem : y ∈ h.children p := by
    rw [hi.kids p hp1, List.mem_filter]
    exact ⟨hp2, by simp [hdn]⟩
  have hpel : h.isElem p := by
    cases ho : h.obj p with
    | none => rw [Heap.children, ho] at hymem; cases hymem
    | some o =>
      cases o with
      | text s q => rw [Heap.children, ho] at hymem; simp [Obj.kids] at hymem
      | elem m as cs q => exact ⟨m, as, cs, q, ho⟩
  obtain ⟨h1, hrem⟩ := (C26_remove_succeeds_iff hpel hyel).1 hymem
  refine ⟨p, h1, hpy, hrem, ?_⟩
  obtain ⟨_, k1, k2, k3, k4, k5⟩ := C26_remove_element_partial hyel hrem
  obtain ⟨m, as, cs, q, m', as', cs', q', o1, o2, _, _, o5⟩ := remove_spec hyel hrem
  refine ⟨?_, ?_, ?_, ?_, ?_⟩
  · intro i hm
    by_cases hip : i = p
    · subst hip
      rw [k1, hi.kids i hm, (List.Sublist.nodup List.filter_sublist (rep_reach hr hm).2.1).erase_eq_filter,
        List.filter_filter]
      refine List.filter_congr fun c _ => ?_
      by_cases hc : c = y
      · subst hc; simp
      · simp [hc]
    · rw [k3 i hip, hi.kids i hm]
      refine List.filter_congr fun c hcm => ?_
      have hc : c ≠ y := by
        rintro rfl
        have := (rep_reach hr hm).2.2 c hcm
        rw [hpy0] at this
        exact hip (Option.some.inj this).symm
      simp [hc]
  · intro i
    rw [← hi.shell i, o5 i]
    by_cases h1 : i = p
    · rw [if_pos h1, h1, o1]; rfl
    · rw [if_neg h1]
      by_cases h2 : i = y
      · rw [if_pos h2, h2, o2]; rfl
      · rw [if_neg h2]
  · intro i hni
    have hiy : i ≠ y := by rintro rfl; exact hni (by simp)
    rw [k5 i hiy]
    exact hi.parent i fun hm => hni (by simp [hm])
  · intro i hm
    by_cases hiy : i = y
    · subst hiy; exact k2
    · rw [k5 i hiy]
      exact hi.gone i (by simpa [hiy] using hm)
  · intro i hni
    rw [k4 i (fun hx => hni (hx ▸ hp1)) (fun hx => hni (hx ▸ hy))]
    exact hi.outside i hni

theorem prune_exists {h0 : Heap} {t0 : Id} {tree : Node} (hr : Rep h0 none t0 tree) : ∀ (xs : List Id) {h : Heap}
    {dn : List Id}, PruneInv h0 t0 dn h → (∀ y ∈ xs, Reachable h0 [t0] y ∧ h0.isElem y) → t0 ∉ xs → (dn ++ xs).Nodup →
    ∃ h', RemoveAll h xs h' := by
  intro xs
  induction xs with
  | nil => intro h dn _ _ _ _; exact ⟨h, .nil⟩
  | cons y ys ih =>
    intro h dn hi hxs ht hnd
    obtain ⟨p, h1, a1, a2, a3⟩ := prune_step hr hi (hxs y (by simp)).1 (fun hx => ht (by simp [hx])) (hxs y (by simp)).2
      (fun hm => (List.nodup_append.1 hnd).2.2 y hm y (by simp) rfl)
    obtain ⟨h', hq⟩ := ih a3 (fun z hz => hxs z (by simp [hz])) (fun hm => ht (by simp [hm])) (by simpa using hnd)
    exact ⟨h', .cons a1 a2 hq⟩

theorem prune_done {h0 h h' : Heap} {t0 : Id} {tree : Node} (hr : Rep h0 none t0 tree) {xs : List Id}
    (hq : RemoveAll h xs h') : ∀ {dn : List Id}, PruneInv h0 t0 dn h → (∀ y ∈ xs, Reachable h0 [t0] y ∧ h0.isElem y) →
    t0 ∉ xs ∧ (dn.Nodup → (dn ++ xs).Nodup) ∧ PruneInv h0 t0 (dn ++ xs) h' := by
  induction hq with
  | nil => intro dn hi _; simpa using hi
  | @cons h h1 h' y ys p a1 a2 _ ih =>
    intro dn hi hxs
    have hydn : y ∉ dn := fun hm => by rw [hi.gone y hm] at a1; cases a1
    have hyt : y ≠ t0 := by
      rintro rfl
      rw [hi.parent y hydn, rep_parent hr] at a1
      cases a1
    obtain ⟨p', h1', b1, b2, b3⟩ := prune_step hr hi (hxs y (by simp)).1 hyt (hxs y (by simp)).2 hydn
    rw [a1] at b1; cases b1
    rw [a2] at b2; cases b2
    obtain ⟨c1, c2, c3⟩ := ih b3 fun z hz => hxs z (by simp [hz])
    refine ⟨by simp [c1, Ne.symm hyt], fun hd => ?_, by simpa using c3⟩
    have := c2 (by
      rw [List.nodup_append]
      exact ⟨hd, by simp, fun a ha b hb hab => by
        rw [List.mem_singleton] at hb
        subst hab; subst hb; exact hydn ha⟩)
    simpa using this

/-- A tree in memory whose child lists have lost some nodes. -/
theorem rep_cut {h0 h' : Heap} {t0 : Id} {xs : List Id} {ps : List Path}
    (hps : ∀ q x, h0.locate t0 q = some x → (x ∈ xs ↔ q ∈ ps))
    (kids : ∀ q i, h0.locate t0 q = some i → h'.children i = (h0.children i).filter fun c => !xs.contains c)
    (shell : ∀ i, (h'.obj i).map Obj.shell = (h0.obj i).map Obj.shell)
    (parent : ∀ i, i ∉ xs → h'.xmlParent i = h0.xmlParent i) :
    (∀ (t : Node) (i : Id) (here : Path) (p p' : Option Id), h0.locate t0 here = some i → h'.xmlParent i = p' →
      Rep h0 p i t → Rep h' p' i (t.cutAt ps here)) ∧
    (∀ (ts : List Node) (par : Id) (cs : List Id) (here : Path) (k : Nat),
      (∀ (j : Nat) c, cs[j]? = some c → h0.locate t0 (here ++ [k + j]) = some c) → RepList h0 par cs ts →
      RepList h' par (cs.filter fun c => !xs.contains c) (Node.cutAtList ps here k ts)) := by
  apply Node.induct
  case elem =>
    intro m as cs ih i here p p' hl hp hr
    obtain ⟨cs', q, h1, h2, h3, h4⟩ := hr
    have hc : h0.children i = cs' := by simp [Heap.children, h1, Obj.kids]
    have hk := kids here i hl
    have hs := shell i
    rw [h1] at hs
    cases ho : h'.obj i with
    | none => rw [ho] at hs; cases hs
    | some o =>
      rw [ho] at hs
      cases o with
      | text s q' => simp [Obj.shell] at hs
      | elem m' as' cs'' q' =>
        simp only [Option.map_some, Obj.shell, Option.some.injEq, Sum.inr.injEq, Prod.mk.injEq] at hs
        obtain ⟨rfl, rfl⟩ := hs
        have hk' : h'.children i = cs'' := by simp [Heap.children, ho, Obj.kids]
        rw [hc, hk'] at hk
        rw [Node.cutAt]
        refine ⟨cs'', q', ho, hp, ?_, ?_⟩
        · rw [hk]; exact List.Sublist.nodup List.filter_sublist h3
        · rw [hk]
          refine ih i cs' here 0 (fun j c hj => ?_) h4
          rw [Nat.zero_add, locate_kid here hl, hc]
          exact hj
  case text =>
    intro s i here p p' _ hp hr
    obtain ⟨q, h1, h2⟩ := hr
    have hs := shell i
    rw [h1] at hs
    cases ho : h'.obj i with
    | none => rw [ho] at hs; cases hs
    | some o =>
      rw [ho] at hs
      cases o with
      | elem => simp [Obj.shell] at hs
      | text s' q' =>
        simp only [Option.map_some, Obj.shell, Option.some.injEq, Sum.inl.injEq] at hs
        subst hs
        exact ⟨q', ho, hp⟩
  case nil =>
    intro par cs here k _ hr
    cases hr
    rw [Node.cutAtList]
    rfl
  case cons =>
    intro t ts iht ihts par cs here k hT hr
    obtain ⟨c, r, rfl, h1, h2⟩ := hr
    have ihr := ihts par r here (k + 1) (fun j d hj => by
      have := hT (j + 1) d hj
      rw [show k + 1 + j = k + (j + 1) by omega]; exact this) h2
    have hlc : h0.locate t0 (here ++ [k]) = some c := hT 0 c rfl
    rw [Node.cutAtList]
    by_cases hm : c ∈ xs
    · rw [List.filter_cons, if_neg (by simp [hm]), if_pos ((hps _ _ hlc).1 hm)]
      exact ihr
    · rw [List.filter_cons, if_pos (by simp [hm]), if_neg (fun h => hm ((hps _ _ hlc).2 h))]
      exact ⟨c, _, rfl, iht c _ _ _ hlc (by rw [parent c hm]; exact rep_parent h1) h1, ihr⟩

/-- What two lists of positions and objects that belong together say of one position. -/
theorem located_mem {h : Heap} {t0 : Id} {tree : Node} (hr : Rep h none t0 tree) {ps : List Path} {xs : List Id}
    (hx : ps.map (h.locate t0) = xs.map some) {q : Path} {x : Id} (hl : h.locate t0 q = some x) : x ∈ xs ↔ q ∈ ps := by
  constructor
  · intro hm
    have : some x ∈ ps.map (h.locate t0) := by rw [hx]; exact List.mem_map.2 ⟨x, hm, rfl⟩
    obtain ⟨p, hp, he⟩ := List.mem_map.1 this
    rw [locate_inj hr _ q p rfl hl he]; exact hp
  · intro hm
    have : h.locate t0 q ∈ xs.map some := by rw [← hx]; exact List.mem_map.2 ⟨q, hm, rfl⟩
    rw [hl] at this
    obtain ⟨y, hy, he⟩ := List.mem_map.1 this
    cases he
    exact hy

/-- The elements at the positions of elements. -/
theorem located_elems {h : Heap} {t0 : Id} {tree : Node} (hr : Rep h none t0 tree) {ps : List Path} {xs : List Id}
    (hx : ps.map (h.locate t0) = xs.map some) (hps : ∀ p ∈ ps, tree.ElemAt p) :
    ∀ x ∈ xs, Reachable h [t0] x ∧ h.isElem x := by
  intro x hm
  have : some x ∈ ps.map (h.locate t0) := by rw [hx]; exact List.mem_map.2 ⟨x, hm, rfl⟩
  obtain ⟨p, hp, he⟩ := List.mem_map.1 this
  obtain ⟨s, h1, h2, h3⟩ := locate_rep p hr he
  obtain ⟨m, as, ts, h4⟩ := hps p hp
  rw [h1] at h4; cases h4
  obtain ⟨cs, q, h5, _⟩ := h2
  exact ⟨h3, m, as, cs, q, h5⟩

theorem located_nodup {h : Heap} {t0 : Id} {tree : Node} (hr : Rep h none t0 tree) : ∀ {ps : List Path} {xs : List Id},
    ps.map (h.locate t0) = xs.map some → (xs.Nodup ↔ ps.Nodup) := by
  intro ps
  induction ps with
  | nil => intro xs hx; cases xs with
    | nil => simp
    | cons => cases hx
  | cons p ps ih =>
    intro xs hx
    cases xs with
    | nil => cases hx
    | cons x xs =>
      simp only [List.map_cons, List.cons.injEq] at hx
      rw [List.nodup_cons, List.nodup_cons, ih hx.2, located_mem hr hx.2 hx.1]

/-- C144: `for x in list(...): x.xml_parent.xml_remove(x)`, for elements `xs` of a tree, at the positions `ps`: it runs
without an error just if the document element is not among them and none comes twice. -/
theorem C144_when_it_succeeds {h0 : Heap} {t0 : Id} {tree : Node} (hr : Rep h0 none t0 tree) {ps : List Path}
    {xs : List Id} (hx : ps.map (h0.locate t0) = xs.map some) (hps : ∀ p ∈ ps, tree.ElemAt p) :
    (∃ h', RemoveAll h0 xs h') ↔ [] ∉ ps ∧ ps.Nodup := by
  have hel := located_elems hr hx hps
  have init : PruneInv h0 t0 [] h0 :=
    ⟨fun i _ => by simp [List.filter_eq_self.2], fun _ => rfl, fun _ _ => rfl, by simp, fun _ _ => rfl⟩
  have htop : t0 ∈ xs ↔ [] ∈ ps := located_mem hr hx rfl
  rw [← htop, ← located_nodup hr hx]
  constructor
  · rintro ⟨h', hq⟩
    obtain ⟨h1, h2, _⟩ := prune_done hr hq init hel
    exact ⟨h1, by simpa using h2 List.nodup_nil⟩
  · rintro ⟨h1, h2⟩
    exact prune_exists hr xs init hel h1 (by simpa using h2)

/-- C144: and when it has run, the tree is the old one without these elements; each of them is a tree of its own, without
those of them that were inside; and no object that was not in the tree has changed. -/
theorem C144_what_is_left {h0 h' : Heap} {t0 : Id} {tree : Node} (hr : Rep h0 none t0 tree) {ps : List Path}
    {xs : List Id} (hx : ps.map (h0.locate t0) = xs.map some) (hps : ∀ p ∈ ps, tree.ElemAt p)
    (hq : RemoveAll h0 xs h') :
    Rep h' none t0 (tree.cutAt ps []) ∧
    (∀ p x s, h0.locate t0 p = some x → tree.at? p = some s →
      Rep h' (if p ∈ ps then none else h0.xmlParent x) x (s.cutAt ps p)) ∧
    ∀ i, ¬ Reachable h0 [t0] i → h'.obj i = h0.obj i := by
  have hel := located_elems hr hx hps
  have init : PruneInv h0 t0 [] h0 :=
    ⟨fun i _ => by simp [List.filter_eq_self.2], fun _ => rfl, fun _ _ => rfl, by simp, fun _ _ => rfl⟩
  obtain ⟨ht, _, fin⟩ := prune_done hr hq init hel
  rw [List.nil_append] at fin
  have all : ∀ p x s, h0.locate t0 p = some x → tree.at? p = some s →
      Rep h' (if p ∈ ps then none else h0.xmlParent x) x (s.cutAt ps p) := by
    intro p x s hl hs
    obtain ⟨s', h1, h2, h3⟩ := locate_rep p hr hl
    rw [hs] at h1; cases h1
    refine (rep_cut (fun q y hy => located_mem hr hx hy) (fun q i hi => ?_) fin.shell fin.parent).1 s x p _ _ hl ?_ h2
    · obtain ⟨_, _, _, h4⟩ := locate_rep q hr hi
      exact fin.kids i h4
    · by_cases hm : p ∈ ps
      · rw [if_pos hm]; exact fin.gone x ((located_mem hr hx hl).2 hm)
      · rw [if_neg hm]; exact fin.parent x fun h => hm ((located_mem hr hx hl).1 h)
  refine ⟨?_, all, fin.outside⟩
  have := all [] t0 tree rfl rfl
  rw [if_neg (fun h => ht ((located_mem hr hx rfl).2 h)), rep_parent hr] at this
  exact this

variable {F : Type}

theorem same_byChildren {E : Env F} {n : Nat} {h : Heap} {t0 : Id} {P : LivePath} {ex : Expr F}
    (hs : SameQuery E n h t0 P ex) : P.byChildren = true := by
  induction hs with
  | step m => rfl
  | slash _ _ h1 h2 => simp [LivePath.byChildren, h1, h2]
  | test _ _ _ h1 => exact h1

/-- C144: the results of a path of child steps with tests can always be taken out. -/
theorem C144_path (E : Env F) (hd : E.doc.NoEmptyText) {n : Nat} {h : Heap} {t0 : Id} (hr : Rep h none t0 E.doc)
    {P : LivePath} {ex : Expr F} (hs : SameQuery E n h t0 P ex) {p : Path} {e : Id} (hp : E.doc.ElemAt p)
    (hl : h.locate t0 p = some e) : ∃ (ps : List Path) (xs : List Id), E.Yields n ex (.node p) (ps.map .node) ∧
      ps.map (h.locate t0) = xs.map some ∧ (∃ h', RemoveAll h xs h') ∧
      ∀ h', RemoveAll h xs h' → Rep h' none t0 (E.doc.cutAt ps []) := by
  obtain ⟨ps, h1, h2, h3⟩ := C143_is_the_query E hd hr hs hp hl
  obtain ⟨_, _, _, hre⟩ := locate_rep p hr hl
  have hnd := (C143_results_can_be_rewritten hr hre (same_byChildren hs) .refl).1
  refine ⟨ps, P.found h e, h1, h3, ?_, fun h' hq => (C144_what_is_left hr h3 h2 hq).1⟩
  refine (C144_when_it_succeeds hr h3 h2).2 ⟨fun hm => ?_, (located_nodup hr h3).1 hnd⟩
  have ht : t0 ∈ P.found h e := (located_mem hr h3 rfl).2 hm
  obtain ⟨a1, a2⟩ := tried_place hr P e hre
  have := (a1 t0 (a2.subset ht)).2
  have hpos := levels_pos P
  cases hlv : P.levels with
  | zero => omega
  | succ k => rw [hlv, upTimes, rep_parent hr] at this; cases this

/-- Cutting out all elements with a name. -/
theorem cut_named {nm : Str} {ps : List Path} :
    (∀ (t : Node) (here : Path), (∀ q, q ≠ [] → (here ++ q ∈ ps ↔ t.Named nm q)) → t.cutAt ps here = t.without nm) ∧
    (∀ (ts : List Node) (here : Path) (k : Nat),
      (∀ (j : Nat) t, ts[j]? = some t → ∀ q, here ++ [k + j] ++ q ∈ ps ↔ t.Named nm q) →
      Node.cutAtList ps here k ts = Node.withoutList nm ts) := by
  apply Node.induct
  case elem =>
    intro m as cs ih here hn
    rw [Node.cutAt, Node.without, ih here 0]
    intro j t hj q
    rw [Nat.zero_add, List.append_assoc, hn ([j] ++ q) (by simp)]
    simp only [Node.Named, List.singleton_append, Node.at?, Node.xmlChildren, hj]
  case text => intro s here _; rw [Node.cutAt, Node.without]
  case nil => intro here k _; rw [Node.cutAtList, Node.withoutList]
  case cons =>
    intro t ts iht ihts here k hn
    have ihr := ihts here (k + 1) fun j t' hj q => by
      have := hn (j + 1) t' hj q
      rw [show k + 1 + j = k + (j + 1) by omega]; exact this
    have h0 := hn 0 t rfl
    rw [Nat.add_zero] at h0
    have hc := iht (here ++ [k]) fun q _ => h0 q
    have hself := h0 []
    rw [List.append_nil] at hself
    rw [Node.cutAtList, ihr]
    cases t with
    | text s =>
      rw [if_neg (by rw [hself]; rintro ⟨_, _, h⟩; cases h), hc, Node.withoutList, Node.without]
    | elem m as cs =>
      rw [Node.withoutList]
      by_cases hm : m = nm
      · rw [if_pos hm, if_pos (hself.2 ⟨as, cs, by rw [hm]; rfl⟩)]
      · rw [if_neg hm, if_neg (by rw [hself]; rintro ⟨_, _, h⟩; cases h; exact hm rfl), hc, Node.without]

/-- C144: so can those of `//nm`, from anywhere in the tree, unless the document element has that name: what is left is
the document without any element of that name. -/
theorem C144_everywhere (E : Env F) (hd : E.doc.NoEmptyText) (n : Nat) {h : Heap} {t0 : Id} (hr : Rep h none t0 E.doc)
    {x : Item F} (hx : x = .root ∨ ∃ p, x = .node p ∧ E.doc.ElemAt p) (nm : Str) (hne : ¬ E.doc.Named nm []) :
    ∃ (ps : List Path) (xs : List Id), E.Yields n (.absAll (.step .child (.name nm))) x (ps.map .node) ∧
      ps.map (h.locate t0) = xs.map some ∧ (∃ h', RemoveAll h xs h') ∧
      ∀ h', RemoveAll h xs h' → Rep h' none t0 (E.doc.without nm) := by
  obtain ⟨ps, h1, h2, h3⟩ := C48_every_element_once E hd n x hx nm
  have hel : ∀ p ∈ ps, E.doc.ElemAt p := fun p hp => by
    obtain ⟨as, cs, h⟩ := (h3 p).1 hp
    exact ⟨_, _, _, h⟩
  have hxs : ∃ xs : List Id, ps.map (h.locate t0) = xs.map some := by
    clear h1 h2 h3
    induction ps with
    | nil => exact ⟨[], rfl⟩
    | cons p ps ih =>
      obtain ⟨xs, h5⟩ := ih fun q hq => hel q (by simp [hq])
      obtain ⟨_, _, _, h6⟩ := hel p (by simp)
      obtain ⟨e, h7⟩ := rep_locate p hr h6
      exact ⟨e :: xs, by rw [List.map_cons, List.map_cons, h7, h5]⟩
  obtain ⟨xs, h5⟩ := hxs
  refine ⟨ps, xs, h1, h5, (C144_when_it_succeeds hr h5 hel).2 ⟨fun hm => hne ((h3 []).1 hm), h2⟩, fun h' hq => ?_⟩
  have := (C144_what_is_left hr h5 hel hq).1
  rwa [(cut_named (nm := nm)).1 E.doc [] (fun q _ => by rw [List.nil_append, h3])] at this

/-- `//nm` where elements named so are inside of each other: two objects, at `[0]` and `[0, 0]`. -/
def exNest : Heap := ⟨4, fun i => match i with
  | 0 => some (.elem ['r'] [] [1, 3] none)
  | 1 => some (.elem ['b'] [] [2] (some 0))
  | 2 => some (.elem ['b'] [] [] (some 1))
  | 3 => some (.text ['x'] (some 0))
  | _ => none⟩

def exNestTree : Node := .elem ['r'] [] [.elem ['b'] [] [.elem ['b'] [] []], .text ['x']]

theorem exNest_rep : Rep exNest none 0 exNestTree :=
  ⟨[1, 3], none, rfl, rfl, by decide,
    1, [3], rfl, ⟨[2], some 0, rfl, rfl, by decide, 2, [], rfl, ⟨[], some 1, rfl, rfl, by decide, rfl⟩, rfl⟩,
    3, [], rfl, ⟨some 0, rfl, rfl⟩, rfl⟩

/-- The outer and then the inner one are taken out. -/
example : [[0], [0, 0]].map (exNest.locate 0) = ([1, 2] : List Id).map some ∧ exNestTree.ElemAt [0] ∧ exNestTree.ElemAt [0, 0] ∧
    exNestTree.cutAt [[0], [0, 0]] [] = .elem ['r'] [] [.text ['x']] ∧
    (Node.elem ['b'] [] [.elem ['b'] [] []]).cutAt [[0], [0, 0]] [0] = .elem ['b'] [] [] ∧
    ∃ h', RemoveAll exNest [1, 2] h' :=
  ⟨rfl, ⟨_, _, _, rfl⟩, ⟨_, _, _, rfl⟩, by decide +kernel, by decide +kernel,
    (C144_when_it_succeeds exNest_rep (ps := [[0], [0, 0]]) rfl (by
      intro p hp
      simp only [List.mem_cons, List.not_mem_nil, or_false] at hp
      rcases hp with rfl | rfl <;> exact ⟨_, _, _, rfl⟩)).2 ⟨by decide, by decide⟩⟩

/-- Some queries give an element twice (C51, C141); then the second removal fails. -/
theorem C144_twice_fails : ¬ ∃ h', RemoveAll exNest [1, 1] h' := fun h =>
  absurd ((C144_when_it_succeeds exNest_rep (ps := [[0], [0]]) rfl (by
    intro p hp
    simp only [List.mem_cons, List.not_mem_nil, or_false, or_self] at hp
    subst hp; exact ⟨_, _, _, rfl⟩)).1 h).2 (by decide)

end Amara
