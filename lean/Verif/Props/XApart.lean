import Verif.Lemmas.XApart
import Verif.Props.XHeap
/-
C154: a query keeps to the trees it is given.
-/
namespace Amara

variable {F : Type}

theorem contextItem_inside {S : Id → Prop} {h h' : Heap} (ha : SameOn S h h') {i : Id} (hi : S i) :
    (Mem.contextItem h i : Mem.Item F).Inside S ∧ (Mem.contextItem h' i : Mem.Item F) = Mem.contextItem h i := by
  unfold Mem.contextItem
  rw [(ha i hi).2]
  refine ⟨?_, rfl⟩
  split <;> exact hi

/-- C154: in two memories in which a set of objects, closed under children and parents, is the same, a query on one of them, with
variables that are values or such nodes, gives the same, whatever else there is in the one memory and in the other; and it yields
only values and such nodes.  Nothing is asked of these objects: they need not be a tree. -/
theorem C154_isolated (fo : FloatOps F) {S : Id → Prop} {h h' : Heap} (hs : Enclosed S h) (ha : SameOn S h h') (k : Nat)
    {vars : Str → Option (Mem.Item F)} (hv : ∀ v x, vars v = some x → x.Inside S) (n : Nat) {i : Id} (hi : S i) (xp : XPathThing F) :
    Mem.xmlXPath fo h' k vars n i xp = Mem.xmlXPath fo h k vars n i xp ∧ ∀ y ∈ (Mem.xmlXPath fo h k vars n i xp).items, y.Inside S := by
  obtain ⟨h1, h2⟩ := contextItem_inside (F := F) ha hi
  unfold Mem.xmlXPath
  rw [h2]
  cases xp with
  | str s =>
    simp only []
    cases parseText fo s with
    | error er => exact held_empty
    | ok e => exact held_evalN fo hs ha k hv _ n e _ h1
  | parsed e => exact held_evalN fo hs ha k hv _ n e _ h1

theorem sameOn_refl (S : Id → Prop) (h : Heap) : SameOn S h h := fun _ _ => ⟨rfl, rfl⟩

/-- C154: every node a query yields can be reached, along children and parents, from the element it is asked on or from a node
that is the value of a variable. -/
theorem C154_results_are_linked (fo : FloatOps F) (h : Heap) (k : Nat) (vars : Str → Option (Mem.Item F)) (n : Nat) (i : Id)
    (xp : XPathThing F) {y : Mem.Item F} (hy : y ∈ (Mem.xmlXPath fo h k vars n i xp).items) {j : Id} (hj : y.object = some j) :
    LeadsTo h i j ∨ ∃ v x o, vars v = some x ∧ x.object = some o ∧ LeadsTo h o j := by
  have key := (C154_isolated fo (S := fun j => LeadsTo h i j ∨ ∃ v x o, vars v = some x ∧ x.object = some o ∧ LeadsTo h o j)
    (h := h) (h' := h) ?_ (sameOn_refl _ _) k (vars := vars) ?_ n (.inl .refl) xp).2 y hy
  · cases y <;> cases hj <;> exact key
  · rintro a (ha | ⟨v, x, o, h1, h2, h3⟩)
    · exact ⟨fun c hc => .inl (.child ha hc), fun p hp => .inl (.parent ha hp)⟩
    · exact ⟨fun c hc => .inr ⟨v, x, o, h1, h2, .child h3 hc⟩, fun p hp => .inr ⟨v, x, o, h1, h2, .parent h3 hp⟩⟩
  · intro v x hx
    cases x <;> first | trivial | exact .inr ⟨v, _, _, hx, rfl, .refl⟩

theorem locate_child {h : Heap} : ∀ (p : Path) {r i c : Id} {k : Nat}, h.locate r p = some i → (h.children i)[k]? = some c →
    h.locate r (p ++ [k]) = some c
  | [], r, i, c, k, h1, h2 => by
    cases h1
    simp only [List.nil_append, Heap.locate, h2]
  | j :: p, r, i, c, k, h1, h2 => by
    simp only [Heap.locate] at h1
    simp only [List.cons_append, Heap.locate]
    cases hc : (h.children r)[j]? with
    | none => rw [hc] at h1; cases h1
    | some d =>
      rw [hc] at h1
      exact locate_child p h1 h2

theorem reach_located {h : Heap} {r i : Id} (hi : Reachable h [r] i) : ∃ p, h.locate r p = some i := by
  induction hi with
  | root hm => rw [List.mem_singleton.1 hm]; exact ⟨[], rfl⟩
  | child _ hc ih =>
    obtain ⟨p, hp⟩ := ih
    obtain ⟨k, hk⟩ := List.mem_iff_getElem?.1 hc
    exact ⟨_, locate_child p hp hk⟩

theorem enclosed_trees {h : Heap} {R : Id → Prop} (hR : ∀ r, R r → ∃ t, Rep h none r t) : Enclosed (InTrees h R) h := by
  rintro i ⟨r, hr, hi⟩
  refine ⟨fun c hc => ⟨r, hr, .child hi hc⟩, fun p hp => ?_⟩
  obtain ⟨t, ht⟩ := hR r hr
  obtain ⟨q, hq⟩ := reach_located hi
  rcases List.eq_nil_or_concat q with rfl | ⟨q', j, rfl⟩
  · cases hq
    rw [rep_parent ht] at hp
    cases hp
  · rw [List.concat_eq_append] at hq
    obtain ⟨e, h1, _, h3⟩ := parent_snoc ht hq
    rw [h3] at hp
    cases hp
    obtain ⟨_, _, _, h4⟩ := locate_rep _ ht h1
    exact ⟨r, hr, h4⟩

/-- C154: after any program, a query on an element of one of some trees of the program, with variables that are values or nodes of these
trees, yields values and nodes of these trees only. -/
theorem C154_results_are_in_the_trees (fo : FloatOps F) {h : Heap} {T : Forest} (hs : EditSteps Heap.empty (fun _ => none) h T)
    {R : Id → Prop} (hR : ∀ r, R r → ∃ t, T r = some t) (k : Nat) {vars : Str → Option (Mem.Item F)}
    (hv : ∀ v x, vars v = some x → x.Inside (InTrees h R)) (n : Nat) {i : Id} (hi : InTrees h R i) (xp : XPathThing F)
    {y : Mem.Item F} (hy : y ∈ (Mem.xmlXPath fo h k vars n i xp).items) : y.Inside (InTrees h R) :=
  (C154_isolated fo (enclosed_trees fun r hr => (hR r hr).elim fun _ ht => ⟨_, C140_memory_is_the_forest hs ht⟩) (sameOn_refl _ _) k hv n
    hi xp).2 y hy

/-! ### what a program does elsewhere -/

theorem touches_sameOn {h h' : Heap} {T : Forest} (hT : Holds h T) {S0 R : Id → Prop} (hR : ∀ r, R r → ∃ t, T r = some t)
    (ht : Touches h h' S0) (hn : ∀ i, InTrees h R i → ¬ S0 i) : SameOn (InTrees h R) h h' := by
  intro i hi
  obtain ⟨r, hr, hi'⟩ := id hi
  obtain ⟨t, hrt⟩ := hR r hr
  have ho := ht.same i (hn i hi) (rep_alive' hT.bounded (hT.trees r t hrt) hi')
  exact ⟨ho, parent_same hT.bounded ht (by rw [ho])⟩

theorem not_inTrees {h : Heap} {T : Forest} (hT : Holds h T) {R : Id → Prop} (hR : ∀ r, R r → ∃ t, T r = some t) {r : Id} {t : Node}
    (hr : T r = some t) (hn : ¬ R r) {i : Id} (hi : Reachable h [r] i) : ¬ InTrees h R i := by
  rintro ⟨d, hd, hi'⟩
  obtain ⟨u, hu⟩ := hR d hd
  rw [same_top (hT.trees d u hu) (hT.trees r t hr) hi' hi] at hd
  exact hn hd

theorem tree_sameOn {h h' : Heap} {d : Id} {u : Node} (hr : Rep h none d u) (hr' : Rep h' none d u)
    (hsame : ∀ k, Reachable h [d] k → h'.obj k = h.obj k) {i : Id} (hi : Reachable h [d] i) : h'.xmlParent i = h.xmlParent i := by
  have hre : ∀ {j}, Reachable h [d] j → Reachable h' [d] j := by
    intro j hj
    induction hj with
    | root hm => exact .root hm
    | child h1 hc ih => exact .child ih (by simpa only [Heap.children, hsame _ h1] using hc)
  cases hi with
  | root hm => rw [List.mem_singleton.1 hm, rep_parent hr, rep_parent hr']
  | @child j _ hj hc =>
    rw [(rep_kids hr hj).2 i hc, (rep_kids hr' (hre hj)).2 i (by simpa only [Heap.children, hsame _ hj] using hc)]

theorem parse_sameOn {T : Forest} {b b' : Builder} (hT : Holds b.heap T) {held : List Id} (hh : T.HeldBy held) {doc : Str} {r : ParseRes}
    (hp : ParseHolding held b doc r b') {d : Id} {u : Node} (hd : T d = some u) : ∀ k, Reachable b.heap [d] k → b'.heap.obj k = b.heap.obj k := by
  have hdh : d ∈ held := hh d (by rw [hd]; simp)
  have hlt : ∀ k, Reachable b.heap [d] k → k < b.heap.next := fun k hk => rep_alive' hT.bounded (hT.trees d u hd) hk
  have hrun : RunsWith (fun roots h h' => Collected (roots ++ [d]) h h') ((drive doc).1.flatMap Event.ops) b.reset b' := by
    refine runsWith_mono (fun r h h' hc => collected_fewer (fun i hi => ?_) hc) hp.1
    rcases List.mem_append.1 hi with h1 | h1
    · exact List.mem_append_left _ h1
    · exact List.mem_append_right _ (List.mem_singleton.1 h1 ▸ hdh)
  have hk0 : KeepsHeld b.heap [d] b.reset := {
    next := Nat.le_refl _, same := fun _ _ _ => rfl, dead := fun _ _ h => h
    root := by simp [Builder.reset], par := by simp [Builder.reset], new := by simp [Builder.reset], txt := by simp [Builder.reset]
    links := fun k o p h3 h4 h5 => absurd (hT.bounded k o h4).1 (Nat.not_lt.2 h3) }
  exact fun k h1 => (keepsHeld_runs hlt hrun hk0).same k h1 (hlt k h1)

theorem insert_changes {h : Heap} {t x u : Node} {p : Path} {e : Id} {q' : Option Id} {n as cs q} {i : Int} (hx : t.at? p = some x)
    (hrx : Rep h q' e x) (ho : h.obj e = some (.elem n as cs q)) : t.change (Node.insertChild i u) p ≠ t := by
  intro h5
  have h6 := C140_changed_here (Node.insertChild i u) p hx
  rw [h5, hx] at h6
  cases x with
  | text y => obtain ⟨_, h1, _⟩ := hrx; rw [ho] at h1; cases h1
  | elem m bs ts =>
    simp only [Node.insertChild, Option.some.injEq, Node.elem.injEq, true_and] at h6
    have := congrArg List.length h6
    simp only [List.length_append, List.length_take, List.length_cons, List.length_drop] at this
    omega

theorem unlink_far {h : Heap} {c k : Id} (hk : k ≠ c) : (h.unlink c).obj k = h.obj k := by
  unfold Heap.unlink
  split <;> first | rfl | rw [Heap.set_obj', if_neg hk]

theorem unlink_some (h : Heap) (c k : Id) : ((h.unlink c).obj k).isSome = (h.obj k).isSome := by
  unfold Heap.unlink
  split
  · rename_i ho; rw [Heap.set_obj']; split
    · rename_i hk; rw [hk, ho]; rfl
    · rfl
  · rename_i ho; rw [Heap.set_obj']; split
    · rename_i hk; rw [hk, ho]; rfl
    · rfl
  · rfl

theorem setChildren_far {h : Heap} {e k : Id} {cs : List Id} (hk : k ≠ e) : (h.setChildren e cs).obj k = h.obj k := by
  unfold Heap.setChildren
  split <;> first | rfl | rw [Heap.set_obj', if_neg hk]

theorem setChildren_some (h : Heap) (e k : Id) (cs : List Id) : ((h.setChildren e cs).obj k).isSome = (h.obj k).isSome := by
  unfold Heap.setChildren
  split
  · rename_i ho; rw [Heap.set_obj']; split
    · rename_i hk; rw [hk, ho]; rfl
    · rfl
  · rfl

/-- `xml_remove` changes the element and the child only. -/
theorem remove_touches {h h' : Heap} {e c : Id} (hok : h.xmlRemove e c = .ok h') : h'.next = h.next ∧
    (∀ i, i < h.next → (h'.obj i).isSome = (h.obj i).isSome) ∧ ∀ k, ¬ (k = e ∨ k = c) → h'.obj k = h.obj k := by
  unfold Heap.xmlRemove at hok
  split at hok
  · rename_i n as cs q ho
    split at hok
    · cases hok
      refine ⟨by rw [setChildren_next, unlink_next], ?_, ?_⟩
      · intro i _
        rw [setChildren_some, unlink_some]
      · intro k hk
        rw [setChildren_far (fun h => hk (.inl h)), unlink_far (fun h => hk (.inr h))]
    · cases hok
  · cases hok

/-- One thing a program does leaves the objects of the trees alone which are the same before and after. -/
theorem step_sameOn {h h' : Heap} {T T' : Forest} (hs : EditStep h T h' T') (hT : Holds h T) {R : Id → Prop}
    (hR : ∀ r, R r → ∃ t, T r = some t) (hsame : ∀ r, R r → T' r = T r) : SameOn (InTrees h R) h h' := by
  have hdis : ∀ {r : Id} {t : Node}, T r = some t → ¬ R r → ∀ {i : Id}, Reachable h [r] i → ¬ InTrees h R i :=
    fun h1 h2 _ h3 => not_inTrees hT hR h1 h2 h3
  have halloc : ∀ o : Obj, SameOn (InTrees h R) h (h.alloc o) := by
    intro o
    refine touches_sameOn hT (S0 := fun _ => False) hR ⟨Nat.le_succ _, fun i hi => ?_, fun k _ hk => ?_⟩ fun _ _ h => h
    · rw [Heap.alloc_obj', if_neg (Nat.ne_of_lt hi)]
    · rw [Heap.alloc_obj', if_neg (Nat.ne_of_lt hk)]
  have hparse : ∀ {held : List Id} {b b' : Builder} {doc : Str} {r : ParseRes}, b.heap = h → T.HeldBy held → ParseHolding held b doc r b' →
      SameOn (InTrees h R) h b'.heap := by
    rintro held b b' doc r rfl hh hp i ⟨d, hd, hi⟩
    obtain ⟨u, hu⟩ := hR d hd
    have h1 := parse_sameOn hT hh hp hu
    exact ⟨h1 i hi, tree_sameOn (hT.trees d u hu) ((parse_keeps hT hh hp).trees d u hu) h1 hi⟩
  -- a change at one element, which is a change of the tree unless the element is as before
  have hshell : ∀ {r e : Id} {t : Node} {p : Path} (f : Node → Node) (g : Str → Attrs → Str × Attrs), T r = some t →
      h.locate r p = some e → (∀ n as ts, f (.elem n as ts) = .elem (g n as).1 (g n as).2 ts) →
      (∀ n as cs q, h.obj e = some (.elem n as cs q) → h' = h.set e (.elem (g n as).1 (g n as).2 cs q)) →
      (∀ s q, h.obj e = some (.text s q) → h' = h) → (R r → t.change f p = t) → SameOn (InTrees h R) h h' := by
    intro r e t p f g hr hl hf hh hh' hsame
    have hrr := hT.trees r t hr
    obtain ⟨s, hx, hrs, hre⟩ := locate_rep p hrr hl
    cases s with
    | text s =>
      obtain ⟨q, ho, _⟩ := hrs
      rw [hh' s q ho]
      exact sameOn_refl _ _
    | elem n as ts =>
      obtain ⟨cs, q, ho, h2, h3, h4⟩ := rep_elem_iff.1 hrs
      have := hh n as cs q ho
      subst this
      by_cases hRr : R r
      · have h5 := C140_changed_here f p hx
        rw [hsame hRr, hx, hf] at h5
        simp only [Option.some.injEq, Node.elem.injEq, and_true] at h5
        have : h.set e (.elem (g n as).1 (g n as).2 cs q) = h := by
          rw [← h5.1, ← h5.2]
          cases h with
          | mk next obj =>
            simp only [Heap.set, Heap.mk.injEq, true_and]
            funext j
            split
            · rename_i hj; rw [hj]; exact ho.symm
            · rfl
        rw [this]
        exact sameOn_refl _ _
      · refine touches_sameOn hT (S0 := (· = e)) hR ⟨Nat.le_refl _, fun i hi => ?_, fun k hk _ => ?_⟩ ?_
        · rw [Heap.set_obj']
          by_cases hie : i = e
          · subst hie; simp [ho]
          · rw [if_neg hie]
        · rw [Heap.set_obj', if_neg hk]
        · rintro i hi rfl
          exact hdis hr hRr hre hi
  cases hs with
  | parse hh hd hp => exact hparse rfl hh hp
  | parseOther hh hp => exact hparse rfl hh hp
  | newElement n as => exact halloc _
  | newText s => exact halloc _
  | @insertString _ _ _ r t p e child s i hr hl hstr hok =>
    have hrr := hT.trees r t hr
    obtain ⟨x, hx, hrx, hre⟩ := locate_rep p hrr hl
    obtain ⟨n, as, cs, q, ho, hnext, hobj⟩ := insertString_obj hT.bounded hstr hok
    have hn : ¬ R r := by
      intro hRr
      have h5 := hsame r hRr
      rw [hr] at h5
      simp only [Forest.put, if_true, Option.some.injEq] at h5
      exact insert_changes hx hrx ho h5
    refine touches_sameOn hT (S0 := (· = e)) hR ⟨by omega, fun i hi => ?_, fun k hk hlt => ?_⟩ ?_
    · rw [hobj]
      by_cases hie : i = e
      · subst hie; simp [ho]
      · rw [if_neg hie, if_neg (Nat.ne_of_lt hi)]
    · rw [hobj, if_neg hk, if_neg (Nat.ne_of_lt hlt)]
    · rintro i hi rfl
      exact hdis hr hn hre hi
  | @insertTree _ _ _ r t p e d u i hr hl hd hu hne hok =>
    have hrr := hT.trees r t hr
    have hdd := hT.trees d u hd
    obtain ⟨x, hx, hrx, hre⟩ := locate_rep p hrr hl
    have hde : d ≠ e := by
      rintro rfl
      exact hne (same_top hdd hrr (reach_self _ _) hre)
    have hn : ¬ R d := by
      intro hRd
      have h5 := hsame d hRd
      rw [hd] at h5
      simp [Forest.put, Forest.drop, hne] at h5
    cases u with
    | text s => simp [Node.isText] at hu
    | elem m bs us =>
    obtain ⟨ds, l, hod, _⟩ := rep_elem_iff.1 hdd
    obtain ⟨n, as, cs, q, ho, hnext, hobj⟩ := insertTree_obj hod hde hok
    have hn' : ¬ R r := by
      intro hRr
      have h5 := hsame r hRr
      rw [hr] at h5
      simp only [Forest.put, if_true, Option.some.injEq] at h5
      exact insert_changes hx hrx ho h5
    refine touches_sameOn hT (S0 := fun k => k = e ∨ k = d) hR ⟨by omega, fun i hi => ?_, fun k hk hlt => ?_⟩ ?_
    · rw [hobj]
      by_cases hie : i = e
      · subst hie; simp [ho]
      · rw [if_neg hie]
        by_cases hid : i = d
        · subst hid; simp [hod]
        · rw [if_neg hid]
    · rw [hobj, if_neg (fun x => hk (Or.inl x)), if_neg (fun x => hk (Or.inr x))]
    · rintro i hi (rfl | rfl)
      · exact hdis hr hn' hre hi
      · exact hdis hd hn (reach_self _ _) hi
  | @remove _ _ _ r t p e k c u hr hl hlc hu hf hok =>
    have hrr := hT.trees r t hr
    obtain ⟨x, hx, hrx, hre⟩ := locate_rep p hrr hl
    obtain ⟨_, _, _, hrc⟩ := locate_rep (p ++ [k]) hrr hlc
    have hn : ¬ R r := by
      intro hRr
      have h5 := hsame r hRr
      rw [hr] at h5
      have hcr : c ≠ r := by
        rintro rfl
        have h6 := (rep_kids hrr hre).2 c (List.mem_of_getElem? (locate_snoc p hl hlc))
        rw [rep_parent hrr] at h6
        cases h6
      simp only [Forest.put, if_neg (Ne.symm hcr), if_true, Option.some.injEq] at h5
      have h6 := C140_changed_here (Node.eraseChild k) p hx
      rw [h5, hx] at h6
      have h7 := at_snoc (k := k) p hx
      rw [hu] at h7
      cases x with
      | text y => simp [Node.xmlChildren] at h7
      | elem n as ts =>
        simp only [Node.eraseChild, Option.some.injEq, Node.elem.injEq, true_and] at h6
        have h8 := (List.getElem?_eq_some_iff.1 h7.symm).1
        simp only [Node.xmlChildren] at h8
        have h9 := congrArg List.length h6
        rw [List.length_eraseIdx, if_pos h8] at h9
        omega
    rcases remove_touches hok with ⟨h1, h2, h3⟩
    refine touches_sameOn hT (S0 := fun k => k = e ∨ k = c) hR ⟨by omega, h2, fun k hk _ => h3 k hk⟩ ?_
    rintro i hi (rfl | rfl)
    · exact hdis hr hn hre hi
    · exact hdis hr hn hrc hi
  | @attributes _ _ r t p e f hr hl =>
    refine hshell (Node.changeAttrs f) (fun n as => (n, f as)) hr hl (fun _ _ _ => rfl) ?_ ?_ ?_
    · intro n as cs q ho; simp [Heap.changeAttrs, ho]
    · intro s q ho; simp [Heap.changeAttrs, ho]
    · intro hRr
      have := hsame r hRr
      rw [hr] at this
      simpa [Forest.put] using this
  | @rename _ _ r t p e m hr hl =>
    refine hshell (Node.rename m) (fun _ as => (m, as)) hr hl (fun _ _ _ => rfl) ?_ ?_ ?_
    · intro n as cs q ho; simp [Heap.rename, ho]
    · intro s q ho; simp [Heap.rename, ho]
    · intro hRr
      have := hsame r hRr
      rw [hr] at this
      simpa [Forest.put] using this
  | forget d => exact sameOn_refl _ _
  | @collect _ _ _ held hh hc =>
    rintro i ⟨r, hr, hi⟩
    obtain ⟨t, ht⟩ := hR r hr
    have hre : ∀ {k}, Reachable h [r] k → h'.obj k = h.obj k := by
      intro k hk
      rcases hc.2 k with h1 | ⟨_, h1⟩
      · exact h1
      · refine absurd (reachable_mono (fun j hj => ?_) hk) h1
        rw [List.mem_singleton.1 hj]
        exact hh r (by rw [ht]; simp)
    exact ⟨hre hi, tree_sameOn (hT.trees r t ht) ((collect_keeps hT hh hc).trees r t ht) (fun k hk => hre hk) hi⟩

theorem inTrees_same {h h' : Heap} {R : Id → Prop} (ha : SameOn (InTrees h R) h h') {i : Id} (hi : InTrees h R i) : InTrees h' R i := by
  obtain ⟨r, hr, hi⟩ := hi
  refine ⟨r, hr, ?_⟩
  induction hi with
  | root hm => exact .root hm
  | child h1 hc ih => exact .child ih (by simpa only [Heap.children, (ha _ ⟨r, hr, h1⟩).1] using hc)

theorem steps_sameOn {h h' : Heap} {T T' : Forest} {R : Id → Prop} (hs : EditStepsBeside R h T h' T') (hT : Holds h T)
    (hR : ∀ r, R r → ∃ t, T r = some t) : SameOn (InTrees h R) h h' ∧ Holds h' T' ∧ ∀ r, R r → T' r = T r := by
  induction hs with
  | refl => exact ⟨sameOn_refl _ _, hT, fun _ _ => rfl⟩
  | tail _ h2 h3 ih =>
    obtain ⟨i1, i2, i3⟩ := ih
    have i4 := step_sameOn h2 i2 (fun r hr => by rw [i3 r hr]; exact hR r hr) h3
    refine ⟨fun i hi => ?_, holds_step h2 i2, fun r hr => (h3 r hr).trans (i3 r hr)⟩
    have h5 := i4 i (inTrees_same i1 hi)
    exact ⟨h5.1.trans (i1 i hi).1, h5.2.trans (i1 i hi).2⟩

/-- C154: a program that goes on parsing, making, changing and giving up other trees, whatever the collector does, cannot change what a
query on these trees gives: it yields the same objects and values, in the same order, and ends the same. -/
theorem C154_other_trees_do_not_matter (fo : FloatOps F) {h h' : Heap} {T T' : Forest} (hs : EditSteps Heap.empty (fun _ => none) h T)
    {R : Id → Prop} (hR : ∀ r, R r → ∃ t, T r = some t) (hs' : EditStepsBeside R h T h' T') (k : Nat) {vars : Str → Option (Mem.Item F)}
    (hv : ∀ v x, vars v = some x → x.Inside (InTrees h R)) (n : Nat) {i : Id} (hi : InTrees h R i) (xp : XPathThing F) :
    Mem.xmlXPath fo h' k vars n i xp = Mem.xmlXPath fo h k vars n i xp := by
  have hT := holds_steps hs holds_empty
  exact (C154_isolated fo (enclosed_trees fun r hr => (hR r hr).elim fun _ ht => ⟨_, hT.trees r _ ht⟩) (steps_sameOn hs' hT hR).1 k hv n
    hi xp).1

-- `a` (object 0) and `b` (object 1) are two trees, and the variable `v` is `b`; then `c` is made and put into `d`.  From `a`,
-- `$v/..` and `$v` are found before and after; and the query is not constant: `$v` is `b` and `.` is `a`
example : ∃ h T h' T', EditSteps Heap.empty (fun _ => none) h T ∧ EditStepsBeside (fun r => r = 0 ∨ r = 1) h T h' T' ∧
    h'.children 3 = [2] ∧
    Mem.xmlXPath noFloats h' 3 (fun _ => some (.obj 1)) 0 0 (.parsed (.seq [.var ['v'], .slash (.var ['v']) .dotdot, .step .child .star])) =
      ⟨[.obj 1, .root 1, .obj 0], .done⟩ ∧
    InTrees h (fun r => r = 0 ∨ r = 1) 1 := by
  refine ⟨_, _, _, _, .tail (.tail .refl (.newElement ['a'] [])) (.newElement ['b'] []),
    .tail (.tail (.tail .refl (.newElement ['c'] []) ?_) (.newElement ['d'] []) ?_)
      (.insertTree (r := 3) (p := []) (e := 3) (d := 2) (i := -1) rfl rfl rfl rfl (by decide) rfl) ?_, ?_, ?_, ?_⟩
  · rintro r (rfl | rfl) <;> rfl
  · rintro r (rfl | rfl) <;> rfl
  · rintro r (rfl | rfl) <;> rfl
  · with_unfolding_all rfl
  · with_unfolding_all rfl
  · exact ⟨1, .inr rfl, reach_self _ _⟩

/-! ### unions of nodes of different trees -/

theorem descNext_inside {S : Id → Prop} {h : Heap} (hs : Enclosed S h) {g : DescGen} (hg : ∀ f ∈ g, S f.1) {y : Id} {g' : DescGen}
    (hn : descNext h g = some (y, g')) : S y ∧ ∀ f ∈ g', S f.1 :=
  (apart_descNext hs (sameOn_refl S h) _ g (Nat.le_refl _) hg).2 y g' hn

theorem numberRest_inside {S : Id → Prop} {h : Heap} (hs : Enclosed S h) {j : Id} (hj : ¬ S j) : ∀ (n : Nat) (g : DescGen) (b : Nat)
    (m m' : Numbers), (∀ f ∈ g, S f.1) → numberRest h n g b m = some m' → m'.obj j = m.obj j
  | n, g, b, m, m', hg, hm => by
    unfold numberRest at hm
    cases hd : descNext h g with
    | none => rw [hd] at hm; cases hm; rfl
    | some yg =>
      rw [hd] at hm
      obtain ⟨h1, h2⟩ := descNext_inside hs hg (y := yg.1) (g' := yg.2) hd
      cases n with
      | zero => cases hm
      | succ n =>
        rw [numberRest_inside hs hj n yg.2 (b + 1) _ m' h2 hm]
        simp only [Numbers.put]
        rw [if_neg]
        rintro rfl
        exact hj h1

/-- C154: a union of nodes of different trees raises AttributeError, unless the foreign node has kept a number from an earlier union.
`d` is the top of the tree of the context. -/
theorem C154_union_with_a_foreign_node {S : Id → Prop} {h : Heap} (hs : Enclosed S h) {d : Id} (hd : S d) {n : Nat} {ctx : ONode}
    (hc : ∀ i, ctx = .obj i ∨ ctx = .attr i → S i) {l r : List ONode} {m : Numbers} {j : Id} (hj : .obj j ∈ l ++ r) (hn : ¬ S j)
    (hm : m.obj j = none) {m' : Numbers} {out : Option (List ONode)} (hu : unionObjs h d n ctx l r m = some (m', out)) : out = none := by
  have key : m'.obj j = none := by
    unfold unionObjs at hu
    split at hu
    · cases hu; exact hm
    · have htop : ∀ {i : Id}, S i → ∀ m1, ((topOf h n i).bind fun t => numberRest h n (descGen t) 0 (m.put t 0)) = some m1 → m1.obj j = none := by
        intro i hi m1 h1
        obtain ⟨t, h2, h3⟩ := Option.bind_eq_some_iff.1 h1
        have ht := (apart_topOf hs (sameOn_refl S h) n hi).2 t h2
        rw [numberRest_inside hs hn n _ _ _ _ (fun f hf => by rw [List.mem_singleton.1 hf]; exact ht) h3]
        simp only [Numbers.put]
        rw [if_neg (by rintro rfl; exact hn ht)]
        exact hm
      obtain ⟨m1, h1, h2⟩ := Option.map_eq_some_iff.1 hu
      cases h2
      cases ctx with
      | root =>
        rw [numberRest_inside hs hn n _ _ _ _ (fun f hf => by rw [List.mem_singleton.1 hf]; exact hd) h1]
        simp only [Numbers.put]
        rw [if_neg (by rintro rfl; exact hn hd)]
        exact hm
      | obj i => exact htop (hc i (.inl rfl)) _ h1
      | attr e => exact htop (hc e (.inr rfl)) _ h1
  have hout : out = sortNumbered m' (l ++ r) := by
    unfold unionObjs at hu
    obtain ⟨m1, _, h2⟩ := Option.map_eq_some_iff.1 hu
    cases h2
    rfl
  rw [hout]
  unfold sortNumbered
  have : ((l ++ r).mapM fun x => (m'.of x).map fun k => (k, x)) = none := by
    generalize l ++ r = xs at hj
    induction xs with
    | nil => cases hj
    | cons a xs ih =>
      rw [List.mapM_cons]
      rcases List.mem_cons.1 hj with rfl | hj
      · simp [Numbers.of, key]
      · rw [ih hj]
        cases (m'.of a) <;> rfl
  rw [this]
  rfl

/-- C154, what is not so: whether such a union fails depends on what was asked before.  `. | $v` on `a`, where `v` is the element `b` of
another document, raises AttributeError; after a query with a union on `b` it yields both. -/
theorem C154_union_depends_on_history :
    let h := ((Heap.empty.newElement ['a'] []).2.newElement ['b'] []).2
    let m0 : Numbers := ⟨none, fun _ => none⟩
    ((unionObjs h 0 1 (.obj 0) [.obj 0] [.obj 1] m0).map (·.2)) = some none ∧
    ∃ m1, (unionObjs h 1 1 (.obj 1) [.obj 1] [] m0) = some (m1, some [.obj 1]) ∧
      ((unionObjs h 0 1 (.obj 0) [.obj 0] [.obj 1] m1).map (·.2)) = some (some [.obj 0, .obj 1]) := by
  refine ⟨by with_unfolding_all rfl, _, by with_unfolding_all rfl, by with_unfolding_all rfl⟩

/-- C154: a union in which there is the root node of a tree other than the one whose root node is the context raises
AttributeError: only the root node of the context gets a number. -/
theorem C154_union_with_a_foreign_root {h : Heap} {k : Nat} {s t : Id} (hne : s ≠ t) {m : Numbers}
    (hm : (Mem.Item.root s : Mem.Item F).numbers h k = some m) {l r : Mem.Res F} (hl : l.tail = .done) (hr : r.tail = .done)
    (ht : .root t ∈ l.items ++ r.items) : Mem.unionRes h k (.root s) l r = ⟨[], .err .attribute⟩ := by
  have key : ∀ xs : List (Mem.Item F), .root t ∈ xs →
      (xs.mapM fun y => ((Mem.Item.root s : Mem.Item F).order m y).map fun c => (c, y)) = none := by
    intro xs hx
    induction xs with
    | nil => cases hx
    | cons a xs ih =>
      rw [List.mapM_cons]
      rcases List.mem_cons.1 hx with rfl | hx
      · simp [Mem.Item.order, hne]
      · rw [ih hx]
        cases ((Mem.Item.root s : Mem.Item F).order m a) <;> rfl
  unfold Mem.unionRes
  rw [if_pos (show (Mem.Item.root s : Mem.Item F).isNode = true from rfl), hm]
  simp only [hl, hr, key _ ht]
  rfl

-- `. | $v` on `a`, where `v` is the root node of the tree of `b`
example :
    let h := ((Heap.empty.newElement ['a'] []).2.newElement ['b'] []).2
    Mem.unionRes (F := NoF) h 2 (.root 0) (.one (.root 0)) (.one (.root 1)) = ⟨[], .err .attribute⟩ ∧
    Mem.unionRes (F := NoF) h 2 (.root 0) (.one (.root 0)) (.one (.obj 0)) = ⟨[.root 0, .obj 0], .done⟩ := by
  with_unfolding_all exact ⟨rfl, rfl⟩

end Amara
