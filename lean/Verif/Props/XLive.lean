import Verif.Lemmas.XLive
/-
C119 and C120: changing a tree while the results of a query are being read.
-/
namespace Amara

/-! ### the descendant axes -/

/-- In the loop: what was passed, what is still to come. -/
def TodoInv (t : Test) (nodes : List Id) (h0 h : Heap) (todo vs : List Id) : Prop :=
  ∃ dn rest, nodes = dn ++ rest ∧ vs = dn.filter (t.live h0) ∧ vs ≠ [] ∧ AllBelow h todo rest ∧
    ∀ i ∈ rest, (h.obj i).map Obj.label = (h0.obj i).map Obj.label

theorem todoInv_change {t : Test} {nodes : List Id} {h0 h h' : Heap} {todo vs : List Id} {ctx : Id}
    (hi : TodoInv t nodes h0 h todo vs) (hr : OnlyBehind ctx nodes vs h h') : TodoInv t nodes h0 h' todo vs := by
  obtain ⟨dn, rest, rfl, h2, h3, h4, h5⟩ := hi
  rw [OnlyBehind] at hr
  cases hl : vs.getLast? with
  | none => exact (h3 (List.getLast?_eq_none_iff.1 hl)).elim
  | some y =>
    rw [hl] at hr
    have hy : y ∈ dn := by
      have := List.mem_of_getLast? hl
      rw [h2] at this
      exact (List.mem_filter.1 this).1
    have hk : ∀ i ∈ rest, SameNode h h' i := fun i hi => hr.1 i ⟨dn, rest, rfl, hy, hi⟩
    exact ⟨dn, rest, rfl, h2, h3, allBelow_kept h4 (fun i hi => (hk i hi).1),
      fun i hi => (hk i hi).2.trans (h5 i hi)⟩

theorem filter_none {α} {p : α → Bool} : ∀ {l : List α}, (∀ x ∈ l, p x = false) → l.filter p = [] := by
  intro l h
  rw [List.filter_eq_nil_iff]
  intro x hx
  rw [h x hx]
  simp

/-- A `next` in the loop, with `nodes` split at what was passed. -/
theorem todo_results {t : Test} {h0 h : Heap} {todo dn rest : List Id} {r : AxisOut}
    (hb : AllBelow h todo rest) (hlab : ∀ i ∈ rest, (h.obj i).map Obj.label = (h0.obj i).map Obj.label)
    (hn : AxisNext t h (.todo todo) r) :
    (r = .finished ∧ (dn ++ rest).filter (t.live h0) = dn.filter (t.live h0)) ∨
    ∃ y todo', r = .give y (.todo todo') ∧ TodoInv t (dn ++ rest) h0 h todo' (dn.filter (t.live h0) ++ [y]) := by
  have hlive : ∀ i ∈ rest, t.live h i = t.live h0 i := fun i hi => live_of_label t (hlab i hi)
  rcases todo_next hn todo rest rfl hb with ⟨e1, e2⟩ | ⟨pre, y, rest', todo', e1, e2, e3, e4, e5⟩
  · refine .inl ⟨e1, ?_⟩
    rw [List.filter_append, filter_none (l := rest) (fun i hi => by rw [← hlive i hi, e2 i hi]), List.append_nil]
  · subst e2
    refine .inr ⟨y, todo', e1, dn ++ pre ++ [y], rest', by simp, ?_, by simp, e5, fun i hi => hlab i (by simp [hi])⟩
    have h1 : pre.filter (t.live h0) = [] := filter_none fun i hi => by rw [← hlive i (by simp [hi]), e3 i hi]
    have h2 : t.live h0 y = true := by rw [← hlive y (by simp), e4]
    simp [List.filter_append, h1, h2]

theorem prefix_filter {α} {p : α → Bool} {a b : List α} : (a.filter p) <+: ((a ++ b).filter p) := by
  rw [List.filter_append]; exact List.prefix_append _ _

/-- C119: the results of `descendant::test` are those of the tree as it was when the first was asked for, in document
order, each once, as long as the caller, in between, changes only nodes that were already reached: taking results out
of the tree, adding children before them or to them, and so on.  There is always a next result or an end, and no
error. -/
theorem C119_descendant {t0 e : Id} {tree : Node} {h0 : Heap} (hr : Rep h0 none t0 tree) (he : Reachable h0 [t0] e)
    {nodes : List Id} (hd : AllBelow h0 (h0.children e) nodes) {t : Test} {h : Heap} {g : AxisGen} {vs : List Id}
    (hrun : AxisRun t (OnlyBehind e nodes) h0 (.start e) [] h g vs) :
    nodes.Nodup ∧ vs <+: nodes.filter (t.live h0) ∧ (∃ r, AxisNext t h g r) ∧
    ∀ r, AxisNext t h g r → (r = .finished ∧ vs = nodes.filter (t.live h0)) ∨
      ∃ y g', r = .give y g' ∧ vs ++ [y] <+: nodes.filter (t.live h0) := by
  have key : (g = .start e ∧ vs = [] ∧ ∀ i ∈ e :: nodes, SameNode h0 h i) ∨
      ∃ todo, g = .todo todo ∧ TodoInv t nodes h0 h todo vs := by
    induction hrun with
    | refl => exact .inl ⟨rfl, rfl, fun i _ => ⟨rfl, rfl⟩⟩
    | change _ hR ih =>
      rcases ih with ⟨e1, e2, e3⟩ | ⟨todo, e1, e2⟩
      · subst e2
        refine .inl ⟨e1, rfl, fun i hi => ?_⟩
        have := hR i hi
        exact ⟨this.1.trans (e3 i hi).1, this.2.trans (e3 i hi).2⟩
      · exact .inr ⟨todo, e1, todoInv_change e2 hR⟩
    | @next h' g' vs' y g'' _ hn ih =>
      rcases ih with ⟨e1, e2, e3⟩ | ⟨todo, e1, e2⟩
      · subst e1; subst e2
        have hn' : AxisNext t h' (.todo (h'.children e)) (.give y g'') := by
          cases hn with
          | give hx => cases hx
          | pass hx hn => cases hx; exact hn
        have hb : AllBelow h' (h'.children e) nodes := by
          rw [(e3 e (by simp)).1]
          exact allBelow_kept hd fun i hi => (e3 i (by simp [hi])).1
        rcases todo_results (dn := []) hb (fun i hi => (e3 i (by simp [hi])).2) hn' with ⟨a, _⟩ | ⟨y', todo', a, b⟩
        · cases a
        · cases a
          exact .inr ⟨todo', rfl, b⟩
      · subst e1
        obtain ⟨dn, rest, rfl, h2, h3, h4, h5⟩ := e2
        rcases todo_results (dn := dn) h4 h5 hn with ⟨a, _⟩ | ⟨y', todo', a, b⟩
        · cases a
        · cases a
          rw [← h2] at b
          exact .inr ⟨todo', rfl, b⟩
  refine ⟨(List.nodup_cons.1 (below_element hr he hd)).2, ?_⟩
  rcases key with ⟨rfl, rfl, e3⟩ | ⟨todo, rfl, dn, rest, rfl, h2, h3, h4, h5⟩
  · have hb : AllBelow h (h.children e) nodes := by
      rw [(e3 e (by simp)).1]
      exact allBelow_kept hd fun i hi => (e3 i (by simp [hi])).1
    refine ⟨List.nil_prefix, ?_, ?_⟩
    · obtain ⟨r, hn⟩ := todo_next_exists t h _ _ _ (Nat.le_refl _) hb
      exact ⟨r, .pass rfl hn⟩
    · intro r hn
      have hn' : AxisNext t h (.todo (h.children e)) r := by
        cases hn with
        | give hx => cases hx
        | finished hx => cases hx
        | raised hx => cases hx
        | pass hx hn => cases hx; exact hn
      rcases todo_results (dn := []) hb (fun i hi => (e3 i (by simp [hi])).2) hn' with ⟨a, b⟩ | ⟨y, todo', a, b⟩
      · exact .inl ⟨a, by simpa using b.symm⟩
      · obtain ⟨dn, rest, b1, b2, _⟩ := b
        refine .inr ⟨y, _, a, ?_⟩
        have b1' : nodes = dn ++ rest := by simpa using b1
        have b2' : [] ++ [y] = dn.filter (t.live h0) := by simpa using b2
        rw [b1', b2']
        exact prefix_filter
  · refine ⟨by rw [h2]; exact prefix_filter, todo_next_exists t h _ _ _ (Nat.le_refl _) h4, ?_⟩
    intro r hn
    rcases todo_results (dn := dn) h4 h5 hn with ⟨a, b⟩ | ⟨y, todo', a, b⟩
    · exact .inl ⟨a, by rw [b, h2]⟩
    · obtain ⟨dn', rest', b1, b2, _⟩ := b
      refine .inr ⟨y, _, a, ?_⟩
      rw [h2, b2, b1]
      exact prefix_filter

/-- C119: the same for `descendant-or-self::test`, which comes first to the context node: while that is the current
result its child list must stay as it is. -/
theorem C119_descendant_or_self {t0 e : Id} {tree : Node} {h0 : Heap} (hr : Rep h0 none t0 tree)
    (he : Reachable h0 [t0] e) {nodes : List Id} (hd : AllBelow h0 (h0.children e) nodes) {t : Test} {h : Heap}
    {g : AxisGen} {vs : List Id} (hrun : AxisRun t (OnlyBehind e (e :: nodes)) h0 (.self e) [] h g vs) :
    (e :: nodes).Nodup ∧ vs <+: (e :: nodes).filter (t.live h0) ∧ (∃ r, AxisNext t h g r) ∧
    ∀ r, AxisNext t h g r → (r = .finished ∧ vs = (e :: nodes).filter (t.live h0)) ∨
      ∃ y g', r = .give y g' ∧ vs ++ [y] <+: (e :: nodes).filter (t.live h0) := by
  -- a `next` that starts at the list of the context node
  have fromStart : ∀ (h : Heap) (vs : List Id) (r : AxisOut), (∀ i ∈ e :: nodes, SameNode h0 h i) →
      vs = [e].filter (t.live h0) → AxisNext t h (.start e) r →
      (r = .finished ∧ vs = (e :: nodes).filter (t.live h0)) ∨
        ∃ y todo, r = .give y (.todo todo) ∧ TodoInv t (e :: nodes) h0 h todo (vs ++ [y]) := by
    intro h vs r e3 hvs hn
    have hb : AllBelow h (h.children e) nodes := by
      rw [(e3 e (by simp)).1]
      exact allBelow_kept hd fun i hi => (e3 i (by simp [hi])).1
    have hn' : AxisNext t h (.todo (h.children e)) r := by
      cases hn with
      | give hx => cases hx
      | finished hx => cases hx
      | raised hx => cases hx
      | pass hx hn => cases hx; exact hn
    rcases todo_results (dn := [e]) hb (fun i hi => (e3 i (by simp [hi])).2) hn' with ⟨a, b⟩ | ⟨y, todo', a, b⟩
    · exact .inl ⟨a, by rw [hvs]; exact b.symm⟩
    · exact .inr ⟨y, todo', a, by rw [hvs]; exact b⟩
  -- the first `next`
  have fromSelf : ∀ (h : Heap) (r : AxisOut), (∀ i ∈ e :: nodes, SameNode h0 h i) → AxisNext t h (.self e) r →
      (t.live h0 e = true ∧ r = .give e (.start e)) ∨ (t.live h0 e = false ∧ AxisNext t h (.start e) r) := by
    intro h r e3 hn
    have hle : t.live h e = t.live h0 e := live_of_label t (e3 e (by simp)).2
    cases hn with
    | give hx =>
      rw [axisRound, Test.out] at hx
      by_cases hl : t.live h e = true
      · rw [if_pos hl] at hx; cases hx; exact .inl ⟨hle ▸ hl, rfl⟩
      · rw [if_neg hl] at hx; cases hx
    | finished hx =>
      rw [axisRound, Test.out] at hx
      by_cases hl : t.live h e = true
      · rw [if_pos hl] at hx; cases hx
      · rw [if_neg hl] at hx; cases hx
    | raised hx =>
      rw [axisRound, Test.out] at hx
      by_cases hl : t.live h e = true
      · rw [if_pos hl] at hx; cases hx
      · rw [if_neg hl] at hx; cases hx
    | pass hx hn =>
      rw [axisRound, Test.out] at hx
      by_cases hl : t.live h e = true
      · rw [if_pos hl] at hx; cases hx
      · rw [if_neg hl] at hx; cases hx
        exact .inr ⟨by rw [← hle]; simpa using hl, hn⟩
  have key : (g = .self e ∧ vs = [] ∧ ∀ i ∈ e :: nodes, SameNode h0 h i) ∨
      (g = .start e ∧ vs = [e] ∧ t.live h0 e = true ∧ ∀ i ∈ e :: nodes, SameNode h0 h i) ∨
      ∃ todo, g = .todo todo ∧ TodoInv t (e :: nodes) h0 h todo vs := by
    induction hrun with
    | refl => exact .inl ⟨rfl, rfl, fun i _ => ⟨rfl, rfl⟩⟩
    | @change h2 g2 vs2 h3 _ hR ih =>
      rcases ih with ⟨e1, e2, e3⟩ | ⟨e1, e2, e4, e3⟩ | ⟨todo, e1, e2⟩
      · subst e2
        refine .inl ⟨e1, rfl, fun i hi => ?_⟩
        have := hR i (by simp at hi ⊢; exact hi)
        exact ⟨this.1.trans (e3 i hi).1, this.2.trans (e3 i hi).2⟩
      · subst e2
        refine .inr (.inl ⟨e1, rfl, e4, fun i hi => ?_⟩)
        obtain ⟨hR1, hR2⟩ := hR
        have : SameNode h2 h3 i := by
          rcases List.mem_cons.1 hi with rfl | hi
          · exact hR2 rfl
          · exact hR1 i ⟨[e], nodes, rfl, by simp, hi⟩
        exact ⟨this.1.trans (e3 i hi).1, this.2.trans (e3 i hi).2⟩
      · exact .inr (.inr ⟨todo, e1, todoInv_change e2 hR⟩)
    | @next h' g' vs' y g'' _ hn ih =>
      rcases ih with ⟨e1, e2, e3⟩ | ⟨e1, e2, e4, e3⟩ | ⟨todo, e1, e2⟩
      · subst e1; subst e2
        rcases fromSelf h' _ e3 hn with ⟨a1, a2⟩ | ⟨a1, a2⟩
        · cases a2
          exact .inr (.inl ⟨rfl, rfl, a1, e3⟩)
        · rcases fromStart h' [] _ e3 (by simp [a1]) a2 with ⟨b, _⟩ | ⟨y', todo', b, c⟩
          · cases b
          · cases b
            exact .inr (.inr ⟨todo', rfl, c⟩)
      · subst e1; subst e2
        rcases fromStart h' [e] _ e3 (by simp [e4]) hn with ⟨b, _⟩ | ⟨y', todo', b, c⟩
        · cases b
        · cases b
          exact .inr (.inr ⟨todo', rfl, c⟩)
      · subst e1
        obtain ⟨dn, rest, hsp, h2, h3, h4, h5⟩ := e2
        rcases todo_results (dn := dn) h4 h5 hn with ⟨a, _⟩ | ⟨y', todo', a, b⟩
        · cases a
        · cases a
          rw [← h2, ← hsp] at b
          exact .inr (.inr ⟨todo', rfl, b⟩)
  have startExists : ∀ h : Heap, (∀ i ∈ e :: nodes, SameNode h0 h i) → ∃ r, AxisNext t h (.start e) r := by
    intro h e3
    have hb : AllBelow h (h.children e) nodes := by
      rw [(e3 e (by simp)).1]
      exact allBelow_kept hd fun i hi => (e3 i (by simp [hi])).1
    obtain ⟨r, hn⟩ := todo_next_exists t h _ _ _ (Nat.le_refl _) hb
    exact ⟨r, .pass rfl hn⟩
  have fromInv : ∀ {todo ws y}, TodoInv t (e :: nodes) h0 h todo (ws ++ [y]) →
      ws ++ [y] <+: (e :: nodes).filter (t.live h0) := by
    rintro todo ws y ⟨dn, rest, b1, b2, _⟩
    rw [b2, b1]
    exact prefix_filter
  refine ⟨below_element hr he hd, ?_⟩
  rcases key with ⟨rfl, rfl, e3⟩ | ⟨rfl, rfl, e4, e3⟩ | ⟨todo, rfl, dn, rest, hsp, h2, h3, h4, h5⟩
  · refine ⟨List.nil_prefix, ?_, ?_⟩
    · by_cases hl : t.live h e = true
      · exact ⟨_, .give (by rw [axisRound, Test.out, if_pos hl])⟩
      · obtain ⟨r, hn⟩ := startExists h e3
        exact ⟨r, .pass (by rw [axisRound, Test.out, if_neg hl]) hn⟩
    · intro r hn
      rcases fromSelf h r e3 hn with ⟨a1, a2⟩ | ⟨a1, a2⟩
      · refine .inr ⟨e, _, a2, ?_⟩
        simp [a1]
      · rcases fromStart h [] r e3 (by simp [a1]) a2 with ⟨b, c⟩ | ⟨y, todo', b, c⟩
        · exact .inl ⟨b, c⟩
        · exact .inr ⟨y, _, b, fromInv c⟩
  · refine ⟨by simp [e4], startExists h e3, ?_⟩
    intro r hn
    rcases fromStart h [e] r e3 (by simp [e4]) hn with ⟨b, c⟩ | ⟨y, todo', b, c⟩
    · exact .inl ⟨b, c⟩
    · exact .inr ⟨y, _, b, fromInv c⟩
  · rw [hsp]
    refine ⟨by rw [h2]; exact prefix_filter, todo_next_exists t h _ _ _ (Nat.le_refl _) h4, ?_⟩
    intro r hn
    rcases todo_results (dn := dn) h4 h5 hn with ⟨a, b⟩ | ⟨y, todo', a, b⟩
    · exact .inl ⟨a, by rw [b, h2]⟩
    · rw [← hsp, ← h2] at b
      rw [← hsp]
      exact .inr ⟨y, _, a, fromInv b⟩

/-! ### deleting by query -/

/-- Everything of an object but its child list and parent link. -/
def Obj.shell : Obj → Str ⊕ (Str × Attrs)
  | .text s _ => .inl s
  | .elem n as _ _ => .inr (n, as)

theorem label_of_shell {h h' : Heap} {i : Id} (hs : (h'.obj i).map Obj.shell = (h.obj i).map Obj.shell) :
    (h'.obj i).map Obj.label = (h.obj i).map Obj.label := by
  cases h1 : h.obj i with
  | none =>
    cases h2 : h'.obj i with
    | none => rfl
    | some o => rw [h1, h2] at hs; cases hs
  | some o =>
    cases h2 : h'.obj i with
    | none => rw [h1, h2] at hs; cases hs
    | some o' =>
      rw [h1, h2] at hs
      cases o <;> cases o' <;> simp_all [Obj.label, Obj.shell]

/-- The state of the loop `for x in descendant::n: x.xml_parent.xml_remove(x)`: the nodes passed and those to come. -/
structure DelInv (n : Str) (e : Id) (nodes : List Id) (h0 h : Heap) (todo dn rest : List Id) : Prop where
  split : nodes = dn ++ rest
  below : AllBelow h todo rest
  kids : ∀ i ∈ e :: nodes, h.children i = (h0.children i).filter (fun c => !(dn.contains c && (Test.name n).live h0 c))
  shell : ∀ i, (h.obj i).map Obj.shell = (h0.obj i).map Obj.shell
  parent : ∀ i, ¬ (i ∈ dn ∧ (Test.name n).live h0 i = true) → h.xmlParent i = h0.xmlParent i
  outside : ∀ i, i ∉ e :: nodes → h.obj i = h0.obj i

theorem live_name_elem {n : Str} {h : Heap} {i : Id} (hl : (Test.name n).live h i = true) : h.isElem i := by
  simp only [Test.live] at hl
  cases ho : h.obj i with
  | none => rw [ho] at hl; cases hl
  | some o =>
    rw [ho] at hl
    cases o with
    | text => cases hl
    | elem m as cs p => exact ⟨m, as, cs, p, ho⟩

/-- One round of the loop: the next result, its removal, and the state after it. -/
theorem del_step {n : Str} {t0 e : Id} {tree : Node} {h0 : Heap} (hr : Rep h0 none t0 tree) (he : Reachable h0 [t0] e)
    {nodes : List Id} (hd : AllBelow h0 (h0.children e) nodes) {h : Heap} {todo dn pre rest todo' : List Id} {y : Id}
    (hi : DelInv n e nodes h0 h todo dn (pre ++ y :: rest)) (hpre : ∀ i ∈ pre, (Test.name n).live h i = false)
    (hy : (Test.name n).live h y = true) (hb : AllBelow h todo' rest) :
    ∃ p h1, h.xmlParent y = some p ∧ h.xmlRemove p y = .ok h1 ∧
      DelInv n e nodes h0 h1 todo' (dn ++ pre ++ [y]) rest := by
  have hnd := below_element hr he hd
  have hlive : ∀ i, (Test.name n).live h i = (Test.name n).live h0 i := fun i =>
    live_of_label _ (label_of_shell (hi.shell i))
  have hyn : y ∈ nodes := by rw [hi.split]; simp
  have hsplit : nodes = dn ++ (pre ++ y :: rest) := hi.split
  have hnodes : nodes.Nodup := (List.nodup_cons.1 hnd).2
  rw [hsplit, ← List.append_assoc, List.nodup_append] at hnodes
  have hydn : y ∉ dn ++ pre := fun hm => hnodes.2.2 y hm y (by simp) rfl
  have hyrest : y ∉ rest := (List.nodup_cons.1 hnodes.2.1).1
  have hreach : ∀ i ∈ e :: nodes, Reachable h0 [t0] i := by
    intro i hm
    rcases List.mem_cons.1 hm with rfl | hm
    · exact he
    · exact allBelow_reach hd (fun c hc => .child he hc) i hm
  -- the parent
  obtain ⟨p, hp1, hp2⟩ : ∃ p ∈ e :: nodes, y ∈ h0.children p := by
    rcases allBelow_parent hd y hyn with hm | ⟨p, hp, hm⟩
    · exact ⟨e, by simp, hm⟩
    · exact ⟨p, by simp [hp], hm⟩
  have hpy0 : h0.xmlParent y = some p := (rep_reach hr (hreach p hp1)).2.2 y hp2
  have hpy : h.xmlParent y = some p := by
    rw [hi.parent y (fun hm => hydn (by simp [hm.1])), hpy0]
  have hyel : h.isElem y := live_name_elem hy
  have hymem : y ∈ h.children p := by
    rw [hi.kids p hp1, List.mem_filter]
    refine ⟨hp2, ?_⟩
    have : dn.contains y = false := by
      cases hc : dn.contains y with
      | false => rfl
      | true => exact (hydn (by simp [List.contains_iff_mem.1 hc])).elim
    rw [this]; rfl
  have hpel : h.isElem p := by
    cases ho : h.obj p with
    | none => rw [Heap.children, ho] at hymem; cases hymem
    | some o =>
      cases o with
      | text s q => rw [Heap.children, ho] at hymem; simp [Obj.kids] at hymem
      | elem m as cs q => exact ⟨m, as, cs, q, ho⟩
  obtain ⟨h1, hrem⟩ := (C26_remove_succeeds_iff hpel hyel).1 hymem
  refine ⟨p, h1, hpy, hrem, ?_⟩
  obtain ⟨_, k1, _, k3, k4, k5⟩ := C26_remove_element_partial hyel hrem
  obtain ⟨m, as, cs, q, m', as', cs', q', o1, o2, _, _, o5⟩ := remove_spec hyel hrem
  have hother : ∀ i ∈ e :: nodes, i ≠ p → y ∉ h0.children i := by
    intro i hm hne hyi
    have := (rep_reach hr (hreach i hm)).2.2 y hyi
    rw [hpy0] at this
    exact hne (Option.some.inj this).symm
  have hpe : p ≠ y := by
    rintro rfl
    -- a node that lists itself would be its own parent
    have hm : p ∈ nodes := hyn
    obtain ⟨k, hk⟩ := (rep_reach hr (hreach p hp1)).1
    have h1 : upTimes h0 1 p = some p := by rw [upTimes, hpy0]; rfl
    have := upTimes_add h0 1 k p p h1
    rw [hk] at this
    have := upTimes_unique (rep_children hr).1 _ _ _ this hk
    omega
  have hcond : ∀ c, c ≠ y →
      ((dn ++ pre ++ [y]).contains c && (Test.name n).live h0 c) = (dn.contains c && (Test.name n).live h0 c) := by
    intro c hc
    cases hl : (Test.name n).live h0 c with
    | false => simp
    | true =>
      have hcp : c ∉ pre := fun hm => by rw [← hlive, hpre c hm] at hl; cases hl
      rw [Bool.and_true, Bool.and_true, Bool.eq_iff_iff, List.contains_iff_mem, List.contains_iff_mem]
      simp [hcp, hc]
  have hcondy : ((dn ++ pre ++ [y]).contains y && (Test.name n).live h0 y) = true := by
    rw [← hlive, hy, Bool.and_true, List.contains_iff_mem]; simp
  refine ⟨by rw [hsplit]; simp, ?_, ?_, ?_, ?_, ?_⟩
  · refine allBelow_kept hb fun i hm => k3 i ?_
    rintro rfl
    exact hyrest (allBelow_closed hb i hm y hymem)
  · intro i hm
    by_cases hip : i = p
    · subst hip
      have hndk : ((h0.children i).filter (fun c => !(dn.contains c && (Test.name n).live h0 c))).Nodup :=
        List.Sublist.nodup List.filter_sublist (rep_reach hr (hreach i hm)).2.1
      rw [k1, hi.kids i hm, hndk.erase_eq_filter, List.filter_filter]
      refine List.filter_congr fun c _ => ?_
      by_cases hc : c = y
      · subst hc
        rw [hcondy]; simp
      · rw [hcond c hc]
        simp [hc]
    · rw [k3 i hip, hi.kids i hm]
      refine List.filter_congr fun c hcm => ?_
      rw [hcond c (fun hc => hother i hm hip (hc ▸ hcm))]
  · intro i
    rw [← hi.shell i, o5 i]
    by_cases h1 : i = p
    · rw [if_pos h1, h1, o1]; rfl
    · rw [if_neg h1]
      by_cases h2 : i = y
      · rw [if_pos h2, h2, o2]; rfl
      · rw [if_neg h2]
  · intro i hni
    have hiy : i ≠ y := by
      rintro rfl
      exact hni ⟨by simp, by rw [← hlive, hy]⟩
    rw [k5 i hiy]
    exact hi.parent i fun hm => hni ⟨by simp [hm.1], hm.2⟩
  · intro i hni
    have h1 : i ≠ p := fun hx => hni (hx ▸ hp1)
    have h2 : i ≠ y := fun hx => hni (by rw [hx]; simp [hyn])
    rw [k4 i h1 h2]
    exact hi.outside i hni

/-- What is left when the loop ends: of every child list, the nodes that do not fit. -/
theorem del_done {n : Str} {t0 e : Id} {tree : Node} {h0 : Heap} (hr : Rep h0 none t0 tree) (he : Reachable h0 [t0] e)
    {nodes : List Id} (hd : AllBelow h0 (h0.children e) nodes) {h h' : Heap} {g : AxisGen}
    (hl : QueryRemove (.name n) h g h') : ∀ todo dn rest, g = .todo todo → DelInv n e nodes h0 h todo dn rest →
      DelInv n e nodes h0 h' [] nodes [] := by
  induction hl with
  | @done h g hn =>
    rintro todo dn rest rfl hi
    have hlive : ∀ i, (Test.name n).live h i = (Test.name n).live h0 i := fun i =>
      live_of_label _ (label_of_shell (hi.shell i))
    rcases todo_next hn todo rest rfl hi.below with ⟨_, e2⟩ | ⟨_, _, _, _, e1, _⟩
    · have hcond : ∀ c, (nodes.contains c && (Test.name n).live h0 c) = (dn.contains c && (Test.name n).live h0 c) := by
        intro c
        cases hl : (Test.name n).live h0 c with
        | false => simp
        | true =>
          have hcr : c ∉ rest := fun hm => by rw [← hlive, e2 c hm] at hl; cases hl
          rw [Bool.and_true, Bool.and_true, Bool.eq_iff_iff, List.contains_iff_mem, List.contains_iff_mem, hi.split]
          simp [hcr]
      refine ⟨by simp, .nil, ?_, hi.shell, ?_, hi.outside⟩
      · intro i hm
        rw [hi.kids i hm]
        exact List.filter_congr fun c _ => by rw [hcond c]
      · intro i hni
        refine hi.parent i fun hm => hni ⟨?_, hm.2⟩
        rw [hi.split]; simp [hm.1]
    · cases e1
  | @remove h g y g' p h1 h' hn hp hrem _ ih =>
    rintro todo dn rest rfl hi
    rcases todo_next hn todo rest rfl hi.below with ⟨e1, _⟩ | ⟨pre, y', rest', todo', e1, e2, e3, e4, e5⟩
    · cases e1
    · cases e1
      subst e2
      obtain ⟨p', h1', a1, a2, a3⟩ := del_step hr he hd hi e3 e4 e5
      rw [hp] at a1
      cases a1
      rw [hrem] at a2
      cases a2
      exact ih _ _ _ rfl a3

theorem del_exists {n : Str} {t0 e : Id} {tree : Node} {h0 : Heap} (hr : Rep h0 none t0 tree) (he : Reachable h0 [t0] e)
    {nodes : List Id} (hd : AllBelow h0 (h0.children e) nodes) : ∀ (k : Nat) (h : Heap) (todo dn rest : List Id),
    rest.length ≤ k → DelInv n e nodes h0 h todo dn rest → ∃ h', QueryRemove (.name n) h (.todo todo) h' := by
  intro k
  induction k with
  | zero =>
    intro h todo dn rest hk hi
    obtain ⟨r, hn⟩ := todo_next_exists (.name n) h _ _ _ (Nat.le_refl _) hi.below
    rcases todo_next hn todo rest rfl hi.below with ⟨e1, _⟩ | ⟨pre, y, rest', todo', e1, e2, _⟩
    · subst e1; exact ⟨h, .done hn⟩
    · rw [e2] at hk; simp at hk
  | succ k ih =>
    intro h todo dn rest hk hi
    obtain ⟨r, hn⟩ := todo_next_exists (.name n) h _ _ _ (Nat.le_refl _) hi.below
    rcases todo_next hn todo rest rfl hi.below with ⟨e1, _⟩ | ⟨pre, y, rest', todo', e1, e2, e3, e4, e5⟩
    · subst e1; exact ⟨h, .done hn⟩
    · subst e1; subst e2
      obtain ⟨p, h1, a1, a2, a3⟩ := del_step hr he hd hi e3 e4 e5
      obtain ⟨h', hq⟩ := ih h1 todo' _ _ (by simp at hk ⊢; omega) a3
      exact ⟨h', .remove hn a1 a2 hq⟩

/-- A tree whose child lists have lost the elements with a name. -/
theorem rep_without {n : Str} {h0 h' : Heap} {T : Id → Prop} (hT : ∀ i, T i → ∀ c ∈ h0.children i, T c)
    (kids : ∀ i, T i → h'.children i = (h0.children i).filter (fun c => !(Test.name n).live h0 c))
    (shell : ∀ i, (h'.obj i).map Obj.shell = (h0.obj i).map Obj.shell)
    (parent : ∀ i, T i → (Test.name n).live h0 i = false → h'.xmlParent i = h0.xmlParent i) :
    (∀ (t : Node) (i : Id) (p : Option Id), T i → h'.xmlParent i = p → Rep h0 p i t → Rep h' p i (t.without n)) ∧
    (∀ (ts : List Node) (par : Id) (cs : List Id), (∀ c ∈ cs, T c) → RepList h0 par cs ts →
      RepList h' par (cs.filter fun c => !(Test.name n).live h0 c) (Node.withoutList n ts)) := by
  apply Node.induct
  case elem =>
    intro m as cs ih i p hi hp hr
    obtain ⟨cs', q, h1, h2, h3, h4⟩ := hr
    have hc : h0.children i = cs' := by simp [Heap.children, h1, Obj.kids]
    have hk := kids i hi
    have hs := shell i
    rw [h1] at hs
    cases ho : h'.obj i with
    | none => rw [ho] at hs; cases hs
    | some o =>
      rw [ho] at hs
      cases o with
      | text s q' => simp [Obj.shell] at hs
      | elem m' as' cs'' q' =>
        simp only [Option.map_some, Obj.shell, Option.some.injEq, Sum.inr.injEq, Prod.mk.injEq] at hs
        obtain ⟨rfl, rfl⟩ := hs
        have hk' : h'.children i = cs'' := by simp [Heap.children, ho, Obj.kids]
        rw [hc, hk'] at hk
        rw [Node.without]
        refine ⟨cs'', q', ho, hp, ?_, ?_⟩
        · rw [hk]; exact List.Sublist.nodup List.filter_sublist h3
        · rw [hk]
          exact ih i cs' (fun c hcm => hT i hi c (hc ▸ hcm)) h4
  case text =>
    intro s i p hi hp hr
    obtain ⟨q, h1, h2⟩ := hr
    have hs := shell i
    rw [h1] at hs
    cases ho : h'.obj i with
    | none => rw [ho] at hs; cases hs
    | some o =>
      rw [ho] at hs
      cases o with
      | elem => simp [Obj.shell] at hs
      | text s' q' =>
        simp only [Option.map_some, Obj.shell, Option.some.injEq, Sum.inl.injEq] at hs
        subst hs
        exact ⟨q', ho, hp⟩
  case nil =>
    intro par cs _ hr
    cases hr
    rw [Node.withoutList]
    rfl
  case cons =>
    intro t ts iht ihts par cs hT' hr
    obtain ⟨c, r, rfl, h1, h2⟩ := hr
    have ihr := ihts par r (fun d hd => hT' d (by simp [hd])) h2
    have hTc := hT' c (by simp)
    cases t with
    | text s =>
      have hl : (Test.name n).live h0 c = false := by
        obtain ⟨q, h3, _⟩ := h1
        simp [Test.live, h3]
      have hpc : h'.xmlParent c = some par := by rw [parent c hTc hl]; exact (rep_children h1).1
      rw [List.filter_cons, hl, if_pos (by rfl), Node.withoutList]
      exact ⟨c, _, rfl, iht c _ hTc hpc h1, ihr⟩
    | elem m as ts' =>
      have hl : (Test.name n).live h0 c = (m == n) := by
        obtain ⟨cs', q, h3, _⟩ := h1
        simp [Test.live, h3]
      rw [Node.withoutList]
      by_cases hm : m = n
      · rw [List.filter_cons, hl, if_neg (by simp [hm]), if_pos hm]
        exact ihr
      · have hl' : (Test.name n).live h0 c = false := by rw [hl]; simp [hm]
        have hpc : h'.xmlParent c = some par := by rw [parent c hTc hl']; exact (rep_children h1).1
        rw [List.filter_cons, hl', if_pos (by rfl), if_neg hm]
        exact ⟨c, _, rfl, iht c _ hTc hpc h1, ihr⟩

/-- C120: `for x in e.xml_xpath('descendant::n'): x.xml_parent.xml_remove(x)`, for any element or text object `e` of a
tree, always runs to its end without an error, and leaves at `e` just the tree without the elements named `n`; nothing
outside is touched. -/
theorem C120_delete_descendants {t0 e : Id} {tree sub : Node} {h0 : Heap} {q : Option Id} (n : Str)
    (hr : Rep h0 none t0 tree) (he : Reachable h0 [t0] e) (hsub : Rep h0 q e sub) :
    (∃ h', QueryRemove (.name n) h0 (.start e) h') ∧
    ∀ h', QueryRemove (.name n) h0 (.start e) h' → Rep h' q e (sub.without n) ∧
      ∀ i, ¬ Reachable h0 [e] i → h'.obj i = h0.obj i := by
  obtain ⟨nodes, hd⟩ := allBelow_exists.1 sub e q hsub
  have hnd := below_element hr he hd
  have init : DelInv n e nodes h0 h0 (h0.children e) [] nodes :=
    ⟨rfl, hd, fun i _ => by simp [List.filter_eq_self.2], fun _ => rfl, fun _ _ => rfl, fun _ _ => rfl⟩
  constructor
  · obtain ⟨h', hq⟩ := del_exists hr he hd _ h0 _ _ _ (Nat.le_refl _) init
    refine ⟨h', ?_⟩
    cases hq with
    | done hn => exact .done (.pass rfl hn)
    | remove hn a b c => exact .remove (.pass rfl hn) a b c
  · intro h' hq
    have hq' : QueryRemove (.name n) h0 (.todo (h0.children e)) h' := by
      have strip : ∀ {r}, AxisNext (.name n) h0 (.start e) r → AxisNext (.name n) h0 (.todo (h0.children e)) r := by
        intro r hn
        cases hn with
        | give hx => cases hx
        | finished hx => cases hx
        | raised hx => cases hx
        | pass hx hn => cases hx; exact hn
      cases hq with
      | done hn => exact .done (strip hn)
      | remove hn a b c => exact .remove (strip hn) a b c
    have fin := del_done hr he hd hq' _ _ _ rfl init
    have hmem : ∀ i, i ∈ e :: nodes → ∀ c ∈ h0.children i, c ∈ nodes := by
      intro i hi c hc
      rcases List.mem_cons.1 hi with rfl | hi
      · exact allBelow_heads hd c hc
      · exact allBelow_closed hd i hi c hc
    refine ⟨?_, ?_⟩
    · refine (rep_without (n := n) (T := fun i => i ∈ e :: nodes) (fun i hi c hc => by simp [hmem i hi c hc]) ?_ fin.shell
        ?_).1 sub e q (by simp) ?_ hsub
      · intro i hi
        rw [fin.kids i hi]
        refine List.filter_congr fun c hc => ?_
        rw [List.contains_iff_mem.2 (hmem i hi c hc), Bool.true_and]
      · intro i _ hl
        exact fin.parent i fun hm => by rw [hl] at hm; cases hm.2
      · rw [fin.parent e (fun hm => (List.nodup_cons.1 hnd).1 hm.1)]
        exact (rep_children hsub).1
    · intro i hi
      refine fin.outside i fun hm => hi ?_
      rcases List.mem_cons.1 hm with rfl | hm
      · exact .root (by simp)
      · exact allBelow_reach hd (fun c hc => .child (.root (by simp)) hc) i hm

/-- C120: the same for `.//n`, if `e` itself has another name. -/
theorem C120_delete_with_slashes {t0 e : Id} {tree sub : Node} {h0 : Heap} {q : Option Id} (n : Str)
    (hr : Rep h0 none t0 tree) (he : Reachable h0 [t0] e) (hsub : Rep h0 q e sub)
    (hne : (Test.name n).live h0 e = false) :
    (∃ h', QueryRemove (.name n) h0 (.self e) h') ∧
    ∀ h', QueryRemove (.name n) h0 (.self e) h' → Rep h' q e (sub.without n) ∧
      ∀ i, ¬ Reachable h0 [e] i → h'.obj i = h0.obj i := by
  have hround : axisRound (.name n) h0 (.self e) = .pass (.start e) := by
    rw [axisRound, Test.out, hne]; rfl
  obtain ⟨⟨h', hq⟩, h2⟩ := C120_delete_descendants n hr he hsub
  refine ⟨⟨h', ?_⟩, fun h' hq => h2 h' ?_⟩
  · cases hq with
    | done hn => exact .done (.pass hround hn)
    | remove hn a b c => exact .remove (.pass hround hn) a b c
  · have strip : ∀ {r}, AxisNext (.name n) h0 (.self e) r → AxisNext (.name n) h0 (.start e) r := by
      intro r hn
      cases hn with
      | give hx => rw [hround] at hx; cases hx
      | finished hx => rw [hround] at hx; cases hx
      | raised hx => rw [hround] at hx; cases hx
      | pass hx hn => rw [hround] at hx; cases hx; exact hn
    cases hq with
    | done hn => exact .done (strip hn)
    | remove hn a b c => exact .remove (strip hn) a b c

/-! ### `child` reads the child list as it is -/

theorem child_next {n : Str} {h : Heap} {g : AxisGen} {r : AxisOut} (hn : AxisNext (.name n) h g r) : ∀ e k, g = .child e k →
    (r = .finished ∧ ∀ c ∈ (h.children e).drop k, (Test.name n).live h c = false) ∨
    ∃ u y w, (h.children e).drop k = u ++ y :: w ∧ (∀ c ∈ u, (Test.name n).live h c = false) ∧
      (Test.name n).live h y = true ∧ r = .give y (.child e (k + u.length + 1)) := by
  have fits : ∀ c, (Test.name n).live h c = true → h.isElemB c = true := fun c hc => isElemB_iff.2 (live_name_elem hc)
  have round : ∀ e k, axisRound (.name n) h (.child e k) = match (h.children e)[k]? with
      | none => .finished
      | some c => if (Test.name n).live h c then .give c (.child e (k + 1)) else .pass (.child e (k + 1)) := by
    intro e k
    rw [axisRound]
    cases hk : (h.children e)[k]? with
    | none => rfl
    | some c =>
      cases hl : (Test.name n).live h c with
      | true => simp [Test.isName, fits c hl, Test.out, hl]
      | false => cases hb : h.isElemB c <;> simp [Test.isName, hb, Test.out, hl]
  have drop : ∀ e k c, (h.children e)[k]? = some c → (h.children e).drop k = c :: (h.children e).drop (k + 1) := by
    intro e k c hk
    obtain ⟨hlt, rfl⟩ := List.getElem?_eq_some_iff.1 hk
    exact List.drop_eq_getElem_cons hlt
  induction hn with
  | @give g y g' hx =>
    rintro e k rfl
    rw [round] at hx
    cases hk : (h.children e)[k]? with
    | none => rw [hk] at hx; cases hx
    | some c =>
      rw [hk] at hx
      cases hl : (Test.name n).live h c with
      | false => simp [hl] at hx
      | true =>
        simp only [hl, if_true, AxisOut.give.injEq] at hx
        obtain ⟨rfl, rfl⟩ := hx
        exact .inr ⟨[], c, _, drop e k c hk, by simp, hl, rfl⟩
  | @finished g hx =>
    rintro e k rfl
    rw [round] at hx
    cases hk : (h.children e)[k]? with
    | none => exact .inl ⟨rfl, by simp [List.drop_eq_nil_of_le (List.getElem?_eq_none_iff.1 hk)]⟩
    | some c =>
      rw [hk] at hx
      cases hl : (Test.name n).live h c <;> simp [hl] at hx
  | @raised g hx =>
    rintro e k rfl
    rw [round] at hx
    cases hk : (h.children e)[k]? with
    | none => rw [hk] at hx; cases hx
    | some c =>
      rw [hk] at hx
      cases hl : (Test.name n).live h c <;> simp [hl] at hx
  | @pass g g' r hx _ ih =>
    rintro e k rfl
    rw [round] at hx
    cases hk : (h.children e)[k]? with
    | none => rw [hk] at hx; cases hx
    | some c =>
      rw [hk] at hx
      cases hl : (Test.name n).live h c with
      | true => simp [hl] at hx
      | false =>
        simp only [hl, Bool.false_eq_true, if_false, AxisOut.pass.injEq] at hx
        subst hx
        rw [drop e k c hk]
        rcases ih e (k + 1) rfl with ⟨h1, h2⟩ | ⟨u, y, w, h1, h2, h3, h4⟩
        · refine .inl ⟨h1, fun x hx => ?_⟩
          rcases List.mem_cons.1 hx with rfl | hx
          · exact hl
          · exact h2 x hx
        · refine .inr ⟨c :: u, y, w, by rw [h1]; rfl, fun x hx => ?_, h3, ?_⟩
          · rcases List.mem_cons.1 hx with rfl | hx
            · exact hl
            · exact h2 x hx
          · rw [h4]; simp; omega

theorem child_next_exists (n : Str) (h : Heap) (e : Id) : ∀ (m k : Nat), (h.children e).length - k ≤ m →
    ∃ r, AxisNext (.name n) h (.child e k) r := by
  intro m
  induction m with
  | zero =>
    intro k hk
    refine ⟨_, .finished ?_⟩
    rw [axisRound, List.getElem?_eq_none_iff.2 (by omega)]
  | succ m ih =>
    intro k hk
    cases hc : (h.children e)[k]? with
    | none => exact ⟨_, .finished (by rw [axisRound, hc])⟩
    | some c =>
      have hlt : k < (h.children e).length := (List.getElem?_eq_some_iff.1 hc).1
      obtain ⟨r, hr⟩ := ih (k + 1) (by omega)
      cases hx : axisRound (.name n) h (.child e k) with
      | finished => exact ⟨_, .finished hx⟩
      | raised => exact ⟨_, .raised hx⟩
      | give y g => exact ⟨_, .give hx⟩
      | pass g =>
        have : g = .child e (k + 1) := by
          rw [axisRound, hc] at hx
          simp only [Test.out] at hx
          split at hx
          · cases hx; rfl
          · split at hx <;> cases hx
            rfl
        subst this
        exact ⟨r, .pass hx hr⟩

theorem remove_live {n : Str} {h h1 : Heap} {e y : Id} (hy : h.isElem y) (hr : h.xmlRemove e y = .ok h1) (i : Id) :
    (Test.name n).live h1 i = (Test.name n).live h i := by
  obtain ⟨m, as, cs, q, m', as', cs', q', o1, o2, _, _, o5⟩ := remove_spec hy hr
  refine live_of_label _ ?_
  rw [o5 i]
  by_cases h1 : i = e
  · rw [if_pos h1, h1, o1]; rfl
  · rw [if_neg h1]
    by_cases h2 : i = y
    · rw [if_pos h2, h2, o2]; rfl
    · rw [if_neg h2]

theorem childRemove_spec {n : Str} {h h' : Heap} {g : AxisGen} (hl : QueryRemove (.name n) h g h') : ∀ e k, g = .child e k →
    (h.children e).Nodup → (∀ c ∈ h.children e, h.xmlParent c = some e) →
      h'.children e = (h.children e).take k ++ takenOut ((Test.name n).live h) ((h.children e).drop k) := by
  induction hl with
  | @done h g hs =>
    rintro e k rfl hn _
    rcases child_next hs e k rfl with ⟨_, h2⟩ | ⟨_, _, _, _, _, _, h1⟩
    · have := takenOut_append (p := (Test.name n).live h) h2 []
      rw [List.append_nil] at this
      rw [this]
      simp [takenOut]
    · cases h1
  | @remove h g y g' p h1 h' hs hp hr _ ih =>
    rintro e k rfl hn hpar
    rcases child_next hs e k rfl with ⟨h1, _⟩ | ⟨u, y', w, a1, a2, a3, a4⟩
    · cases h1
    · cases a4
      have hmem : y ∈ h.children e := List.mem_of_mem_drop (i := k) (by rw [a1]; simp)
      have hye := live_name_elem a3
      rw [hpar y hmem] at hp
      have hpe : e = p := Option.some.inj hp
      subst hpe
      obtain ⟨_, r1, _, _, _, r5⟩ := C26_remove_element_partial hye hr
      have hfun : (Test.name n).live h1 = (Test.name n).live h := funext (remove_live hye hr)
      have hcs : h.children e = (h.children e).take k ++ (u ++ y :: w) := by rw [← a1, List.take_append_drop]
      have hlen : ((h.children e).take k).length = k := by
        have := congrArg List.length a1
        simp at this
        rw [List.length_take]
        omega
      rw [a1, takenOut_append a2, takenOut_hit a3]
      rw [ih e _ rfl (by rw [r1]; exact hn.erase _) (fun c hc => by
        rw [r1, hn.mem_erase_iff] at hc
        rw [r5 c hc.1]
        exact hpar c hc.2), r1, hfun]
      generalize hpre : (h.children e).take k = pre at *
      have herase : (h.children e).erase y = pre ++ (u ++ w) := by
        rw [hcs] at hn ⊢
        rw [← List.append_assoc] at hn ⊢
        rw [List.erase_append_right _ (by
          intro hm
          have := (List.nodup_append.1 hn).2.2 y hm y (by simp)
          exact this rfl)]
        simp
      rw [herase]
      have e1 : (pre ++ (u ++ w)).take (k + u.length + 1) = pre ++ (u ++ w.take 1) := by
        rw [← hlen, Nat.add_assoc, List.take_length_add_append, List.take_length_add_append]
      have e2 : (pre ++ (u ++ w)).drop (k + u.length + 1) = w.drop 1 := by
        rw [← hlen, Nat.add_assoc, List.drop_length_add_append, List.drop_length_add_append]
      rw [e1, e2]
      simp

theorem childRemove_ends {n : Str} {e : Id} : ∀ (m k : Nat) (h : Heap), h.isElem e → (h.children e).length - k ≤ m →
    (h.children e).Nodup → (∀ c ∈ h.children e, h.xmlParent c = some e) →
    ∃ h', QueryRemove (.name n) h (.child e k) h' := by
  intro m
  induction m with
  | zero =>
    intro k h he hk _ _
    obtain ⟨r, hr⟩ := child_next_exists n h e _ k (Nat.le_refl _)
    rcases child_next hr e k rfl with ⟨h1, _⟩ | ⟨u, y, w, a1, _⟩
    · subst h1; exact ⟨h, .done hr⟩
    · have := congrArg List.length a1
      simp at this
      omega
  | succ m ih =>
    intro k h he hk hn hpar
    obtain ⟨r, hr⟩ := child_next_exists n h e _ k (Nat.le_refl _)
    rcases child_next hr e k rfl with ⟨h1, _⟩ | ⟨u, y, w, a1, a2, a3, a4⟩
    · subst h1; exact ⟨h, .done hr⟩
    · subst a4
      have hlen := congrArg List.length a1
      simp at hlen
      have hmem : y ∈ h.children e := List.mem_of_mem_drop (i := k) (by rw [a1]; simp)
      have hye := live_name_elem a3
      obtain ⟨h1, hrem⟩ := (C26_remove_succeeds_iff he hye).1 hmem
      obtain ⟨_, r1, _, _, _, r5⟩ := C26_remove_element_partial hye hrem
      obtain ⟨_, r2⟩ := remove_elem (isElemB_iff.2 hye) hrem
      obtain ⟨h', hl⟩ := ih (k + u.length + 1) h1 (isElemB_iff.1 (by rw [r2]; exact isElemB_iff.2 he))
        (by rw [r1, List.length_erase_of_mem hmem]; omega) (by rw [r1]; exact hn.erase _) (fun c hc => by
          rw [r1, hn.mem_erase_iff] at hc
          rw [r5 c hc.1]
          exact hpar c hc.2)
      exact ⟨h', .remove hr (hpar y hmem) hrem hl⟩

/-- C120, the `child` axis, exactly: `for x in e.xml_xpath('n'): x.xml_parent.xml_remove(x)` runs to its end, and passes
over the node after each one it removes. -/
theorem C120_delete_children {t0 e : Id} {tree : Node} {h0 : Heap} (n : Str) (hr : Rep h0 none t0 tree)
    (he : Reachable h0 [t0] e) (hel : h0.isElem e) :
    (∃ h', QueryRemove (.name n) h0 (.child e 0) h') ∧
    ∀ h', QueryRemove (.name n) h0 (.child e 0) h' →
      h'.children e = takenOut ((Test.name n).live h0) (h0.children e) := by
  obtain ⟨_, h2, h3⟩ := rep_reach hr he
  exact ⟨childRemove_ends _ 0 h0 hel (Nat.le_refl _) h2 h3, fun h' hq => by
    simpa using childRemove_spec hq e 0 rfl h2 h3⟩

/-- C120, partial: if no two neighbouring children are named `n`, the loop over `child::n` takes out just those named
`n`.  Missing: neighbours, of which the second is left. -/
theorem C120_children_no_neighbours_partial {t0 e : Id} {tree : Node} {h0 h' : Heap} {n : Str} (hr : Rep h0 none t0 tree)
    (he : Reachable h0 [t0] e) (hel : h0.isElem e)
    (hadj : ∀ u x y r, h0.children e = u ++ x :: y :: r → (Test.name n).live h0 x = true → (Test.name n).live h0 y = false)
    (hq : QueryRemove (.name n) h0 (.child e 0) h') :
    h'.children e = (h0.children e).filter fun c => !(Test.name n).live h0 c := by
  rw [(C120_delete_children n hr he hel).2 h' hq, takenOut_filter _ _ (Nat.le_refl _) hadj]

/-- C120, the full statement is false for `child`: of two neighbours named `a`, `for x in r.xml_xpath('a'):
x.xml_parent.xml_remove(x)` leaves the second; over `descendant::a` it leaves none. -/
theorem C120_full_statement_is_false :
    (∃ h', QueryRemove (.name ['a']) exPair (.child 0 0) h') ∧
    (∀ h', QueryRemove (.name ['a']) exPair (.child 0 0) h' → h'.children 0 = [2]) ∧
    ∀ h', QueryRemove (.name ['a']) exPair (.start 0) h' → h'.children 0 = [] := by
  have hel : exPair.isElem 0 := ⟨_, _, _, _, rfl⟩
  have hre : Reachable exPair [0] 0 := .root (by simp)
  obtain ⟨h1, h2⟩ := C120_delete_children ['a'] exPair_rep hre hel
  refine ⟨h1, fun h' hq => (h2 h' hq).trans (by decide), fun h' hq => ?_⟩
  have := ((C120_delete_descendants ['a'] exPair_rep hre exPair_rep).2 h' hq).1
  have hw : (Node.elem ['r'] [] [.elem ['a'] [] [], .elem ['a'] [] []]).without ['a'] = .elem ['r'] [] [] := by
    simp [Node.without, Node.withoutList]
  rw [hw] at this
  obtain ⟨cs, q, h3, _, _, h4⟩ := this
  rw [Heap.children, h3]
  exact h4

/-! ### `//n` -/

theorem live_isElemB {n : Str} {h : Heap} {c : Id} (hc : (Test.name n).live h c = true) : h.isElemB c = true :=
  isElemB_iff.2 (live_name_elem hc)

/-- The state of the loop `for x in //n: x.xml_parent.xml_remove(x)`. -/
structure SlashInv (n : Str) (nodes : List Id) (h0 h : Heap) (dn rest l : List Id) : Prop where
  below : AllBelow h l rest
  past : ∀ i ∈ dn, h.children i = takenOut ((Test.name n).live h0) (h0.children i)
  future : ∀ i ∈ rest, h.children i = h0.children i
  shell : ∀ i, (h.obj i).map Obj.shell = (h0.obj i).map Obj.shell
  nodup : ∀ i ∈ nodes, (h.children i).Nodup
  parent : ∀ i ∈ nodes, ∀ c ∈ h.children i, h.xmlParent c = some i
  roots : ∀ i, i ∉ nodes → h.xmlParent i = h0.xmlParent i ∧ h.obj i = h0.obj i
  first : ∀ i, (∀ j ∈ nodes, i ∉ h0.children j) → h.xmlParent i = h0.xmlParent i
  fewer : ∀ i ∈ nodes, ∀ c ∈ h.children i, c ∈ h0.children i

/-- The same while reading the children of `e`. -/
structure InsideInv (n : Str) (nodes : List Id) (h0 h : Heap) (dn : List Id) (e : Id) (k : Nat) (rest l : List Id) : Prop where
  base : SlashInv n nodes h0 h dn rest l
  now : (h.children e).take k ++ takenOut ((Test.name n).live h0) ((h.children e).drop k) =
    takenOut ((Test.name n).live h0) (h0.children e)

theorem slash_live {n : Str} {nodes : List Id} {h0 h : Heap} {dn rest l : List Id} (hi : SlashInv n nodes h0 h dn rest l)
    (i : Id) : (Test.name n).live h i = (Test.name n).live h0 i := live_of_label _ (label_of_shell (hi.shell i))

theorem inside_round {n : Str} {h : Heap} {e : Id} {k : Nat} {l : List Id} {c : Id} (hk : (h.children e)[k]? = some c) :
    axisRound (.name n) h (.inside e k l) =
      if (Test.name n).live h c then .give c (.inside e (k + 1) l) else .pass (.inside e (k + 1) l) := by
  rw [axisRound, hk]
  cases hl : (Test.name n).live h c with
  | true => simp [Test.isName, live_isElemB hl, Test.out, hl]
  | false => cases hb : h.isElemB c <;> simp [Test.isName, hb, Test.out, hl]

theorem drop_at {α} {l : List α} {k : Nat} {c : α} (hk : l[k]? = some c) : l.drop k = c :: l.drop (k + 1) := by
  obtain ⟨hlt, rfl⟩ := List.getElem?_eq_some_iff.1 hk
  exact List.drop_eq_getElem_cons hlt

theorem take_at {α} {l : List α} {k : Nat} {c : α} (hk : l[k]? = some c) : l.take (k + 1) = l.take k ++ [c] := by
  rw [List.take_add_one, hk]; rfl

/-- Passing over a child. -/
theorem inside_skip {n : Str} {nodes : List Id} {h0 h : Heap} {dn : List Id} {e : Id} {k : Nat} {rest l : List Id}
    (hi : InsideInv n nodes h0 h dn e k rest l) {c : Id} (hk : (h.children e)[k]? = some c)
    (hl : (Test.name n).live h c = false) : InsideInv n nodes h0 h dn e (k + 1) rest l := by
  refine ⟨hi.base, ?_⟩
  rw [← hi.now, drop_at hk, take_at hk, takenOut_skip (by rw [← slash_live hi.base, hl])]
  simp

/-- At the end of the children. -/
theorem inside_end {n : Str} {nodes : List Id} {h0 h : Heap} {dn : List Id} {e : Id} {k : Nat} {rest l : List Id}
    (hi : InsideInv n nodes h0 h dn e k rest l) (hk : (h.children e)[k]? = none) :
    SlashInv n nodes h0 h (dn ++ [e]) rest l := by
  refine ⟨hi.base.below, ?_, hi.base.future, hi.base.shell, hi.base.nodup, hi.base.parent, hi.base.roots, hi.base.first,
    hi.base.fewer⟩
  intro i hm
  rcases List.mem_append.1 hm with hm | hm
  · exact hi.base.past i hm
  · rw [List.mem_singleton] at hm
    subst hm
    rw [← hi.now, List.take_of_length_le (List.getElem?_eq_none_iff.1 hk),
      List.drop_eq_nil_of_le (List.getElem?_eq_none_iff.1 hk)]
    simp [takenOut]

/-- On to the next node. -/
theorem walk_on {n : Str} {nodes : List Id} {h0 h : Heap} {dn rest cs : List Id} {c : Id}
    (hi : SlashInv n nodes h0 h dn rest (c :: cs)) :
    ∃ rest', rest = c :: rest' ∧ InsideInv n nodes h0 h dn c 0 rest' (h.children c ++ cs) := by
  cases hi.below with
  | @cons _ _ l l' h1 h2 =>
    refine ⟨l ++ l', rfl, ⟨allBelow_append h1 h2, hi.past, fun i hm => hi.future i (List.mem_cons_of_mem _ hm), hi.shell,
      hi.nodup, hi.parent, hi.roots, hi.first, hi.fewer⟩, ?_⟩
    rw [List.take_zero, List.drop_zero, List.nil_append, hi.future c (by simp)]

/-- Taking out a child. -/
theorem inside_remove {n : Str} {nodes : List Id} {h0 h : Heap} {dn : List Id} {e : Id} {k : Nat} {rest l : List Id}
    (hnodes : nodes = dn ++ e :: rest) (hnd : nodes.Nodup) (hclosed : ∀ i ∈ nodes, ∀ c ∈ h0.children i, c ∈ nodes)
    (huniq : ∀ i ∈ nodes, ∀ j ∈ nodes, ∀ c ∈ h0.children i, c ∈ h0.children j → i = j)
    (hself : ∀ i ∈ nodes, i ∉ h0.children i)
    (hi : InsideInv n nodes h0 h dn e k rest l) {y : Id} (hk : (h.children e)[k]? = some y)
    (hl : (Test.name n).live h y = true) :
    ∃ h1, h.xmlParent y = some e ∧ h.xmlRemove e y = .ok h1 ∧ InsideInv n nodes h0 h1 dn e (k + 1) rest l ∧
      (h1.children e).length + 1 = (h.children e).length := by
  have hen : e ∈ nodes := by rw [hnodes]; simp
  have hye := live_name_elem hl
  have hmem : y ∈ h.children e := List.mem_of_getElem? hk
  have hy0 : y ∈ h0.children e := hi.base.fewer e hen y hmem
  have hyn : y ∈ nodes := hclosed e hen y hy0
  have hey : e ≠ y := fun hx => hself e hen (by rw [← hx] at hy0; exact hy0)
  have hel : h.isElem e := by
    cases ho : h.obj e with
    | none => rw [Heap.children, ho] at hmem; cases hmem
    | some o =>
      cases o with
      | text s q => rw [Heap.children, ho] at hmem; simp [Obj.kids] at hmem
      | elem m as cs q => exact ⟨m, as, cs, q, ho⟩
  obtain ⟨h1, hrem⟩ := (C26_remove_succeeds_iff hel hye).1 hmem
  obtain ⟨_, k1, _, k3, k4, k5⟩ := C26_remove_element_partial hye hrem
  obtain ⟨m, as, cs, q, m', as', cs', q', o1, o2, _, _, o5⟩ := remove_spec hye hrem
  have hnde := hi.base.nodup e hen
  rw [hnodes, List.nodup_append] at hnd
  have he1 : e ∉ rest := (List.nodup_cons.1 hnd.2.1).1
  have he2 : e ∉ dn := fun hm => hnd.2.2 e hm e (by simp) rfl
  refine ⟨h1, hi.base.parent e hen y hmem, hrem, ⟨⟨?_, ?_, ?_, ?_, ?_, ?_, ?_, ?_, ?_⟩, ?_⟩, ?_⟩
  · exact allBelow_kept hi.base.below fun i hm => k3 i fun hx => he1 (hx ▸ hm)
  · intro i hm
    rw [k3 i fun hx => he2 (hx ▸ hm)]
    exact hi.base.past i hm
  · intro i hm
    rw [k3 i fun hx => he1 (hx ▸ hm)]
    exact hi.base.future i hm
  · intro i
    rw [← hi.base.shell i, o5 i]
    by_cases h1 : i = e
    · rw [if_pos h1, h1, o1]; rfl
    · rw [if_neg h1]
      by_cases h2 : i = y
      · rw [if_pos h2, h2, o2]; rfl
      · rw [if_neg h2]
  · intro i hm
    by_cases hx : i = e
    · rw [hx, k1]; exact hnde.erase _
    · rw [k3 i hx]; exact hi.base.nodup i hm
  · intro i hm c hc
    by_cases hx : i = e
    · subst hx
      rw [k1, hnde.mem_erase_iff] at hc
      rw [k5 c hc.1]
      exact hi.base.parent i hm c hc.2
    · rw [k3 i hx] at hc
      have hcy : c ≠ y := by
        rintro rfl
        exact hx (huniq i hm e hen c (hi.base.fewer i hm c hc) hy0)
      rw [k5 c hcy]
      exact hi.base.parent i hm c hc
  · intro i hm
    have h2 : i ≠ y := fun hx => hm (hx ▸ hyn)
    have h3 : i ≠ e := fun hx => hm (hx ▸ hen)
    rw [k5 i h2, k4 i h3 h2]
    exact hi.base.roots i hm
  · intro i hm
    rw [k5 i fun hx => hm e hen (hx ▸ hy0)]
    exact hi.base.first i hm
  · intro i hm c hc
    by_cases hx : i = e
    · subst hx
      rw [k1] at hc
      exact hi.base.fewer i hm c (List.mem_of_mem_erase hc)
    · rw [k3 i hx] at hc
      exact hi.base.fewer i hm c hc
  · have hcs : h.children e = (h.children e).take k ++ y :: (h.children e).drop (k + 1) := by
      rw [← drop_at hk, List.take_append_drop]
    have hlen : ((h.children e).take k).length = k := by
      have := (List.getElem?_eq_some_iff.1 hk).1
      rw [List.length_take]; omega
    have hlive : (Test.name n).live h0 y = true := by rw [← slash_live hi.base, hl]
    rw [← hi.now, drop_at hk, takenOut_hit hlive]
    generalize (h.children e).drop (k + 1) = w at *
    generalize (h.children e).take k = pre at *
    have herase : h1.children e = pre ++ w := by
      rw [k1]
      rw [hcs] at hnde ⊢
      rw [List.erase_append_right _ (by
        intro hm
        exact (List.nodup_append.1 hnde).2.2 y hm y (by simp) rfl)]
      simp
    rw [herase]
    have e1 : (pre ++ w).take (k + 1) = pre ++ w.take 1 := by rw [← hlen, List.take_length_add_append]
    have e2 : (pre ++ w).drop (k + 1) = w.drop 1 := by rw [← hlen, List.drop_length_add_append]
    rw [e1, e2]
    simp
  · rw [k1, List.length_erase_of_mem hmem]
    have := List.length_pos_of_mem hmem
    omega

/-- What the nodes of a tree are. -/
structure TreeNodes (h0 : Heap) (nodes : List Id) : Prop where
  nodup : nodes.Nodup
  closed : ∀ i ∈ nodes, ∀ c ∈ h0.children i, c ∈ nodes
  uniq : ∀ i ∈ nodes, ∀ j ∈ nodes, ∀ c ∈ h0.children i, c ∈ h0.children j → i = j
  self : ∀ i ∈ nodes, i ∉ h0.children i

/-- Where the loop is. -/
inductive SlashAt (n : Str) (nodes : List Id) (h0 h : Heap) : AxisGen → Prop
  | walk {dn rest l} : nodes = dn ++ rest → SlashInv n nodes h0 h dn rest l → SlashAt n nodes h0 h (.walk l)
  | inside {dn e k rest l} : nodes = dn ++ e :: rest → InsideInv n nodes h0 h dn e k rest l →
      SlashAt n nodes h0 h (.inside e k l)

theorem slash_next {n : Str} {nodes : List Id} {h0 h : Heap} (ht : TreeNodes h0 nodes) {g : AxisGen} {r : AxisOut}
    (hn : AxisNext (.name n) h g r) : SlashAt n nodes h0 h g →
    (r = .finished ∧ SlashInv n nodes h0 h nodes [] []) ∨
    ∃ y g' p h1, r = .give y g' ∧ h.xmlParent y = some p ∧ h.xmlRemove p y = .ok h1 ∧ SlashAt n nodes h0 h1 g' := by
  induction hn with
  | @give g y g' hx =>
    rintro (⟨hd, hi⟩ | @⟨dn, e, k, rest, l, hd, hi⟩)
    · rename_i l
      cases l <;> cases hx
    · cases hk : (h.children e)[k]? with
      | none => rw [axisRound, hk] at hx; cases hx
      | some c =>
        rw [inside_round hk] at hx
        cases hl : (Test.name n).live h c with
        | false => simp [hl] at hx
        | true =>
          simp only [hl, if_true, AxisOut.give.injEq] at hx
          obtain ⟨rfl, rfl⟩ := hx
          obtain ⟨h1, a1, a2, a3, _⟩ := inside_remove hd ht.nodup ht.closed ht.uniq ht.self hi hk hl
          exact .inr ⟨c, _, e, h1, rfl, a1, a2, .inside hd a3⟩
  | @finished g hx =>
    rintro (@⟨dn, rest, l, hd, hi⟩ | @⟨dn, e, k, rest, l, hd, hi⟩)
    · cases l with
      | nil =>
        cases hi.below
        rw [List.append_nil] at hd
        subst hd
        exact .inl ⟨rfl, hi⟩
      | cons => cases hx
    · cases hk : (h.children e)[k]? with
      | none => rw [axisRound, hk] at hx; cases hx
      | some c =>
        rw [inside_round hk] at hx
        cases hl : (Test.name n).live h c <;> simp [hl] at hx
  | @raised g hx =>
    rintro (@⟨dn, rest, l, hd, hi⟩ | @⟨dn, e, k, rest, l, hd, hi⟩)
    · cases l <;> cases hx
    · cases hk : (h.children e)[k]? with
      | none => rw [axisRound, hk] at hx; cases hx
      | some c =>
        rw [inside_round hk] at hx
        cases hl : (Test.name n).live h c <;> simp [hl] at hx
  | @pass g g' r hx _ ih =>
    rintro (@⟨dn, rest, l, hd, hi⟩ | @⟨dn, e, k, rest, l, hd, hi⟩)
    · cases l with
      | nil => cases hx
      | cons c cs =>
        cases hx
        obtain ⟨rest', e1, e2⟩ := walk_on hi
        exact ih (.inside (by rw [hd, e1]) e2)
    · cases hk : (h.children e)[k]? with
      | none =>
        rw [axisRound, hk] at hx
        cases hx
        exact ih (.walk (by rw [hd]; simp) (inside_end hi hk))
      | some c =>
        rw [inside_round hk] at hx
        cases hl : (Test.name n).live h c with
        | true => simp [hl] at hx
        | false =>
          simp only [hl, Bool.false_eq_true, if_false, AxisOut.pass.injEq] at hx
          subst hx
          exact ih (.inside hd (inside_skip hi hk hl))

theorem slash_done {n : Str} {nodes : List Id} {h0 h h' : Heap} (ht : TreeNodes h0 nodes) {g : AxisGen}
    (hq : QueryRemove (.name n) h g h') : SlashAt n nodes h0 h g → SlashInv n nodes h0 h' nodes [] [] := by
  induction hq with
  | done hn =>
    intro hs
    rcases slash_next ht hn hs with ⟨_, h1⟩ | ⟨_, _, _, _, h1, _⟩
    · exact h1
    · cases h1
  | remove hn hp hr _ ih =>
    intro hs
    rcases slash_next ht hn hs with ⟨h1, _⟩ | ⟨y, g', p, h1, e1, e2, e3, e4⟩
    · cases h1
    · cases e1
      rw [hp] at e2
      cases e2
      rw [hr] at e3
      cases e3
      exact ih e4

theorem queryRemove_pass {t : Test} {h h' : Heap} {g g' : AxisGen} (hx : axisRound t h g = .pass g')
    (hq : QueryRemove t h g' h') : QueryRemove t h g h' := by
  cases hq with
  | done hn => exact .done (.pass hx hn)
  | remove hn a b c => exact .remove (.pass hx hn) a b c

theorem slash_ends {n : Str} {nodes : List Id} {h0 : Heap} (ht : TreeNodes h0 nodes) : ∀ (m : Nat) (h : Heap) (dn rest l : List Id),
    rest.length ≤ m → nodes = dn ++ rest → SlashInv n nodes h0 h dn rest l → ∃ h', QueryRemove (.name n) h (.walk l) h' := by
  have stepB : ∀ m : Nat, (∀ (h : Heap) (dn rest l : List Id), rest.length ≤ m → nodes = dn ++ rest →
      SlashInv n nodes h0 h dn rest l → ∃ h', QueryRemove (.name n) h (.walk l) h') →
      ∀ (j : Nat) (h : Heap) (dn : List Id) (e : Id) (k : Nat) (rest l : List Id), rest.length ≤ m →
        (h.children e).length - k ≤ j → nodes = dn ++ e :: rest → InsideInv n nodes h0 h dn e k rest l →
        ∃ h', QueryRemove (.name n) h (.inside e k l) h' := by
    intro m hA j
    induction j with
    | zero =>
      intro h dn e k rest l hm hj hd hi
      have hk : (h.children e)[k]? = none := List.getElem?_eq_none_iff.2 (by omega)
      obtain ⟨h', hq⟩ := hA h (dn ++ [e]) rest l hm (by rw [hd]; simp) (inside_end hi hk)
      exact ⟨h', queryRemove_pass (by rw [axisRound, hk]) hq⟩
    | succ j ih =>
      intro h dn e k rest l hm hj hd hi
      cases hk : (h.children e)[k]? with
      | none =>
        obtain ⟨h', hq⟩ := hA h (dn ++ [e]) rest l hm (by rw [hd]; simp) (inside_end hi hk)
        exact ⟨h', queryRemove_pass (by rw [axisRound, hk]) hq⟩
      | some c =>
        have hlt : k < (h.children e).length := (List.getElem?_eq_some_iff.1 hk).1
        have hround := inside_round (n := n) (l := l) hk
        cases hl : (Test.name n).live h c with
        | false =>
          rw [hl, if_neg (by simp)] at hround
          obtain ⟨h', hq⟩ := ih h dn e (k + 1) rest l hm (by omega) hd (inside_skip hi hk hl)
          exact ⟨h', queryRemove_pass hround hq⟩
        | true =>
          rw [hl, if_pos rfl] at hround
          obtain ⟨h1, a1, a2, a3, a4⟩ := inside_remove hd ht.nodup ht.closed ht.uniq ht.self hi hk hl
          obtain ⟨h', hq⟩ := ih h1 dn e (k + 1) rest l hm (by omega) hd a3
          exact ⟨h', .remove (.give hround) a1 a2 hq⟩
  intro m
  induction m with
  | zero =>
    intro h dn rest l hm _ hi
    cases l with
    | nil => exact ⟨h, .done (.finished rfl)⟩
    | cons c cs =>
      obtain ⟨rest', rfl, _⟩ := walk_on hi
      simp at hm
  | succ m ih =>
    intro h dn rest l hm hd hi
    cases l with
    | nil => exact ⟨h, .done (.finished rfl)⟩
    | cons c cs =>
      obtain ⟨rest', rfl, hi'⟩ := walk_on hi
      obtain ⟨h', hq⟩ := stepB m ih _ h dn c 0 rest' _ (by simpa using hm) (Nat.le_refl _) hd hi'
      exact ⟨h', queryRemove_pass rfl hq⟩

/-- Objects and trees side by side: the same names, and each object with this parent represents its tree. -/
def Beside (n : Str) (h0 h' : Heap) (par : Id) : List Id → List Node → Prop
  | [], [] => True
  | c :: cs, t :: ts => (Test.name n).live h0 c = t.named n ∧ (h'.xmlParent c = some par → Rep h' (some par) c t) ∧
      Beside n h0 h' par cs ts
  | _, _ => False

theorem takenOut_beside {n : Str} {h0 h' : Heap} {par : Id} : ∀ (m : Nat) (cs : List Id) (ts : List Node), cs.length ≤ m →
    Beside n h0 h' par cs ts → (∀ c ∈ takenOut ((Test.name n).live h0) cs, h'.xmlParent c = some par) →
    RepList h' par (takenOut ((Test.name n).live h0) cs) (takenOut (Node.named n) ts) := by
  intro m
  induction m with
  | zero =>
    intro cs ts hm hb _
    cases cs with
    | nil =>
      cases ts with
      | nil => rfl
      | cons => cases hb
    | cons => simp at hm
  | succ m ih =>
    intro cs ts hm hb hp
    cases cs with
    | nil =>
      cases ts with
      | nil => rfl
      | cons => cases hb
    | cons c cs =>
      cases ts with
      | nil => cases hb
      | cons t ts =>
        obtain ⟨b1, b2, b3⟩ := hb
        cases hl : (Test.name n).live h0 c with
        | false =>
          rw [takenOut_skip hl] at hp ⊢
          rw [takenOut_skip (by rw [← b1, hl])]
          exact ⟨c, _, rfl, b2 (hp c (by simp)), ih cs ts (by simpa using hm) b3 fun d hd => hp d (by simp [hd])⟩
        | true =>
          rw [takenOut_hit hl] at hp ⊢
          rw [takenOut_hit (by rw [← b1, hl])]
          cases cs with
          | nil =>
            cases ts with
            | nil => rfl
            | cons => cases b3
          | cons d cs =>
            cases ts with
            | nil => cases b3
            | cons u ts =>
              obtain ⟨_, c2, c3⟩ := b3
              simp only [List.take_succ_cons, List.take_zero, List.drop_succ_cons, List.drop_zero, List.cons_append,
                List.nil_append] at hp ⊢
              exact ⟨d, _, rfl, c2 (hp d (by simp)), ih cs ts (by simp at hm; omega) c3 fun x hx => hp x (by simp [hx])⟩

theorem rep_thinned {n : Str} {h0 h' : Heap} {T : Id → Prop} (hT : ∀ i, T i → ∀ c ∈ h0.children i, T c)
    (kids : ∀ i, T i → h'.children i = takenOut ((Test.name n).live h0) (h0.children i))
    (shell : ∀ i, (h'.obj i).map Obj.shell = (h0.obj i).map Obj.shell)
    (nodup : ∀ i, T i → (h'.children i).Nodup) (parent : ∀ i, T i → ∀ c ∈ h'.children i, h'.xmlParent c = some i) :
    (∀ (t : Node) (i : Id) (p q : Option Id), T i → h'.xmlParent i = p → Rep h0 q i t → Rep h' p i (t.thinned n)) ∧
    (∀ (ts : List Node) (par : Id) (cs : List Id), (∀ c ∈ cs, T c) → RepList h0 par cs ts →
      Beside n h0 h' par cs (Node.thinnedList n ts)) := by
  apply Node.induct
  case elem =>
    intro m as cs ih i p q hi hp hr
    obtain ⟨cs', q, h1, h2, h3, h4⟩ := hr
    have hc : h0.children i = cs' := by simp [Heap.children, h1, Obj.kids]
    have hk := kids i hi
    have hs := shell i
    rw [h1] at hs
    cases ho : h'.obj i with
    | none => rw [ho] at hs; cases hs
    | some o =>
      rw [ho] at hs
      cases o with
      | text s q' => simp [Obj.shell] at hs
      | elem m' as' cs'' q' =>
        simp only [Option.map_some, Obj.shell, Option.some.injEq, Sum.inr.injEq, Prod.mk.injEq] at hs
        obtain ⟨rfl, rfl⟩ := hs
        have hk' : h'.children i = cs'' := by simp [Heap.children, ho, Obj.kids]
        have hnd := nodup i hi
        have hpar := parent i hi
        rw [hk'] at hnd hpar
        rw [hc, hk'] at hk
        rw [Node.thinned]
        refine ⟨cs'', q', ho, hp, hnd, ?_⟩
        rw [hk] at hpar ⊢
        exact takenOut_beside _ _ _ (Nat.le_refl _) (ih i cs' (fun c hcm => hT i hi c (hc ▸ hcm)) h4) hpar
  case text =>
    intro s i p q hi hp hr
    obtain ⟨q, h1, h2⟩ := hr
    have hs := shell i
    rw [h1] at hs
    cases ho : h'.obj i with
    | none => rw [ho] at hs; cases hs
    | some o =>
      rw [ho] at hs
      cases o with
      | elem => simp [Obj.shell] at hs
      | text s' q' =>
        simp only [Option.map_some, Obj.shell, Option.some.injEq, Sum.inl.injEq] at hs
        subst hs
        exact ⟨q', ho, hp⟩
  case nil =>
    intro par cs _ hr
    cases hr
    rw [Node.thinnedList]
    trivial
  case cons =>
    intro t ts iht ihts par cs hT' hr
    obtain ⟨c, r, rfl, h1, h2⟩ := hr
    rw [Node.thinnedList]
    refine ⟨?_, fun hp => iht c _ _ (hT' c (by simp)) hp h1, ihts par r (fun d hd => hT' d (by simp [hd])) h2⟩
    cases t with
    | text s =>
      obtain ⟨q, h3, _⟩ := h1
      simp [Test.live, h3, Node.thinned, Node.named]
    | elem m as ts' =>
      obtain ⟨cs', q, h3, _⟩ := h1
      simp [Test.live, h3, Node.thinned, Node.named]

/-- C121, exactly: `for x in root.xml_xpath('//n'): x.xml_parent.xml_remove(x)`, for a document element with another
name, always runs to its end without an error, but passes over the node after each one it removes: what is left is the
tree with every child list thinned out, not the tree without the elements named `n`. -/
theorem C121_delete_everywhere {t : Id} {m n : Str} {as : Attrs} {cs : List Node} {h0 : Heap}
    (hr : Rep h0 none t (.elem m as cs)) (hm : m ≠ n) :
    (∃ h', QueryRemove (.name n) h0 (.top t) h') ∧
    ∀ h', QueryRemove (.name n) h0 (.top t) h' → Rep h' none t ((Node.elem m as cs).thinned n) := by
  have hre : Reachable h0 [t] t := .root (by simp)
  obtain ⟨l, hl⟩ := allBelow_exists.1 _ t none hr
  have hnd := below_element hr hre hl
  have hbelow : AllBelow h0 [t] (t :: l) := by simpa using AllBelow.cons hl .nil
  have hreach : ∀ i ∈ t :: l, Reachable h0 [t] i := allBelow_reach hbelow (by simpa using hre)
  have hpar : ∀ i ∈ t :: l, ∀ c ∈ h0.children i, h0.xmlParent c = some i := fun i hi => (rep_reach hr (hreach i hi)).2.2
  have hnot : (Test.name n).live h0 t = false := by
    obtain ⟨cs', q, h3, _⟩ := hr
    simp [Test.live, h3, hm]
  have tn : TreeNodes h0 (t :: l) := by
    refine ⟨hnd, allBelow_closed hbelow, ?_, ?_⟩
    · intro i hi j hj c hci hcj
      have h1 := hpar i hi c hci
      rw [hpar j hj c hcj] at h1
      exact (Option.some.inj h1).symm
    · intro i hi hc
      have hp := hpar i hi i hc
      obtain ⟨k, hk⟩ := (rep_reach hr (hreach i hi)).1
      have h1 : upTimes h0 1 i = some i := by rw [upTimes, hp]; rfl
      have := upTimes_add h0 1 k i i h1
      rw [hk] at this
      have := upTimes_unique (rep_children hr).1 _ _ _ this hk
      omega
  have init : SlashInv n (t :: l) h0 h0 [] (t :: l) [t] :=
    ⟨hbelow, by simp, fun _ _ => rfl, fun _ => rfl, fun i hi => (rep_reach hr (hreach i hi)).2.1, hpar,
      fun _ _ => ⟨rfl, rfl⟩, fun _ _ => rfl, fun _ _ _ hc => hc⟩
  have hround : axisRound (.name n) h0 (.top t) = .pass (.walk [t]) := by
    rw [axisRound, Test.out, hnot]
    split <;> rfl
  constructor
  · obtain ⟨h', hq⟩ := slash_ends tn _ h0 [] _ _ (Nat.le_refl _) rfl init
    exact ⟨h', queryRemove_pass hround hq⟩
  · intro h' hq
    have hq' : QueryRemove (.name n) h0 (.walk [t]) h' := by
      have strip : ∀ {r}, AxisNext (.name n) h0 (.top t) r → AxisNext (.name n) h0 (.walk [t]) r := by
        intro r hn
        cases hn with
        | give hx => rw [hround] at hx; cases hx
        | finished hx => rw [hround] at hx; cases hx
        | raised hx => rw [hround] at hx; cases hx
        | pass hx hn => rw [hround] at hx; cases hx; exact hn
      cases hq with
      | done hn => exact .done (strip hn)
      | remove hn a b c => exact .remove (strip hn) a b c
    have fin := slash_done tn hq' (.walk (dn := []) (by rfl) init)
    refine (rep_thinned (n := n) (T := fun i => i ∈ t :: l) tn.closed fin.past fin.shell fin.nodup fin.parent).1 _ t none
      none (by simp) ?_ hr
    rw [fin.first t (fun j hj hc => ?_)]
    · exact (rep_children hr).1
    · have := hpar j hj t hc
      rw [(rep_children hr).1] at this
      cases this

/-- C121: if the document element has the name itself, it is the first result, and it has no parent: the loop ends with
AttributeError at once. -/
theorem C121_document_element {t : Id} {n : Str} {as : Attrs} {cs : List Node} {h0 : Heap}
    (hr : Rep h0 none t (.elem n as cs)) :
    AxisNext (.name n) h0 (.top t) (.give t (.walk [t])) ∧ h0.xmlParent t = none := by
  refine ⟨.give ?_, (rep_children hr).1⟩
  have hl : (Test.name n).live h0 t = true := by
    obtain ⟨cs', q, h3, _⟩ := hr
    simp [Test.live, h3]
  rw [axisRound, Test.out, hl, live_isElemB hl]
  simp

theorem thinned_named (n : Str) (t : Node) : (t.thinned n).named n = t.named n := by
  cases t <;> simp [Node.thinned, Node.named]

theorem thinnedList_map (n : Str) (ts : List Node) : Node.thinnedList n ts = ts.map (Node.thinned n) := by
  induction ts with
  | nil => rw [Node.thinnedList]; rfl
  | cons t ts ih => rw [Node.thinnedList, ih]; rfl

theorem withoutList_cons (n : Str) (t : Node) (ts : List Node) :
    Node.withoutList n (t :: ts) = if t.named n then Node.withoutList n ts else t.without n :: Node.withoutList n ts := by
  cases t with
  | text s => simp [Node.withoutList, Node.named, Node.without]
  | elem m as cs => by_cases h : m = n <;> simp [Node.withoutList, Node.named, Node.without, h]

theorem thinned_without (n : Str) :
    (∀ t : Node, t.apart n → t.thinned n = t.without n) ∧
    (∀ ts : List Node, Node.apartList n ts →
      (Node.thinnedList n ts).filter (fun t => !t.named n) = Node.withoutList n ts) := by
  apply Node.induct
  case elem =>
    intro m as cs ih ha
    rw [Node.apart] at ha
    rw [Node.thinned, Node.without]
    congr 1
    rw [← ih ha.2]
    refine takenOut_filter _ _ (Nat.le_refl _) ?_
    intro u x y r hc hx
    rw [thinnedList_map] at hc
    obtain ⟨u', r1, e1, e2, e3⟩ := List.map_eq_append_iff.1 hc
    obtain ⟨x', r2, e4, e5, e6⟩ := List.map_eq_cons_iff.1 e3
    obtain ⟨y', r3, e7, e8, e9⟩ := List.map_eq_cons_iff.1 e6
    subst e4; subst e7; subst e5; subst e8
    rw [thinned_named] at hx ⊢
    exact ha.1 u' x' y' r3 e1 hx
  case text => intro s _; rfl
  case nil => intro _; simp [Node.thinnedList, Node.withoutList]
  case cons =>
    intro t ts iht ihts ha
    rw [Node.apartList] at ha
    rw [Node.thinnedList, withoutList_cons, List.filter_cons, thinned_named, ihts ha.2, iht ha.1]
    cases t.named n <;> simp

/-- C121, partial: if no two neighbouring children anywhere in the tree are named `n`, the loop over `//n` leaves the
tree without the elements named `n`.  Missing: neighbours, of which the second is left. -/
theorem C121_no_neighbours_partial {t : Id} {m n : Str} {as : Attrs} {cs : List Node} {h0 h' : Heap}
    (hr : Rep h0 none t (.elem m as cs)) (hm : m ≠ n) (ha : (Node.elem m as cs).apart n)
    (hq : QueryRemove (.name n) h0 (.top t) h') : Rep h' none t ((Node.elem m as cs).without n) := by
  rw [← (thinned_without n).1 _ ha]
  exact (C121_delete_everywhere hr hm).2 h' hq

/-- C121 in full is false: of the two neighbours of `<r><a/><a/></r>` the second is left. -/
theorem C121_full_statement_is_false :
    (∃ h', QueryRemove (.name ['a']) exPair (.top 0) h') ∧
    ∀ h', QueryRemove (.name ['a']) exPair (.top 0) h' → Rep h' none 0 (.elem ['r'] [] [.elem ['a'] [] []]) := by
  have := C121_delete_everywhere (n := ['a']) exPair_rep (by decide)
  have ht : (Node.elem ['r'] [] [.elem ['a'] [] [], .elem ['a'] [] []]).thinned ['a'] =
      .elem ['r'] [] [.elem ['a'] [] []] := by
    simp [Node.thinned, Node.thinnedList, takenOut, Node.named]
  rw [ht] at this
  exact this

/-- A tree where no two neighbours have the name, at any depth. -/
example : (Node.elem ['r'] [] [.elem ['a'] [] [], .text ['t'], .elem ['a'] [] [.elem ['a'] [] []]]).apart ['a'] := by
  simp only [Node.apart, Node.apartList, and_true, true_and]
  refine ⟨?_, ?_, ?_⟩
  · intro u x y r h hx
    match u, h with
    | [], h => cases h; rfl
    | [_], h => cases h; cases hx
    | [_, _], h => cases h
    | _ :: _ :: _ :: u, h => simp at h
  · intro u x y r h; simp at h
  · refine ⟨?_, ?_⟩
    · intro u x y r h _
      match u, h with
      | [], h => cases h
      | _ :: u, h => simp at h
    · intro u x y r h; simp at h

/-! ### the sibling axes take the list first -/

theorem index_at {h : Heap} {e : Id} (hel : h.isElem e) {a b : List Id} (hea : e ∉ a) :
    (a ++ e :: b).findIdx? (h.pyEq e) = some a.length := by
  have hb := isElemB_iff.2 hel
  have heq : ∀ c, h.pyEq e c = (e == c) := by
    intro c
    obtain ⟨m, as, cs, q, ho⟩ := hel
    simp [Heap.pyEq, ho]
  induction a with
  | nil => simp [List.findIdx?_cons, heq]
  | cons x a ih =>
    rw [List.cons_append, List.findIdx?_cons, heq, ih fun hm => hea (by simp [hm])]
    have : ¬ e = x := fun hx => hea (by simp [hx])
    simp [this]

theorem list_next {t : Test} {h : Heap} {g : AxisGen} {r : AxisOut} (hn : AxisNext t h g r) : ∀ l, g = .list l →
    (r = .finished ∧ l.filter (t.live h) = []) ∨
    ∃ u y w, l = u ++ y :: w ∧ u.filter (t.live h) = [] ∧ t.live h y = true ∧ r = .give y (.list w) := by
  induction hn with
  | @give g y g' hx =>
    rintro (_ | ⟨c, l⟩) rfl
    · cases hx
    · rw [axisRound, Test.out] at hx
      split at hx <;> cases hx
      exact .inr ⟨[], y, l, rfl, rfl, ‹_›, rfl⟩
  | @finished g hx =>
    rintro (_ | ⟨c, l⟩) rfl
    · exact .inl ⟨rfl, rfl⟩
    · rw [axisRound, Test.out] at hx
      split at hx <;> cases hx
  | @raised g hx =>
    rintro (_ | ⟨c, l⟩) rfl
    · cases hx
    · rw [axisRound, Test.out] at hx
      split at hx <;> cases hx
  | @pass g g' r hx _ ih =>
    rintro (_ | ⟨c, l⟩) rfl
    · cases hx
    · rw [axisRound, Test.out] at hx
      have hl : t.live h c = false := by
        cases hl : t.live h c with
        | false => rfl
        | true => rw [if_pos hl] at hx; cases hx
      rw [if_neg (by simp [hl])] at hx
      cases hx
      rcases ih l rfl with ⟨h1, h2⟩ | ⟨u, y, w, h1, h2, h3, h4⟩
      · exact .inl ⟨h1, by rw [List.filter_cons, hl]; exact h2⟩
      · exact .inr ⟨c :: u, y, w, by rw [h1]; rfl, by rw [List.filter_cons, hl]; exact h2, h3, h4⟩

theorem list_next_exists (t : Test) (h : Heap) (l : List Id) : ∃ r, AxisNext t h (.list l) r := by
  induction l with
  | nil => exact ⟨_, .finished rfl⟩
  | cons c l ih =>
    obtain ⟨r, hr⟩ := ih
    cases hl : t.live h c with
    | true => exact ⟨_, .give (by rw [axisRound, Test.out, if_pos hl])⟩
    | false => exact ⟨r, .pass (by rw [axisRound, Test.out, if_neg (by simp [hl])]) hr⟩

/-- C119, `following-sibling` and `preceding-sibling` of an element: the results are those of the tree as it was when
the first was asked for, nearest first, whatever the caller does in between, also to the siblings still to come and to
the parent, as long as kinds and names stay. -/
theorem C119_siblings {h0 : Heap} {e p : Id} {a b : List Id} (hel : h0.isElem e) (hp : h0.xmlParent e = some p)
    (hc : h0.children p = a ++ e :: b) (hea : e ∉ a) {t : Test} {h : Heap} {g : AxisGen} {vs : List Id} {s : Side}
    (hs : s ≠ .following)
    (hrun : AxisRun t (fun vs h h' => if vs = [] then h' = h else NamesKept vs h h') h0 (.beside s e) [] h g vs) :
    let res := (if s = .followingSibling then b else a.reverse).filter (t.live h0)
    vs <+: res ∧ (∃ r, AxisNext t h g r) ∧
    ∀ r, AxisNext t h g r → (r = .finished ∧ vs = res) ∨ ∃ y g', r = .give y g' ∧ vs ++ [y] <+: res := by
  have hround : axisRound t h0 (.beside s e) = .pass (.list (if s = .followingSibling then b else a.reverse)) := by
    have hidx : (h0.children p).findIdx? (h0.pyEq e) = some a.length := by
      rw [hc]
      exact index_at hel hea
    rw [axisRound, hp]
    simp only [hidx]
    rw [hc]
    cases s with
    | following => exact (hs rfl).elim
    | followingSibling =>
      simp
    | precedingSibling => simp
  generalize (if s = .followingSibling then b else a.reverse) = l at hround
  intro res
  have strip : ∀ {r}, AxisNext t h0 (.beside s e) r → AxisNext t h0 (.list l) r := by
    intro r hn
    cases hn with
    | give hx => rw [hround] at hx; cases hx
    | finished hx => rw [hround] at hx; cases hx
    | raised hx => rw [hround] at hx; cases hx
    | pass hx hn => rw [hround] at hx; cases hx; exact hn
  have key : (g = .beside s e ∧ vs = [] ∧ h = h0) ∨
      ∃ dn rest, g = .list rest ∧ l = dn ++ rest ∧ vs = dn.filter (t.live h0) ∧ vs ≠ [] ∧ ∀ i, t.live h i = t.live h0 i := by
    induction hrun with
    | refl => exact .inl ⟨rfl, rfl, rfl⟩
    | change _ hR ih =>
      rcases ih with ⟨e1, e2, e3⟩ | ⟨dn, rest, e1, e2, e3, e4, e5⟩
      · rw [if_pos e2] at hR
        exact .inl ⟨e1, e2, hR.trans e3⟩
      · rw [if_neg e4] at hR
        exact .inr ⟨dn, rest, e1, e2, e3, e4, fun i => (live_of_label t (hR i)).trans (e5 i)⟩
    | @next h' g' vs' y g'' _ hn ih =>
      rcases ih with ⟨e1, e2, e3⟩ | ⟨dn, rest, e1, e2, e3, e4, e5⟩
      · subst e1; subst e2; subst e3
        rcases list_next (strip hn) l rfl with ⟨h1, _⟩ | ⟨u, y', w, h1, h2, h3, h4⟩
        · cases h1
        · cases h4
          exact .inr ⟨u ++ [y], w, rfl, by simp [h1], by simp [h2, h3], by simp, fun _ => rfl⟩
      · subst e1
        have hlive : t.live h' = t.live h0 := funext e5
        rcases list_next hn rest rfl with ⟨h1, _⟩ | ⟨u, y', w, h1, h2, h3, h4⟩
        · cases h1
        · cases h4
          rw [hlive] at h2 h3
          exact .inr ⟨dn ++ u ++ [y], w, rfl, by simp [e2, h1], by simp [h2, h3, e3], by simp, e5⟩
  rcases key with ⟨e1, e2, e3⟩ | ⟨dn, rest, e1, e2, e3, e4, e5⟩
  · subst e1; subst e2; subst e3
    refine ⟨List.nil_prefix, ?_, ?_⟩
    · obtain ⟨r, hr⟩ := list_next_exists t h l
      exact ⟨r, .pass hround hr⟩
    · intro r hn
      rcases list_next (strip hn) l rfl with ⟨h1, h2⟩ | ⟨u, y', w, h1, h2, h3, h4⟩
      · exact .inl ⟨h1, h2.symm⟩
      · exact .inr ⟨y', _, h4, by simp [res, h1, h2, h3]⟩
  · subst e1
    have hlive : t.live h = t.live h0 := funext e5
    refine ⟨by rw [e3]; simp [res, e2], list_next_exists t h rest, ?_⟩
    intro r hn
    rcases list_next hn rest rfl with ⟨h1, h2⟩ | ⟨u, y', w, h1, h2, h3, h4⟩
    · rw [hlive] at h2
      exact .inl ⟨h1, by simp [res, e2, h2, e3]⟩
    · rw [hlive] at h2 h3
      exact .inr ⟨y', _, h4, by simp [res, e2, h1, h2, h3, e3]⟩

/-! ### the hypotheses can be met -/

/-- `<r><a/><a/></r>`: the first result of `descendant::a` is taken out of the tree before the second is asked for. -/
example : AllBelow exPair (exPair.children 0) [1, 2] ∧ exPair.xmlRemove 0 1 = .ok exLess ∧
    AxisRun (.name ['a']) (OnlyBehind 0 [1, 2]) exPair (.start 0) [] exLess (.todo []) [1, 2] := by
  refine ⟨.cons (l := []) .nil (.cons (l := []) .nil .nil), by obtain ⟨_, _, h, _⟩ := C103_removal_misses; exact h, ?_⟩
  have h1 : AxisNext (.name ['a']) exPair (.start 0) (.give 1 (.todo [2])) := .pass rfl (.give rfl)
  have h2 : AxisNext (.name ['a']) exLess (.todo [2]) (.give 2 (.todo [])) := .give rfl
  refine .next (vs' := [1]) (.change (.next (vs' := []) .refl h1) ⟨?_, fun h => absurd h (by decide)⟩) h2
  rintro i ⟨a, b, e1, e2, e3⟩
  have hi : i = 1 ∨ i = 2 := by
    have : i ∈ [1, 2] := by rw [e1]; simp [e3]
    simpa using this
  rcases hi with rfl | rfl
  · exfalso
    cases a with
    | nil => cases e2
    | cons x a =>
      simp only [List.cons_append, List.cons.injEq] at e1
      obtain ⟨rfl, e1⟩ := e1
      have : (1 : Nat) ∈ [2] := by rw [e1]; simp [e3]
      simp at this
  · exact ⟨rfl, rfl⟩

/-- The siblings of the second child; there is one before it. -/
example : exPair.isElem 2 ∧ exPair.xmlParent 2 = some 0 ∧ exPair.children 0 = [1] ++ 2 :: [] ∧
    AxisRun (.name ['a']) (fun vs h h' => if vs = [] then h' = h else NamesKept vs h h') exPair
      (.beside .precedingSibling 2) [] exPair (.list []) [1] :=
  ⟨⟨_, _, _, _, rfl⟩, rfl, rfl, .next (vs' := []) .refl (.pass (g' := .list [1]) rfl (.give rfl))⟩

/-- C119, `following` of an element: the results are the siblings after it and everything below them (the code goes no further, C46), in document
order, as they were when the first was asked for, as long as the caller, after the first result, changes only nodes that were already reached. -/
theorem C119_following {h0 : Heap} {e p : Id} {a b : List Id} (hel : h0.isElem e) (hp : h0.xmlParent e = some p)
    (hc : h0.children p = a ++ e :: b) (hea : e ∉ a) {nodes : List Id} (hd : AllBelow h0 b nodes) {t : Test} {h : Heap} {g : AxisGen} {vs : List Id}
    (hrun : AxisRun t (fun vs h h' => if vs = [] then h' = h else OnlyBehind e nodes vs h h') h0 (.beside .following e) [] h g vs) :
    vs <+: nodes.filter (t.live h0) ∧ (∃ r, AxisNext t h g r) ∧
    ∀ r, AxisNext t h g r → (r = .finished ∧ vs = nodes.filter (t.live h0)) ∨
      ∃ y g', r = .give y g' ∧ vs ++ [y] <+: nodes.filter (t.live h0) := by
  have hround : axisRound t h0 (.beside .following e) = .pass (.todo b) := by
    have hidx : (h0.children p).findIdx? (h0.pyEq e) = some a.length := by
      rw [hc]
      exact index_at hel hea
    rw [axisRound, hp]
    simp only [hidx]
    rw [hc]
    simp
  have strip : ∀ {r}, AxisNext t h0 (.beside .following e) r → AxisNext t h0 (.todo b) r := by
    intro r hn
    cases hn with
    | give hx => rw [hround] at hx; cases hx
    | finished hx => rw [hround] at hx; cases hx
    | raised hx => rw [hround] at hx; cases hx
    | pass hx hn => rw [hround] at hx; cases hx; exact hn
  have key : (g = .beside .following e ∧ vs = [] ∧ h = h0) ∨ ∃ todo, g = .todo todo ∧ TodoInv t nodes h0 h todo vs := by
    induction hrun with
    | refl => exact .inl ⟨rfl, rfl, rfl⟩
    | @change h' g' vs' h'' _ hR ih =>
      rcases ih with ⟨e1, e2, e3⟩ | ⟨todo, e1, e2⟩
      · subst e2
        rw [if_pos rfl] at hR
        exact .inl ⟨e1, rfl, hR.trans e3⟩
      · by_cases hv : vs' = []
        · rw [if_pos hv] at hR
          rw [hR]
          exact .inr ⟨todo, e1, e2⟩
        · rw [if_neg hv] at hR
          exact .inr ⟨todo, e1, todoInv_change e2 hR⟩
    | @next h' g' vs' y g'' _ hn ih =>
      rcases ih with ⟨e1, e2, e3⟩ | ⟨todo, e1, e2⟩
      · subst e1; subst e2; subst e3
        rcases todo_results (dn := []) hd (fun _ _ => rfl) (strip hn) with ⟨a, _⟩ | ⟨y', todo', a, b⟩
        · cases a
        · cases a
          exact .inr ⟨todo', rfl, b⟩
      · subst e1
        obtain ⟨dn, rest, rfl, h2, h3, h4, h5⟩ := e2
        rcases todo_results (dn := dn) h4 h5 hn with ⟨a, _⟩ | ⟨y', todo', a, b⟩
        · cases a
        · cases a
          rw [← h2] at b
          exact .inr ⟨todo', rfl, b⟩
  rcases key with ⟨rfl, rfl, rfl⟩ | ⟨todo, rfl, dn, rest, rfl, h2, h3, h4, h5⟩
  · refine ⟨List.nil_prefix, ?_, ?_⟩
    · obtain ⟨r, hn⟩ := todo_next_exists t h _ _ _ (Nat.le_refl _) hd
      exact ⟨r, .pass hround hn⟩
    · intro r hn
      rcases todo_results (dn := []) hd (fun _ _ => rfl) (strip hn) with ⟨a, b⟩ | ⟨y, todo', a, b⟩
      · exact .inl ⟨a, by simpa using b.symm⟩
      · obtain ⟨dn, rest, b1, b2, _⟩ := b
        refine .inr ⟨y, _, a, ?_⟩
        have b1' : nodes = dn ++ rest := by simpa using b1
        have b2' : [] ++ [y] = dn.filter (t.live h) := by simpa using b2
        rw [b1', b2']
        exact prefix_filter
  · refine ⟨by rw [h2]; exact prefix_filter, todo_next_exists t h _ _ _ (Nat.le_refl _) h4, ?_⟩
    intro r hn
    rcases todo_results (dn := dn) h4 h5 hn with ⟨a, b⟩ | ⟨y, todo', a, b⟩
    · exact .inl ⟨a, by rw [b, h2]⟩
    · obtain ⟨dn', rest', b1, b2, _⟩ := b
      refine .inr ⟨y, _, a, ?_⟩
      rw [h2, b2, b1]
      exact prefix_filter

/-- What follows the first child: the second, which has no children. -/
example : exPair.isElem 1 ∧ exPair.xmlParent 1 = some 0 ∧ exPair.children 0 = [] ++ 1 :: [2] ∧ AllBelow exPair [2] [2] ∧
    AxisRun (.name ['a']) (fun vs h h' => if vs = [] then h' = h else OnlyBehind 1 [2] vs h h') exPair
      (.beside .following 1) [] exPair (.todo []) [2] :=
  ⟨⟨_, _, _, _, rfl⟩, rfl, rfl, .cons (l := []) (l' := []) .nil .nil, .next (vs' := []) .refl (.pass (g' := .todo [2]) rfl (.give rfl))⟩

end Amara
