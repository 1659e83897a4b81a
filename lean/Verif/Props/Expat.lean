import Verif.Spec.Expat
import Verif.Props.Tree
/-
Properties C22, C43, C44: trees from full XML.
-/
namespace Amara

/-! ### C43 -/

theorem split_word {s cur : Str} (h : NoSpace s) (r : Str) : pySplitFrom cur (s ++ r) = pySplitFrom (cur ++ s) r := by
  induction s generalizing cur with
  | nil => simp
  | cons c s ih =>
    have hc : isPySpace c = false := h c (by simp)
    simp only [List.cons_append, pySplitFrom, hc, Bool.false_eq_true, if_false]
    rw [ih (fun d hd => h d (by simp [hd]))]
    simp

theorem split_local {l : Str} (hl : l ≠ []) (h : NoSpace l) : pySplit l = [l] := by
  have := split_word (cur := []) h []
  rw [List.append_nil] at this
  rw [pySplit, this]
  simp [pySplitFrom, hl]

theorem split_qualified {u l : Str} (hu : u ≠ []) (h : NoSpace u) (hl : l ≠ []) (h' : NoSpace l) :
    pySplit (u ++ ' ' :: l) = [u, l] := by
  rw [pySplit, split_word h]
  have hsp : isPySpace ' ' = true := by decide
  simp only [List.nil_append, pySplitFrom, hsp, if_true, hu, if_false]
  have := split_local hl h'
  rw [pySplit] at this
  rw [this]

theorem localOfStart_qname {q l : Str} (h : QName q l) : localOfStart q = some l := by
  obtain ⟨h1, h2, rfl | ⟨u, h3, h4, rfl⟩⟩ := h
  · simp [localOfStart, split_local h1 h2]
  · simp [localOfStart, split_qualified h3 h4 h1 h2]

theorem localOfStop_qname {q l : Str} (h : QName q l) : localOfStop q = some l := by
  obtain ⟨h1, h2, rfl | ⟨u, h3, h4, rfl⟩⟩ := h
  · have : ' ' ∉ q := fun hm => by have := h2 _ hm; exact absurd this (by decide)
    simp [localOfStop, this]
  · simp [localOfStop, split_qualified h3 h4 h1 h2]

theorem stripAttrs_reports {attrs ls : List (Str × Str)} (h : ReportsAttrs attrs ls) (acc : Attrs) :
    stripAttrs acc attrs = some (ls.foldl (fun (a : Attrs) p => a.set p.1 p.2) acc) := by
  induction h generalizing acc with
  | nil => rfl
  | cons hq _ ih => simp [stripAttrs, localOfStart_qname hq, ih]

/-- Following the open elements. -/
def Track.stack : Track → List Str
  | .inside o => o
  | _ => []

theorem expatEvents_reports {cbs : List XCall} {evs : List Event} (h : Reports cbs evs) (t : Track)
    (hw : evs.foldl Track.next t ≠ .bad) : expatEvents t.stack cbs = (evs, false) := by
  induction h generalizing t with
  | nil => rfl
  | @start q l attrs ls anc cbs evs hq ha _ ih =>
    rw [List.foldl_cons] at hw
    have hb : Track.next t (.start l (dictOf ls) anc) ≠ .bad := by
      intro hb; rw [hb, track_bad] at hw; exact hw rfl
    have ht : anc = t.stack.reverse ∧ (Track.next t (.start l (dictOf ls) anc)).stack = l :: t.stack := by
      cases t with
      | before =>
        by_cases h : anc = []
        · simp [Track.next, Track.stack, h]
        · simp [Track.next, h] at hb
      | inside o =>
        by_cases h : anc = o.reverse
        · simp [Track.next, Track.stack, h]
        · simp [Track.next, h] at hb
      | after => simp [Track.next] at hb
      | bad => simp [Track.next] at hb
    rw [expatEvents, localOfStart_qname hq, stripAttrs_reports ha, foldl_set_dictOf]
    simp only
    rw [← ht.2, ih _ hw, ← ht.1]
  | @stop q l anc cbs evs hq _ ih =>
    rw [List.foldl_cons] at hw
    have hb : Track.next t (.stop l anc) ≠ .bad := by
      intro hb; rw [hb, track_bad] at hw; exact hw rfl
    obtain ⟨m, o, rfl⟩ : ∃ m o, t = .inside (m :: o) := by
      cases t with
      | inside o =>
        cases o with
        | nil => simp [Track.next] at hb
        | cons m o => exact ⟨m, o, rfl⟩
      | before => simp [Track.next] at hb
      | after => simp [Track.next] at hb
      | bad => simp [Track.next] at hb
    have hc : l = m ∧ anc = o.reverse := by
      by_cases h : l = m ∧ anc = o.reverse
      · exact h
      · simp [Track.next, h] at hb
    have hs : (Track.next (.inside (m :: o)) (.stop l anc)).stack = o := by
      simp only [Track.next, hc, and_self, if_true]
      by_cases ho : o = [] <;> simp [ho, Track.stack]
    have := ih _ hw
    rw [hs] at this
    simp only [Track.stack, expatEvents, localOfStop_qname hq, this, hc.2]
  | @chars s cbs evs _ ih =>
    rw [List.foldl_cons] at hw
    have hb : Track.next t (.chars s) ≠ .bad := by
      intro hb; rw [hb, track_bad] at hw; exact hw rfl
    obtain ⟨o, rfl⟩ : ∃ o, t = .inside o := by
      cases t with
      | inside o => exact ⟨o, rfl⟩
      | before => simp [Track.next] at hb
      | after => simp [Track.next] at hb
      | bad => simp [Track.next] at hb
    have hn : Track.next (.inside o) (.chars s) = .inside o := by cases o <;> rfl
    rw [hn] at hw
    have := ih _ hw
    simp only [expatEvents, this]

/-- C43: when expat reports a well-nested stream of events, with names qualified in any way, the handler
is sent exactly that stream: local names, the right ancestor lists, in start and end events alike. -/
theorem C43_local_names {cbs : List XCall} {evs : List Event} (h : Reports cbs evs) (hw : WellNested evs) :
    expatEvents [] cbs = (evs, false) :=
  expatEvents_reports h .before hw

/-- C43, errors: a name without a character that is not white space is an IndexError. -/
theorem C43_blank_name (name : Str) (hn : ∀ c ∈ name, isPySpace c = true) (attrs : List (Str × Str)) (r : List XCall)
    (stk : List Str) :
    expatEvents stk (.start name attrs :: r) = ([], true) := by
  have hs : ∀ s : Str, (∀ c ∈ s, isPySpace c = true) → pySplitFrom [] s = [] := by
    intro s
    induction s with
    | nil => intro _; rfl
    | cons c s ih =>
      intro hc
      rw [pySplitFrom, if_pos (hc c (by simp)), if_pos rfl]
      exact ih fun d hd => hc d (by simp [hd])
  have : localOfStart name = none := by rw [localOfStart, pySplit, hs name hn]; rfl
  simp only [expatEvents, this]

/-- C43 needs the condition on white space: with a namespace name containing a space, start and end event
of the same element carry different names. -/
theorem C43_space_in_namespace : expatEvents [] [.start "u v a".toList [], .stop "u v a".toList] =
    ([.start ['a'] [] [], .stop ['v'] []], false) := by decide

example : Reports [.start "u a".toList [("v x".toList, ['1']), ("w x".toList, ['2'])], .chars ['t'],
      .stop "u a".toList]
    [.start ['a'] (dictOf [(['x'], ['1']), (['x'], ['2'])]) [], .chars ['t'], .stop ['a'] []] ∧
    WellNested [.start ['a'] (dictOf [(['x'], ['1']), (['x'], ['2'])]) [], .chars ['t'], .stop ['a'] []] := by
  have q : ∀ u l : Char, NoSpace [u] → NoSpace [l] → QName [u, ' ', l] [l] := fun u l hu hl =>
    ⟨by simp, hl, .inr ⟨[u], by simp, hu, rfl⟩⟩
  have ns : NoSpace ['u'] ∧ NoSpace ['v'] ∧ NoSpace ['w'] ∧ NoSpace ['a'] ∧ NoSpace ['x'] := by
    unfold NoSpace; decide
  obtain ⟨n1, n2, n3, n4, n5⟩ := ns
  exact ⟨.start (q _ _ n1 n4) (.cons (q _ _ n2 n5) (.cons (q _ _ n3 n5) .nil)) (.chars (.stop (q _ _ n1 n4) .nil)),
    by decide⟩

/-! ### C44 -/

theorem joinChars_append_stops : ∀ (evs m : List Event), (∀ ev ∈ m, ev.isStop = true) →
    joinChars (evs ++ m) = joinChars evs ++ m := by
  intro evs m hm
  have hm' : joinChars m = m ∧ ∀ s r, m ≠ Event.chars s :: r := by
    induction m with
    | nil => exact ⟨rfl, by simp⟩
    | cons x m ih =>
      have hx := hm x (by simp)
      have := (ih (fun e he => hm e (by simp [he]))).1
      cases x with
      | stop n a => exact ⟨by simp [joinChars, this], by simp⟩
      | start => cases hx
      | chars => cases hx
  induction evs with
  | nil => simpa [joinChars] using hm'.1
  | cons x evs ih =>
    cases x with
    | start n as a => simp [joinChars, ih]
    | stop n a => simp [joinChars, ih]
    | chars s =>
      simp only [List.cons_append, joinChars, ih]
      by_cases hs : s = []
      · simp [hs]
      · simp only [hs, if_false]
        cases hj : joinChars evs with
        | nil =>
          cases m with
          | nil => rfl
          | cons y m =>
            have hy := hm y (by simp)
            cases y with
            | stop => rfl
            | start => cases hy
            | chars => cases hy
        | cons y r => cases y <;> rfl

/-- Two event lists in a row, when no text meets text. -/
theorem joinChars_append (a b : List Event) (h : ∀ s r, joinChars b ≠ Event.chars s :: r) :
    joinChars (a ++ b) = joinChars a ++ joinChars b := by
  induction a with
  | nil => rfl
  | cons x a ih =>
    cases x with
    | start n as c => simp [joinChars, ih]
    | stop n c => simp [joinChars, ih]
    | chars s =>
      simp only [List.cons_append, joinChars, ih]
      by_cases hs : s = []
      · simp [hs]
      · simp only [hs, if_false]
        cases hj : joinChars a with
        | nil =>
          cases hb : joinChars b with
          | nil => rfl
          | cons y r =>
            cases y with
            | stop => rfl
            | start => rfl
            | chars t => exact absurd hb (h t r)
        | cons y r => cases y <;> rfl

theorem eventsList_consText' (s : Str) (hs : s ≠ []) (ns : List Node) (anc) :
    Node.eventsList anc (consText s ns) = (match Node.eventsList anc ns with
      | .chars t :: r => .chars (s ++ t) :: r
      | r => .chars s :: r) := by
  simp only [consText, hs, if_false]
  cases ns with
  | nil => rfl
  | cons x r =>
    cases x with
    | elem n as cs => simp [Node.eventsList, Node.events]
    | text t => simp [Node.eventsList, Node.events]

/-- The events of the normal form are the joined events, whatever follows. -/
theorem joinChars_events :
    (∀ e : Node, e.isText = false → ∀ anc k, joinChars (e.events anc ++ k) = e.norm.events anc ++ joinChars k) ∧
    (∀ es : List Node, ∀ anc, joinChars (Node.eventsList anc es) = Node.eventsList anc (Node.normList es)) := by
  apply Node.induct
  case elem =>
    intro n as cs ih _ anc k
    have h : ∀ s r, joinChars (Event.stop n anc :: k) ≠ Event.chars s :: r := by intro s r; simp [joinChars]
    have := joinChars_append (Node.eventsList (anc ++ [n]) cs) (Event.stop n anc :: k) h
    simp only [Node.events, Node.norm, List.cons_append, List.append_assoc, joinChars, List.nil_append,
      List.cons.injEq, true_and]
    rw [this, ih]
    simp [joinChars]
  case text => intro s h; cases h
  case nil => intro anc; rfl
  case cons =>
    intro x r ih1 ih2 anc
    cases x with
    | elem n as cs => rw [Node.eventsList, ih1 rfl, ih2, Node.normList, Node.eventsList]
    | text s =>
      rw [Node.eventsList, Node.normList]
      simp only [Node.events, List.singleton_append, joinChars, ih2]
      by_cases hs : s = []
      · simp [hs, consText]
      · rw [if_neg hs, eventsList_consText' s hs]
        rfl

/-- Joining text in the events of a tree gives the events of the normal form. -/
theorem described_join {evs : List Event} {t : Option Node} (h : Described evs t) :
    Described (joinChars evs) (t.map Node.norm) := by
  cases t with
  | none => simp only [Described] at h; subst h; rfl
  | some t =>
    obtain ⟨h1, h2, m, h3, h4⟩ := h
    have hj := joinChars_events.1 t h1 [] []
    simp only [List.append_nil, joinChars] at hj
    rw [← h4, joinChars_append_stops evs m h3] at hj
    refine ⟨(by cases t with | elem => rfl | text => cases h1), ?_, m, h3, hj⟩
    cases t with
    | text => cases h1
    | elem n as cs =>
      cases evs with
      | nil => exact absurd rfl h2
      | cons x evs =>
        simp only [List.cons_append, Node.events, List.cons.injEq] at h4
        rw [h4.1]; simp [joinChars]

/-- C44: two ways of cutting the same character data into callbacks (the callbacks are equal when
adjacent texts are joined) give trees that are equal up to merging text, hence have the same
serialisation and string value. -/
theorem C44_chunking_irrelevant {cbs1 cbs2 : List XCall} {evs1 evs2 : List Event}
    (h1 : Reports cbs1 evs1) (h2 : Reports cbs2 evs2) (hw1 : WellNested evs1) (hw2 : WellNested evs2)
    (hj : joinChars evs1 = joinChars evs2) :
    ∃ t1 t2 : Option Node,
      (∀ b x r b', b.root = none → b.parent = none → XTreeParse b cbs1 x r b' → IsTree b'.heap b'.root t1) ∧
      (∀ b x r b', b.root = none → b.parent = none → XTreeParse b cbs2 x r b' → IsTree b'.heap b'.root t2) ∧
      t1.map Node.norm = t2.map Node.norm ∧ t1.map Node.encode = t2.map Node.encode ∧
      t1.map Node.xmlValue = t2.map Node.xmlValue := by
  obtain ⟨t1, d1, a1⟩ := events_tree evs1 hw1
  obtain ⟨t2, d2, a2⟩ := events_tree evs2 hw2
  have hn : t1.map Node.norm = t2.map Node.norm := by
    have e1 := described_join d1
    have e2 := described_join d2
    rw [hj] at e1
    exact described_unique e1 e2
  refine ⟨t1, t2, ?_, ?_, hn, ?_, ?_⟩
  · intro b x r b' hr hp hx
    have := hx.1
    rw [C43_local_names h1 hw1] at this
    exact a1 { b with newElement := none, newText := none } _ ⟨hr, hp⟩ this
  · intro b x r b' hr hp hx
    have := hx.1
    rw [C43_local_names h2 hw2] at this
    exact a2 { b with newElement := none, newText := none } _ ⟨hr, hp⟩ this
  · cases t1 with
    | none => cases t2 with
      | none => rfl
      | some t2 => cases hn
    | some t1 => cases t2 with
      | none => cases hn
      | some t2 =>
        simp only [Option.map_some, Option.some.injEq] at hn ⊢
        rw [Node.encode, Node.encode, ← encode_norm.1 t1 0 d1.1, ← encode_norm.1 t2 0 d2.1, hn]
  · cases t1 with
    | none => cases t2 with
      | none => rfl
      | some t2 => cases hn
    | some t1 => cases t2 with
      | none => cases hn
      | some t2 =>
        simp only [Option.map_some, Option.some.injEq] at hn ⊢
        exact C18_string_value_ignores_splitting t1 t2 hn


/-- The text of an element in one callback or in two. -/
example : ∃ cbs1 cbs2 evs1 evs2, cbs1 ≠ cbs2 ∧ Reports cbs1 evs1 ∧ Reports cbs2 evs2 ∧ WellNested evs1 ∧
    WellNested evs2 ∧ joinChars evs1 = joinChars evs2 := by
  have q : QName ['a'] ['a'] := ⟨by decide, by unfold NoSpace; decide, .inl rfl⟩
  exact ⟨_, _, _, _, by decide, .start q .nil (.chars (s := ['x', 'y']) (.stop q .nil)),
    .start q .nil (.chars (s := ['x']) (.chars (s := []) (.chars (s := ['y']) (.stop q .nil)))),
    (by decide : WellNested [.start ['a'] (dictOf []) [], .chars ['x', 'y'], .stop ['a'] []]),
    (by decide : WellNested [.start ['a'] (dictOf []) [], .chars ['x'], .chars [], .chars ['y'], .stop ['a'] []]),
    by decide⟩

/-! ### C22 -/

/-- What later parses keep of an earlier state `h0`, `n0` objects old. -/
structure Keeps (h0 : Heap) (r : Id) (b : Builder) : Prop where
  root : b.root = some r
  next : h0.next ≤ b.heap.next
  same : ∀ k, Reachable h0 [r] k → b.heap.obj k = h0.obj k
  par : ∀ p, b.parent = some p → h0.next ≤ p
  new : ∀ p, b.newElement = some p → h0.next ≤ p
  txt : ∀ p, b.newText = some p → h0.next ≤ p
  links : ∀ k o p, h0.next ≤ k → b.heap.obj k = some o → o.link = some p → h0.next ≤ p

theorem keeps_collect {h0 : Heap} {r : Id} {b : Builder} {h : Heap}
    (hk : Keeps h0 r b) (hc : Collected b.roots b.heap h) : Keeps h0 r { b with heap := h } := by
  have hof : ∀ {k o}, h.obj k = some o → b.heap.obj k = some o := by
    intro k o ho
    rcases hc.2 k with h1 | h1
    · rw [← h1, ho]
    · rw [h1.1] at ho; cases ho
  have hre : ∀ k, Reachable h0 [r] k → Reachable b.heap b.roots k := by
    intro k hr
    induction hr with
    | root hm => rw [List.mem_singleton.1 hm]; exact mem_roots_root hk.root
    | child hr hm ih =>
      refine .child ih ?_
      simp only [Heap.children, hk.same _ hr]; exact hm
  exact {
    root := hk.root
    next := by show h0.next ≤ h.next; rw [hc.1]; exact hk.next
    same := fun k hr => by
      show h.obj k = _
      rw [collected_same (disturbed_collected hc) (hre k hr), hk.same k hr]
    par := hk.par, new := hk.new, txt := hk.txt
    links := fun k o p h1 h2 h3 => hk.links k o p h1 (hof h2) h3 }

theorem keeps_alloc {h0 : Heap} {r : Id} (h0r : ∀ k, Reachable h0 [r] k → k < h0.next) {b : Builder}
    (hk : Keeps h0 r b) (o : Obj) (ho : ∀ p, o.link = some p → h0.next ≤ p) :
    Keeps h0 r { b with heap := b.heap.alloc o } := {
    root := hk.root
    next := Nat.le_succ_of_le hk.next
    same := fun k hr => by
      have : k ≠ b.heap.next := Nat.ne_of_lt (Nat.lt_of_lt_of_le (h0r k hr) hk.next)
      show (b.heap.alloc o).obj k = _
      rw [alloc_obj, if_neg this, hk.same k hr]
    par := hk.par, new := hk.new, txt := hk.txt
    links := fun k o' p h1 h2 h3 => by
      replace h2 : (b.heap.alloc o).obj k = some o' := h2
      rw [alloc_obj] at h2
      by_cases hn : k = b.heap.next
      · rw [if_pos hn] at h2; cases h2; exact ho p h3
      · rw [if_neg hn] at h2; exact hk.links k o' p h1 h2 h3 }

theorem keeps_append {h0 : Heap} {r : Id} (h0r : ∀ k, Reachable h0 [r] k → k < h0.next) {b : Builder}
    (hk : Keeps h0 r b) {x : Id} (hx : h0.next ≤ x) (c : Id) :
    Keeps h0 r { b with heap := b.heap.append x c } := {
    root := hk.root
    next := by show h0.next ≤ (b.heap.append x c).next; rw [append_next]; exact hk.next
    same := fun k hr => by
      have : k ≠ x := Nat.ne_of_lt (Nat.lt_of_lt_of_le (h0r k hr) hx)
      show (b.heap.append x c).obj k = _
      rw [append_obj_ne _ this, hk.same k hr]
    par := hk.par, new := hk.new, txt := hk.txt
    links := fun k o p h1 h2 h3 => by
      replace h2 : (b.heap.append x c).obj k = some o := h2
      by_cases hn : k = x
      · subst hn
        cases hb : b.heap.obj k with
        | none => simp [Heap.append, hb] at h2
        | some ob =>
          cases ob with
          | text s q => simp only [Heap.append, hb] at h2; cases h2; exact hk.links k _ p h1 hb h3
          | elem n as cs q =>
            simp only [Heap.append, hb, set_obj, if_true, Option.some.injEq] at h2
            subst h2
            exact hk.links k (.elem n as cs q) p h1 hb h3
      · rw [append_obj_ne _ hn] at h2; exact hk.links k o p h1 h2 h3 }

theorem keeps_op {h0 : Heap} {r : Id} (h0r : ∀ k, Reachable h0 [r] k → k < h0.next) {b : Builder}
    (hk : Keeps h0 r b) (o : Op) : Keeps h0 r (o.exec b) := by
  cases o with
  | makeElement n as =>
    have := keeps_alloc h0r hk (.elem n as [] b.parent) (fun p hp => hk.par p hp)
    refine { this with new := fun p hp => ?_ }
    replace hp : some b.heap.next = some p := hp
    cases hp; exact hk.next
  | makeText s =>
    have := keeps_alloc h0r hk (.text s b.parent) (fun p hp => hk.par p hp)
    refine { this with txt := fun p hp => ?_ }
    replace hp : some b.heap.next = some p := hp
    cases hp; exact hk.next
  | linkElement =>
    simp only [Op.exec]
    cases hp : b.parent with
    | none => exact hk
    | some p =>
      cases hn : b.newElement with
      | none => exact hk
      | some c => have := keeps_append h0r hk (hk.par p hp) c; simpa [hp, hn] using this
  | linkText =>
    simp only [Op.exec]
    cases hp : b.parent with
    | none => exact hk
    | some p =>
      cases hn : b.newText with
      | none => exact hk
      | some c => have := keeps_append h0r hk (hk.par p hp) c; simpa [hp, hn] using this
  | moveDown => exact { hk with par := hk.new }
  | setRoot =>
    simp only [Op.exec, hk.root, reduceCtorEq, if_false]
    exact hk
  | moveUp =>
    simp only [Op.exec]
    cases hp : b.parent with
    | none => exact hk
    | some p =>
      refine { hk with par := ?_ }
      intro q hq
      simp only [Heap.xmlParent] at hq
      cases ho : b.heap.obj p with
      | none => rw [ho] at hq; simp [Heap.deref] at hq
      | some o =>
        rw [ho] at hq
        simp only [Option.bind_some] at hq
        cases hl : o.link with
        | none => rw [hl] at hq; simp [Heap.deref] at hq
        | some q' =>
          rw [hl] at hq
          simp only [Heap.deref] at hq
          by_cases hs : (b.heap.obj q').isSome
          · rw [if_pos hs] at hq; cases hq; exact hk.links p o _ (hk.par p hp) ho hl
          · rw [if_neg hs] at hq; cases hq

theorem keeps_runs {h0 : Heap} {r : Id} (h0r : ∀ k, Reachable h0 [r] k → k < h0.next) {ops : List Op}
    {b b' : Builder} (hr : Runs ops b b') : Keeps h0 r b → Keeps h0 r b' := by
  induction hr with
  | done => exact id
  | collect hc _ ih => exact fun hk => ih (keeps_collect hk hc)
  | op _ ih => exact fun hk => ih (keeps_op h0r hk _)

theorem keeps_parses {h0 : Heap} {r : Id} (h0r : ∀ k, Reachable h0 [r] k → k < h0.next) {b b' : Builder}
    (hp : XParses b b') (hk : Keeps h0 r { b with newElement := none, newText := none }) :
    Keeps h0 r { b' with newElement := none, newText := none } := by
  induction hp with
  | refl => exact hk
  | tail _ hx ih =>
    have := keeps_runs h0r hx.1 ih
    exact { this with new := by simp, txt := by simp }

/-- A tree none of whose objects change is the same tree. -/
theorem rep_same {h h' : Heap} {r : Id} (hs : ∀ k, Reachable h [r] k → h'.obj k = h.obj k) :
    (∀ (t : Node) (i : Id) (p : Option Id), Reachable h [r] i → h'.xmlParent i = p → Rep h p i t → Rep h' p i t) ∧
    (∀ (ts : List Node) (par : Id) (cs : List Id), Reachable h [r] par → (∀ c ∈ cs, Reachable h [r] c) →
      (h.obj par).isSome → RepList h par cs ts → RepList h' par cs ts) := by
  apply Node.induct
  case elem =>
    intro n as ts ih i p hi hp hr
    obtain ⟨cs, q, h1, h2, h3, h4⟩ := hr
    refine ⟨cs, q, by rw [hs i hi, h1], hp, h3, ih i cs hi ?_ (by simp [h1]) h4⟩
    intro c hc
    exact .child hi (by simpa [Heap.children, h1, Obj.kids] using hc)
  case text =>
    intro s i p hi hp hr
    obtain ⟨q, h1, h2⟩ := hr
    exact ⟨q, by rw [hs i hi, h1], hp⟩
  case nil => intro par cs _ _ _ h; exact h
  case cons =>
    intro t ts ih1 ih2 par cs hpar hcs hsome hr
    obtain ⟨c, rr, rfl, h1, h2⟩ := hr
    refine ⟨c, rr, rfl, ?_, ih2 par rr hpar (fun d hd => hcs d (by simp [hd])) hsome h2⟩
    have hc := hcs c (by simp)
    refine ih1 c (some par) hc ?_ h1
    have hx : h.xmlParent c = some par := by
      cases t with
      | elem n as us => obtain ⟨_, _, _, h2, _⟩ := h1; exact h2
      | text s => obtain ⟨_, _, h2⟩ := h1; exact h2
    simp only [Heap.xmlParent] at hx ⊢
    rw [hs c hc]
    cases hl : (h.obj c).bind Obj.link with
    | none => rw [hl] at hx; simp [Heap.deref] at hx
    | some q =>
      rw [hl] at hx
      simp only [Heap.deref] at hx ⊢
      by_cases hq : (h.obj q).isSome
      · rw [if_pos hq] at hx; cases hx
        rw [hs par hpar, if_pos hq]
      · rw [if_neg hq] at hx; cases hx

/-- The builder's memory stays well formed. -/
theorem wellFormed_runs {ops : List Op} {b b' : Builder} (hr : Runs ops b b') :
    WellFormed b.heap → (∀ p, b.parent = some p → p < b.heap.next) →
    (∀ p, b.newElement = some p → p < b.heap.next) →
    WellFormed b'.heap ∧ (∀ p, b'.parent = some p → p < b'.heap.next) := by
  have alloc : ∀ (h : Heap) (o : Obj), WellFormed h → (∀ p, o.link = some p → p < h.next) → WellFormed (h.alloc o) := by
    intro h o hw ho i o' hi
    rw [alloc_obj] at hi
    by_cases hn : i = h.next
    · rw [if_pos hn] at hi; cases hi
      exact ⟨hn ▸ Nat.lt_succ_self _, fun p hp => Nat.lt_succ_of_lt (ho p hp)⟩
    · rw [if_neg hn] at hi
      exact ⟨Nat.lt_succ_of_lt (hw i o' hi).1, fun p hp => Nat.lt_succ_of_lt ((hw i o' hi).2 p hp)⟩
  have app : ∀ (h : Heap) (x c : Id), WellFormed h → WellFormed (h.append x c) := by
    intro h x c hw i o hi
    rw [append_next]
    by_cases hn : i = x
    · subst hn
      cases hb : h.obj i with
      | none => simp [Heap.append, hb] at hi
      | some ob =>
        cases ob with
        | text s q => simp only [Heap.append, hb] at hi; cases hi; exact hw i _ hb
        | elem n as cs q =>
          simp only [Heap.append, hb, set_obj, if_true, Option.some.injEq] at hi
          subst hi
          exact hw i (.elem n as cs q) hb
    · rw [append_obj_ne _ hn] at hi; exact hw i o hi
  induction hr with
  | done => exact fun h1 h2 _ => ⟨h1, h2⟩
  | @collect ops b h b' hc _ ih =>
    intro h1 h2 h3
    have hn : h.next = b.heap.next := hc.1
    refine ih ?_ (fun p hp => ?_) (fun p hp => ?_)
    · intro i o hi
      rcases hc.2 i with h4 | h4
      · replace hi : h.obj i = some o := hi
        rw [h4] at hi
        show i < h.next ∧ ∀ p, o.link = some p → p < h.next
        rw [hn]; exact h1 i o hi
      · replace hi : h.obj i = some o := hi
        rw [h4.1] at hi; cases hi
    · show p < h.next; rw [hn]; exact h2 p hp
    · show p < h.next; rw [hn]; exact h3 p hp
  | @op o ops b b' _ ih =>
    intro h1 h2 h3
    apply ih
    · cases o with
      | makeElement n as => exact alloc _ _ h1 (fun p hp => h2 p hp)
      | makeText s => exact alloc _ _ h1 (fun p hp => h2 p hp)
      | linkElement =>
        simp only [Op.exec]
        cases b.parent with
        | none => exact h1
        | some p => cases b.newElement with
          | none => exact h1
          | some c => exact app _ _ _ h1
      | linkText =>
        simp only [Op.exec]
        cases b.parent with
        | none => exact h1
        | some p => cases b.newText with
          | none => exact h1
          | some c => exact app _ _ _ h1
      | moveDown => exact h1
      | setRoot => simp only [Op.exec]; split <;> exact h1
      | moveUp => simp only [Op.exec]; cases b.parent <;> exact h1
    · intro p hp
      cases o with
      | makeElement n as => exact Nat.lt_succ_of_lt (h2 p hp)
      | makeText s => exact Nat.lt_succ_of_lt (h2 p hp)
      | linkElement =>
        simp only [Op.exec] at hp ⊢
        cases hb : b.parent with
        | none => rw [hb] at hp; simp [hb] at hp
        | some q => cases hb' : b.newElement with
          | none => simp only [hb, hb'] at hp ⊢; exact h2 p (by rw [hb]; exact hp)
          | some c =>
            simp only [hb, hb'] at hp ⊢
            rw [append_next]; exact h2 p (by rw [hb]; exact hp)
      | linkText =>
        simp only [Op.exec] at hp ⊢
        cases hb : b.parent with
        | none => rw [hb] at hp; simp [hb] at hp
        | some q => cases hb' : b.newText with
          | none => simp only [hb, hb'] at hp ⊢; exact h2 p (by rw [hb]; exact hp)
          | some c =>
            simp only [hb, hb'] at hp ⊢
            rw [append_next]; exact h2 p (by rw [hb]; exact hp)
      | moveDown => exact h3 p hp
      | setRoot =>
        simp only [Op.exec] at hp ⊢
        split at hp <;> (split <;> exact h2 p hp)
      | moveUp =>
        simp only [Op.exec] at hp ⊢
        cases hb : b.parent with
        | none => rw [hb] at hp; simp [hb] at hp
        | some q =>
          simp only [hb] at hp ⊢
          simp only [Heap.xmlParent] at hp
          cases ho : b.heap.obj q with
          | none => rw [ho] at hp; simp [Heap.deref] at hp
          | some oo =>
            rw [ho] at hp
            simp only [Option.bind_some] at hp
            cases hl : oo.link with
            | none => rw [hl] at hp; simp [Heap.deref] at hp
            | some q' =>
              rw [hl] at hp
              simp only [Heap.deref] at hp
              by_cases hs : (b.heap.obj q').isSome
              · rw [if_pos hs] at hp; cases hp; exact (h1 q oo ho).2 _ hl
              · rw [if_neg hs] at hp; cases hp
    · intro p hp
      cases o with
      | makeElement n as =>
        replace hp : some b.heap.next = some p := hp
        cases hp; exact Nat.lt_succ_self _
      | makeText s => exact Nat.lt_succ_of_lt (h3 p hp)
      | linkElement =>
        simp only [Op.exec] at hp ⊢
        cases hb : b.parent with
        | none => simp only [hb] at hp ⊢; exact h3 p hp
        | some q => cases hb' : b.newElement with
          | none => simp only [hb, hb'] at hp ⊢; cases hp
          | some c =>
            simp only [hb, hb'] at hp ⊢
            rw [append_next]; exact h3 p (by rw [hb']; exact hp)
      | linkText =>
        simp only [Op.exec] at hp ⊢
        cases hb : b.parent with
        | none => simp only [hb] at hp ⊢; exact h3 p hp
        | some q => cases hb' : b.newText with
          | none => simp only [hb, hb'] at hp ⊢; exact h3 p hp
          | some c =>
            simp only [hb, hb'] at hp ⊢
            rw [append_next]; exact h3 p hp
      | moveDown => exact h3 p hp
      | setRoot =>
        simp only [Op.exec] at hp ⊢
        split at hp <;> (split <;> exact h3 p hp)
      | moveUp =>
        simp only [Op.exec] at hp ⊢
        cases hb : b.parent <;> (simp only [hb] at hp ⊢; exact h3 p hp)

/-- The events of a node inside an element, and of a whole document. -/
theorem track_events :
    (∀ (x : Node) (o : List Str), o ≠ [] → (x.events o.reverse).foldl Track.next (.inside o) = .inside o) ∧
    (∀ (xs : List Node) (o : List Str), o ≠ [] →
      (Node.eventsList o.reverse xs).foldl Track.next (.inside o) = .inside o) := by
  apply Node.induct
  case elem =>
    intro n as cs ih o ho
    have := ih (n :: o) (by simp)
    rw [List.reverse_cons] at this
    simp [Node.events, Track.next, this, ho]
  case text => intro s o ho; simp [Node.events, Track.next]
  case nil => intro o _; rfl
  case cons =>
    intro x xs h1 h2 o ho
    rw [Node.eventsList, List.foldl_append, h1 o ho, h2 o ho]

theorem track_doc (n as ts) : track (Node.events [] (.elem n as ts)) = .after := by
  have := track_events.2 ts [n] (by simp)
  simp only [List.reverse_singleton] at this
  simp [track, Node.events, Track.next, this]

/-- Everything below a tree is a tree. -/
theorem reachable_rep {h : Heap} {r : Id} {t : Node} (hr : Rep h none r t) {k : Id} (hk : Reachable h [r] k) :
    ∃ p u, Rep h p k u := by
  induction hk with
  | root hm => rw [List.mem_singleton.1 hm]; exact ⟨_, _, hr⟩
  | @child i c _ hm ih =>
    obtain ⟨p, u, hu⟩ := ih
    cases u with
    | text s => obtain ⟨q, h1, _⟩ := hu; simp [Heap.children, h1, Obj.kids] at hm
    | elem n as ts =>
      obtain ⟨cs, q, h1, _, _, h4⟩ := hu
      have hc : c ∈ cs := by simpa [Heap.children, h1, Obj.kids] using hm
      have : ∀ (ts : List Node) (cs : List Id), RepList h i cs ts → c ∈ cs → ∃ u, Rep h (some i) c u := by
        intro ts
        induction ts with
        | nil => intro cs h hm; simp only [RepList] at h; subst h; cases hm
        | cons t ts ih =>
          intro cs h hm
          obtain ⟨d, rr, rfl, h1, h2⟩ := h
          rcases List.mem_cons.1 hm with rfl | hm
          · exact ⟨t, h1⟩
          · exact ih rr h2 hm
      exact ⟨_, this ts cs h4 hc⟩

theorem rep_alive {h : Heap} {p i t} (hr : Rep h p i t) : ∃ o, h.obj i = some o := by
  cases t with
  | elem n as ts => obtain ⟨cs, q, h1, _⟩ := hr; exact ⟨_, h1⟩
  | text s => obtain ⟨q, h1, _⟩ := hr; exact ⟨_, h1⟩

theorem root_runs {ops : List Op} {b b' : Builder} (hr : Runs ops b b') {i : Id} (h : b.root = some i) :
    b'.root = some i := by
  induction hr with
  | done => exact h
  | collect _ _ ih => exact ih h
  | @op o ops b b' _ ih =>
    apply ih
    cases o with
    | makeElement | makeText | moveDown => exact h
    | linkElement => simp only [Op.exec]; split <;> exact h
    | linkText => simp only [Op.exec]; split <;> exact h
    | setRoot => simp only [Op.exec, h, reduceCtorEq, if_false]
    | moveUp => simp only [Op.exec]; split <;> exact h

/-- C22: once a builder of trees from full XML has a root, every later parse that returns anything returns
that same root, whatever documents are parsed in between and however those parses end. -/
theorem C22_later_parses_return_first_root {b0 b1 b2 b3 : Builder} {cbs0 cbs : List XCall} {x0 x : Bool}
    {r : XRes} {i : Id} (h0 : XTreeParse b0 cbs0 x0 (.returned (some i)) b1) (hs : XParses b1 b2)
    (h : XTreeParse b2 cbs x r b3) : r = .raised ∨ r = .returned (some i) := by
  have h1 : b1.root = some i := by
    have := h0.2
    split at this
    · cases this
    · simpa using this.symm
  have h2 : b2.root = some i := by
    clear h
    induction hs with
    | refl => exact h1
    | tail _ hx ih => exact root_runs hx.1 ih
  have h3 := root_runs h.1 h2
  rw [h.2, h3]
  split <;> simp

/-- C22: a parse of callbacks for ordinary names raises exactly when expat reports an error, and otherwise
returns the builder's root. -/
theorem C22_parse_raises_iff_expat_does {b b' : Builder} {cbs : List XCall} {evs : List Event} {x : Bool} {r : XRes}
    (hr : Reports cbs evs) (hw : WellNested evs) (h : XTreeParse b cbs x r b') :
    (r = .raised ↔ x = true) ∧ (r ≠ .raised → r = .returned b'.root) := by
  have := h.2
  rw [C43_local_names hr hw] at this
  cases x <;> simp_all

/-- C22: after a complete first document (its events are those of the element `t`), parsed by a new
builder, the root and the whole tree below it are the same after any number of later parses. -/
theorem C22_first_tree_survives {h : Heap} (hh : WellFormed h) {cbs : List XCall} {t : Node}
    (ht : t.isText = false) (hr : Reports cbs (t.events [])) {x : Bool} {r : XRes} {b1 b2 : Builder}
    (h1 : XTreeParse (Builder.new h) cbs x r b1) (h2 : XParses b1 b2) :
    ∃ i, b1.root = some i ∧ b2.root = some i ∧ Rep b1.heap none i t ∧ Rep b2.heap none i t := by
  cases t with
  | text s => cases ht
  | elem n as ts =>
    have htr : track (Node.events [] (.elem n as ts)) = .after := track_doc n as ts
    have hw : WellNested (Node.events [] (.elem n as ts)) := by simp [WellNested, htr]
    have hrun := h1.1
    rw [C43_local_names hr hw] at hrun
    have hat : At ([] ++ Node.events [] (.elem n as ts)) b1 :=
      do_events harmless_collected _ [] hw (show At [] _ from ⟨rfl, rfl⟩) hrun
    rw [List.nil_append] at hat
    generalize hevs : Node.events [] (.elem n as ts) = evs at hat htr
    simp only [At, htr] at hat
    subst hevs
    obtain ⟨n', as', ts', he, i, a1, a2, a3⟩ := hat
    have := events_injective (e := .elem n as ts) (e' := .elem n' as' ts') rfl rfl he
    rw [← this] at a3
    have hrep := repTop_rep a3
    have hwf := wellFormed_runs hrun hh (by simp [Builder.new]) (by simp [Builder.new])
    have hlt : ∀ k, Reachable b1.heap [i] k → k < b1.heap.next := by
      intro k hk
      obtain ⟨p, u, hu⟩ := reachable_rep hrep hk
      obtain ⟨o, ho⟩ := rep_alive hu
      exact (hwf.1 k o ho).1
    have hk0 : Keeps b1.heap i { b1 with newElement := none, newText := none } := {
      root := a1, next := Nat.le_refl _, same := fun _ _ => rfl
      par := fun p hp => by
        replace hp : b1.parent = some p := hp
        rw [a2] at hp; cases hp
      new := by simp, txt := by simp
      links := fun k o p h3 h4 h5 => absurd (hwf.1 k o h4).1 (Nat.not_lt.2 h3) }
    have hk := keeps_parses hlt h2 hk0
    refine ⟨i, a1, hk.root, hrep, ?_⟩
    refine (rep_same hk.same).1 _ i none (.root (by simp)) ?_ hrep
    obtain ⟨cs, _, ho, _⟩ := a3
    have : b2.heap.obj i = b1.heap.obj i := hk.same i (.root (by simp))
    simp [Heap.xmlParent, this, ho, Obj.link, Heap.deref]

/-- A new builder in an empty memory parses `<a>x</a>`, then `<b/>`: it still returns `a`. -/
example : ∃ b1 b2, XTreeParse (Builder.new ⟨0, fun _ => none⟩) [.start ['a'] [], .chars ['x'], .stop ['a']] false
      (.returned (some 0)) b1 ∧
    XTreeParse b1 [.start ['b'] [], .stop ['b']] false (.returned (some 0)) b2 ∧
    (∃ o, b2.heap.obj 2 = some (.elem ['b'] [] o none)) := by
  refine ⟨_, _, ⟨.op (.op (.op (.op (.op (.op (.op .done)))))), rfl⟩, ⟨.op (.op (.op (.op (.op .done)))), rfl⟩, _, rfl⟩

end Amara
