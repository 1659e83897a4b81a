import Verif.Lemmas.EditParse
import Verif.Props.IndentBack
/-
C140: a program that loads, edits and saves documents can be read as a program on values: the trees it holds are what its
calls say, whatever it did before and whenever the collector runs, and the output shows exactly the edits.
-/
namespace Amara

theorem holds_step {h h' : Heap} {F F' : Forest} (hs : EditStep h F h' F') (hF : Holds h F) : Holds h' F' := by
  cases hs with
  | parse hh hd hp =>
    obtain ⟨i, h1, h2⟩ := C20_builder_builds_the_tree hd (parseHolding_parse hp)
    cases h1
    have hk := parse_keeps hF hh hp
    exact holds_put hk.bounded h2 fun d u _ hu => hk.trees d u hu
  | parseOther hh hp => exact parse_keeps hF hh hp
  | newElement n as =>
    have hb := bounded_alloc hF.bounded (.elem n as [] none) (by simp [Obj.link])
    refine holds_put hb ?_ ?_
    · refine rep_elem_iff.2 ⟨[], none, by simp [Heap.newElement, Heap.alloc_obj'], ?_, List.nodup_nil, rfl⟩
      simp [Heap.newElement, Heap.xmlParent, Heap.alloc_obj', Obj.link, Heap.deref]
    · intro d u _ hu
      refine touches_rep (S := fun _ => False) hF.bounded ⟨Nat.le_succ _, fun i hi => ?_, fun k _ hk => ?_⟩ (hF.trees d u hu)
        fun _ _ h => h
      · show ((h.alloc _).obj i).isSome = _
        rw [Heap.alloc_obj', if_neg (Nat.ne_of_lt hi)]
      · show (h.alloc _).obj k = _
        rw [Heap.alloc_obj', if_neg (Nat.ne_of_lt hk)]
  | newText s =>
    have hb := bounded_alloc hF.bounded (.text s none) (by simp [Obj.link])
    refine holds_put hb ?_ ?_
    · refine ⟨none, by simp [Heap.newText, Heap.alloc_obj'], ?_⟩
      simp [Heap.newText, Heap.xmlParent, Heap.alloc_obj', Obj.link, Heap.deref]
    · intro d u _ hu
      refine touches_rep (S := fun _ => False) hF.bounded ⟨Nat.le_succ _, fun i hi => ?_, fun k _ hk => ?_⟩ (hF.trees d u hu)
        fun _ _ h => h
      · show ((h.alloc _).obj i).isSome = _
        rw [Heap.alloc_obj', if_neg (Nat.ne_of_lt hi)]
      · show (h.alloc _).obj k = _
        rw [Heap.alloc_obj', if_neg (Nat.ne_of_lt hk)]
  | insertString hr hl hs hok => exact holds_insertString hF hr hl hs hok
  | insertTree hr hl hd hu hne hok => exact holds_insertTree hF hr hl hd hu hne hok
  | remove hr hl hlc hu hf hok => exact holds_remove hF hr hl hlc hu hf hok
  | attributes f hr hl =>
    refine holds_shell hF hr hl _ (fun n as => (n, f as)) (fun _ _ _ => rfl) (fun _ => rfl) ?_ ?_
    · intro n as cs q ho; simp [Heap.changeAttrs, ho]
    · intro s q ho; simp [Heap.changeAttrs, ho]
  | rename m hr hl =>
    refine holds_shell hF hr hl _ (fun _ as => (m, as)) (fun _ _ _ => rfl) (fun _ => rfl) ?_ ?_
    · intro n as cs q ho; simp [Heap.rename, ho]
    · intro s q ho; simp [Heap.rename, ho]
  | forget d =>
    refine ⟨hF.bounded, fun x u hx => ?_⟩
    simp only [Forest.drop] at hx
    split at hx
    · cases hx
    · exact hF.trees x u hx
  | collect hh hc => exact collect_keeps hF hh hc

theorem holds_empty : Holds Heap.empty (fun _ => none) :=
  ⟨fun i o h => by simp [Heap.empty] at h, fun r t h => by cases h⟩

theorem holds_steps {h0 h : Heap} {F0 F : Forest} (hs : EditSteps h0 F0 h F) (hF : Holds h0 F0) : Holds h F := by
  induction hs with
  | refl => exact hF
  | tail _ hx ih => exact holds_step hx ih

/-- C140: after any program, every tree the program holds is in memory as the calls say it should be: names, attributes,
text, the order of the children, and a parent link from each child to the node above it and none from the top. -/
theorem C140_memory_is_the_forest {h : Heap} {F : Forest} (hs : EditSteps Heap.empty (fun _ => none) h F) {r : Id} {t : Node}
    (hr : F r = some t) : Rep h none r t := (holds_steps hs holds_empty).trees r t hr

/-- C140: two trees have no object in common, so no call on one can change the other. -/
theorem C140_trees_are_apart {h : Heap} {F : Forest} (hs : EditSteps Heap.empty (fun _ => none) h F) {r d : Id} {t u : Node}
    (hr : F r = some t) (hd : F d = some u) (hne : r ≠ d) (i : Id) : ¬ (Reachable h [r] i ∧ Reachable h [d] i) :=
  fun ⟨h1, h2⟩ => hne (same_top (C140_memory_is_the_forest hs hr) (C140_memory_is_the_forest hs hd) h1 h2)

theorem runs_total (D : List Id → Heap → Heap → Prop) (ops : List Op) : ∀ b, ∃ b', RunsWith D ops b b' := by
  induction ops with
  | nil => exact fun b => ⟨b, .done⟩
  | cons o ops ih => intro b; obtain ⟨b', h⟩ := ih (o.exec b); exact ⟨b', .op h⟩

/-- C140: the calls do not fail.  At every position of every tree there is an object; if it is an element then every
string and every other tree can be inserted into it, at any index, and every child of it can be removed. -/
theorem C140_calls_succeed {h : Heap} {F : Forest} (hs : EditSteps Heap.empty (fun _ => none) h F) {r : Id} {t s : Node}
    (hr : F r = some t) {p : Path} (hp : t.at? p = some s) :
    ∃ e, h.locate r p = some e ∧ Rep h (h.xmlParent e) e s ∧
      (s.isText = false →
        (∀ x i, ∃ h', h.xmlInsert e (.str x) i = .ok h') ∧
        (∀ d u i, F d = some u → ∃ h', h.xmlInsert e (.node d) i = .ok h') ∧
        (∀ k u, t.at? (p ++ [k]) = some u → ∃ c h', h.locate r (p ++ [k]) = some c ∧ h.xmlRemove e c = .ok h')) := by
  have hrr := C140_memory_is_the_forest hs hr
  obtain ⟨e, he⟩ := rep_locate p hrr hp
  obtain ⟨s', h1, h2, h3⟩ := locate_rep p hrr he
  rw [hp] at h1
  cases h1
  refine ⟨e, he, h2, fun ht => ?_⟩
  cases s with
  | text x => cases ht
  | elem n as ts =>
  obtain ⟨cs, q, ho, _, _, hl⟩ := rep_elem_iff.1 h2
  have hel : h.isElem e := ⟨n, as, cs, q, ho⟩
  refine ⟨fun x i => insert_total hel (fun k hk => by cases hk) i, fun d u i hd => ?_, fun k u hu => ?_⟩
  · refine insert_total hel (fun k hk => ?_) i
    cases hk
    obtain ⟨o, ho'⟩ := rep_alive (C140_memory_is_the_forest hs hd)
    rw [ho']; rfl
  · obtain ⟨c, hc⟩ := rep_locate _ hrr hu
    have hk := locate_snoc p he hc
    have hany : (h.children e).any (h.pyEq c) = true :=
      List.any_eq_true.2 ⟨c, List.mem_of_getElem? hk, by simp [Heap.pyEq]⟩
    have : ∃ h', h.xmlRemove e c = .ok h' := by
      unfold Heap.xmlRemove
      rw [ho]
      simp only [hany, if_true]
      exact ⟨_, rfl⟩
    obtain ⟨h', hok⟩ := this
    exact ⟨c, h', hc, hok⟩

/-- C140: a document can always be parsed, by any builder and whatever is held, and what comes back is a new tree. -/
theorem C140_parsing_succeeds {b : Builder} {F : Forest} (hs : EditSteps Heap.empty (fun _ => none) b.heap F) {t : Node} {doc : Str}
    (hd : IsDoc t doc) (held : List Id) :
    (∃ r b', ParseHolding held b doc r b') ∧
    ∀ r b', ParseHolding held b doc r b' → ∃ i, r = .returned (some i) ∧ F i = none ∧ Rep b'.heap none i t := by
  constructor
  · obtain ⟨b', h⟩ := runs_total (fun roots h h' => Collected (roots ++ held) h h') ((drive doc).1.flatMap Event.ops) b.reset
    exact ⟨_, b', h, rfl⟩
  · intro r b' hp
    obtain ⟨i, rfl, h2⟩ := C20_builder_builds_the_tree hd (parseHolding_parse hp)
    refine ⟨i, rfl, ?_, h2⟩
    have hF := holds_steps hs holds_empty
    have hi := parse_fresh hF.bounded hp
    cases hu : F i with
    | none => rfl
    | some u =>
      obtain ⟨o, ho⟩ := rep_alive (hF.trees i u hu)
      exact absurd (hF.bounded i o ho).1 (Nat.not_lt.2 hi)

/-! ### what a change is -/

/-- C140: after a change the node at that position is the changed one. -/
theorem C140_changed_here (f : Node → Node) : ∀ (p : Path) {t s : Node}, t.at? p = some s → (t.change f p).at? p = some (f s) := by
  intro p
  induction p with
  | nil => intro t s h; cases h; rfl
  | cons k p ih =>
    intro t s h
    cases t with
    | text x => cases h
    | elem n as ts =>
      simp only [Node.at?, Node.change, Node.xmlChildren] at h ⊢
      rw [List.getElem?_modify]
      cases hk : ts[k]? with
      | none => rw [hk] at h; cases h
      | some c => rw [hk] at h; simpa using ih h

/-- C140: nodes that are neither above nor below stay as they are. -/
theorem C140_same_elsewhere (f : Node → Node) : ∀ (p q : Path) (t : Node), ¬ p <+: q → ¬ q <+: p →
    (t.change f p).at? q = t.at? q := by
  intro p
  induction p with
  | nil => intro q t h; exact absurd (List.nil_prefix) h
  | cons k p ih =>
    intro q t h1 h2
    cases q with
    | nil => exact absurd (List.nil_prefix) h2
    | cons j q =>
      cases t with
      | text x => rfl
      | elem n as ts =>
        simp only [Node.at?, Node.change, Node.xmlChildren]
        rw [List.getElem?_modify]
        by_cases hj : k = j
        · subst hj
          cases hk : ts[k]? with
          | none => rfl
          | some c =>
            simpa using
              ih q c (fun h => h1 (List.cons_prefix_cons.2 ⟨rfl, h⟩)) (fun h => h2 (List.cons_prefix_cons.2 ⟨rfl, h⟩))
        · cases hk : ts[j]? with
          | none => rfl
          | some c => simp [hj]

/-- C140: the nodes above keep their name, their attributes and the number of their children. -/
theorem C140_above (f : Node → Node) : ∀ (p q : Path) (t : Node), q <+: p → q ≠ p → ∀ n as ts, t.at? q = some (.elem n as ts) →
    ∃ us, (t.change f p).at? q = some (.elem n as us) ∧ us.length = ts.length := by
  intro p
  induction p with
  | nil => intro q t h1 h2; exact absurd (List.prefix_nil.1 h1) h2
  | cons k p ih =>
    intro q t h1 h2 n as ts ht
    cases q with
    | nil =>
      cases ht
      exact ⟨ts.modify k (Node.change f p), rfl, by simp⟩
    | cons j q =>
      obtain ⟨rfl, h3⟩ := List.cons_prefix_cons.1 h1
      cases t with
      | text x => cases ht
      | elem m bs us =>
        simp only [Node.at?, Node.change, Node.xmlChildren] at ht ⊢
        rw [List.getElem?_modify]
        cases hk : us[j]? with
        | none => rw [hk] at ht; cases ht
        | some c =>
          rw [hk] at ht
          simpa using ih q c h3 (fun h => h2 (by rw [h])) n as ts ht

/-! ### what is written -/

theorem encodeChildren_flat : ∀ ts : List Node, Node.encodeChildren [] 0 ts = ts.flatMap Node.written := by
  intro ts
  induction ts with
  | nil => rfl
  | cons x ts ih =>
    cases x with
    | text s => simp [Node.encodeChildren, ih, Node.written]
    | elem n as cs =>
      simp only [Node.encodeChildren, ih, Node.written, List.flatMap_cons, indentRun, if_true, List.nil_append, Node.encode]
      rw [encode_depth.1]

theorem written_elem (n : Str) (as : Attrs) (ts : List Node) : (Node.elem n as ts).written =
    '<' :: (n ++ (encodeAttrs as ++ '>' :: (ts.flatMap Node.written ++ '<' :: '/' :: (n ++ ['>'])))) := by
  simp [Node.written, Node.encode, Node.encodeI, encodeChildren_flat, indentRun]

theorem split_at {α} {xs : List α} {k : Nat} {x : α} (h : xs[k]? = some x) : xs = xs.take k ++ x :: xs.drop (k + 1) := by
  obtain ⟨hk, rfl⟩ := List.getElem?_eq_some_iff.1 h
  rw [List.getElem_cons_drop, List.take_append_drop]

theorem modify_at {α} (f : α → α) {xs : List α} {k : Nat} {x : α} (h : xs[k]? = some x) :
    xs.modify k f = xs.take k ++ f x :: xs.drop (k + 1) := by
  obtain ⟨hk, rfl⟩ := List.getElem?_eq_some_iff.1 h
  rw [List.modify_eq_take_cons_drop hk]

/-- C140: a part of a document is written in one place, and if that part changes then only this place changes. -/
theorem C140_output : ∀ (p : Path) {t s : Node}, t.at? p = some s → ∃ pre post : Str, t.written = pre ++ s.written ++ post ∧
    ∀ f : Node → Node, (t.change f p).written = pre ++ (f s).written ++ post := by
  intro p
  induction p with
  | nil => intro t s h; cases h; exact ⟨[], [], by simp, fun f => by simp [Node.change]⟩
  | cons k p ih =>
    intro t s h
    cases t with
    | text x => cases h
    | elem n as ts =>
      simp only [Node.at?, Node.xmlChildren] at h
      cases hk : ts[k]? with
      | none => rw [hk] at h; cases h
      | some c =>
        rw [hk] at h
        obtain ⟨pre, post, h1, h2⟩ := ih h
        refine ⟨'<' :: (n ++ (encodeAttrs as ++ '>' :: ((ts.take k).flatMap Node.written ++ pre))),
          post ++ ((ts.drop (k + 1)).flatMap Node.written ++ '<' :: '/' :: (n ++ ['>'])), ?_, fun f => ?_⟩
        · rw [written_elem]
          conv => lhs; rw [split_at hk]
          simp [List.flatMap_append, h1]
        · simp only [Node.change]
          rw [written_elem, modify_at _ hk]
          simp [List.flatMap_append, h2 f]

theorem written_encode {t : Node} (h : t.isText = false) : t.written = t.encode := by
  cases t with
  | elem => rfl
  | text => cases h

theorem isText_change (f : Node → Node) (hf : ∀ n as ts, (f (.elem n as ts)).isText = false) (p : Path) {t : Node}
    (h : t.isText = false) : (t.change f p).isText = false := by
  cases t with
  | text => cases h
  | elem n as ts => cases p with
    | nil => exact hf n as ts
    | cons k p => rfl

/-- C140: inserting adds the new node to the output, in one place, and changes nothing else in it. -/
theorem C140_insert_in_output {t u : Node} {p : Path} {n as ts} (ht : t.isText = false) (hp : t.at? p = some (.elem n as ts)) (i : Int) :
    ∃ pre post, t.encode = pre ++ post ∧ (t.change (Node.insertChild i u) p).encode = pre ++ u.written ++ post := by
  obtain ⟨pre, post, h1, h2⟩ := C140_output p hp
  rw [← written_encode ht, ← written_encode (isText_change _ (fun _ _ _ => rfl) p ht), h1, h2, Node.insertChild]
  generalize insertPos ts.length i = m
  refine ⟨pre ++ '<' :: (n ++ (encodeAttrs as ++ '>' :: ((ts.take m).flatMap Node.written))),
    (ts.drop m).flatMap Node.written ++ '<' :: '/' :: (n ++ ['>']) ++ post, ?_, ?_⟩
  · rw [written_elem]
    conv => lhs; rw [← List.take_append_drop m ts]
    simp [List.flatMap_append, -List.take_append_drop]
  · rw [written_elem]; simp [List.flatMap_append]

/-- C140: removing takes the output of the node out of the output, and changes nothing else in it. -/
theorem C140_remove_in_output {t u : Node} {p : Path} {k : Nat} (ht : t.isText = false) (hu : t.at? (p ++ [k]) = some u) :
    ∃ pre post, t.encode = pre ++ u.written ++ post ∧ (t.change (Node.eraseChild k) p).encode = pre ++ post := by
  obtain ⟨s, hs⟩ : ∃ s, t.at? p = some s := by
    clear ht
    induction p generalizing t with
    | nil => exact ⟨t, rfl⟩
    | cons j p ih =>
      cases t with
      | text => cases hu
      | elem n as ts =>
        simp only [Node.at?, List.cons_append, Node.xmlChildren] at hu ⊢
        cases hj : ts[j]? with
        | none => rw [hj] at hu; cases hu
        | some c => rw [hj] at hu; exact ih hu
  have hk := at_snoc (k := k) p hs
  rw [hu] at hk
  cases s with
  | text => simp [Node.xmlChildren] at hk
  | elem n as ts =>
    simp only [Node.xmlChildren] at hk
    obtain ⟨pre, post, h1, h2⟩ := C140_output p hs
    rw [← written_encode ht, ← written_encode (isText_change _ (fun _ _ _ => rfl) p ht), h1, h2, Node.eraseChild]
    refine ⟨pre ++ '<' :: (n ++ (encodeAttrs as ++ '>' :: ((ts.take k).flatMap Node.written))),
      (ts.drop (k + 1)).flatMap Node.written ++ '<' :: '/' :: (n ++ ['>']) ++ post, ?_, ?_⟩
    · rw [written_elem]
      conv => lhs; rw [split_at hk.symm]
      simp [List.flatMap_append]
    · rw [written_elem, List.eraseIdx_eq_take_drop_succ]; simp [List.flatMap_append]

/-- C140: a tree that was loaded and edited in any way, saved and loaded again is the same tree, up to adjacent texts being
one; the tree in memory is still there, and the program can go on. -/
theorem C140_save_and_load {b : Builder} {F : Forest} (hs : EditSteps Heap.empty (fun _ => none) b.heap F) {r : Id} {t : Node}
    (hr : F r = some t) (hw : t.Writable) (ht : t.isText = false) {held : List Id} (hh : F.HeldBy held) {res : ParseRes} {b' : Builder}
    (hp : ParseHolding held b t.encode res b') :
    ∃ i, res = .returned (some i) ∧ EditSteps Heap.empty (fun _ => none) b'.heap (F.put i t.norm) ∧
      Rep b'.heap none i t.norm ∧ Rep b'.heap none r t := by
  obtain ⟨i, rfl, hi, h2⟩ := (C140_parsing_succeeds hs (encode_isDoc hw ht) held).2 res b' hp
  have hs' : EditSteps Heap.empty (fun _ => none) b'.heap (F.put i t.norm) :=
    .tail hs (.parse hh (encode_isDoc hw ht) hp)
  refine ⟨i, rfl, hs', h2, C140_memory_is_the_forest hs' (r := r) ?_⟩
  have : r ≠ i := by rintro rfl; rw [hr] at hi; cases hi
  simp [Forest.put, this, hr]

/-! ### a program -/

/-- `a = element('a'); b = element('b'); b.xml_append('x'); a.xml_append(b); c = element('c'); a.xml_remove(b);
c.xml_append(b); b.xml_attributes['k'] = 'v'; b.xml_name = 'd'`: in the end `a` is empty and `c` has what was `b`. -/
example : ∃ h F, EditSteps Heap.empty (fun _ => none) h F ∧ F 0 = some (.elem ['a'] [] []) ∧
    F 3 = some (.elem ['c'] [] [.elem ['d'] [(['k'], ['v'])] [.text ['x']]]) ∧ F 1 = none := by
  refine ⟨_, _, .tail (.tail (.tail (.tail (.tail (.tail (.tail (.tail (.tail .refl
    (.newElement ['a'] [])) (.newElement ['b'] []))
    (.insertString (r := 1) (p := []) (e := 1) (child := .str ['x']) (i := -1) rfl rfl (.inl rfl) rfl))
    (.insertTree (r := 0) (p := []) (e := 0) (d := 1) (i := -1) rfl rfl rfl rfl (by decide) rfl))
    (.newElement ['c'] []))
    (.remove (r := 0) (p := []) (e := 0) (k := 0) (c := 1) rfl rfl rfl rfl (fun _ h => (by cases h)) rfl))
    (.insertTree (r := 3) (p := []) (e := 3) (d := 1) (i := -1) rfl rfl rfl rfl (by decide) rfl))
    (.attributes (r := 3) (p := [0]) (e := 1) (fun _ => [(['k'], ['v'])]) rfl rfl))
    (.rename (r := 3) (p := [0]) (e := 1) ['d'] rfl rfl), rfl, rfl, rfl⟩

example : (Node.elem ['a'] [] [.text ['x'], .elem ['b'] [] []]).at? [1] = some (.elem ['b'] [] []) := rfl
example : ((Node.elem ['a'] [] [.text ['x'], .elem ['b'] [] []]).change (Node.insertChild (-1) (.text ['<'])) [1]).encode =
    "<a>x<b>&lt;</b></a>".toList := by decide +kernel

end Amara
