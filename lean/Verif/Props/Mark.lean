import Verif.Spec.Mark
import Verif.Props.Purge
import Verif.Props.Selectors
/-
C177: marking or renaming everything a query with tests finds.
-/
namespace Amara
variable {F : Type}

/-! ### one element -/

def Touch.onNode : Touch → Node → Node
  | .set k v => Node.changeAttrs fun as => as.set k v
  | .pop k => Node.changeAttrs fun as => as.filter fun a => a.1 ≠ k
  | .name m => Node.rename m

theorem touch_elem (c : Touch) (n : Str) (as : Attrs) (ts : List Node) : c.onNode (.elem n as ts) = .elem (c.tag n as).1 (c.tag n as).2 ts := by
  cases c <;> rfl

theorem becomes_same (c : Touch) {P : Prop} (hP : ¬ P) (x : Option Node) : c.Becomes P x x := by
  cases x with
  | none => trivial
  | some x =>
    cases x with
    | text s => exact rfl
    | elem n as cs => exact ⟨fun h => absurd h hP, fun _ => ⟨rfl, rfl⟩⟩

theorem touched_change (c : Touch) : ∀ (p : Path) {t : Node}, t.ElemAt p → t.TouchedAt c (· = p) (t.change c.onNode p)
  | [], .text s, h => by obtain ⟨_, _, _, h⟩ := h; cases h
  | [], .elem n as ts, _ => by
    intro q
    rw [Node.change, touch_elem]
    cases q with
    | nil => exact ⟨fun _ => rfl, fun h => absurd rfl h⟩
    | cons j r => exact becomes_same c (by simp) _
  | k :: p, .text s, h => by obtain ⟨_, _, _, h⟩ := h; simp [Node.at?, Node.xmlChildren] at h
  | k :: p, .elem n as ts, h => by
    intro q
    rw [Node.change]
    cases q with
    | nil =>
      refine ⟨fun h => ?_, fun _ => ⟨rfl, rfl⟩⟩
      have h : [] = k :: p := h
      cases h
    | cons j r =>
      simp only [Node.at?, Node.xmlChildren, List.getElem?_modify]
      cases hj : ts[j]? with
      | none => trivial
      | some y =>
        by_cases hk : k = j
        · subst hk
          have hy : y.ElemAt p := by
            obtain ⟨m, bs, ds, h⟩ := h
            simp only [Node.at?, Node.xmlChildren, hj] at h
            exact ⟨m, bs, ds, h⟩
          have ih := touched_change c p hy r
          simp only [if_true, List.cons.injEq, true_and]
          exact ih
        · simp only [if_neg hk]
          exact becomes_same c (fun e => hk (List.cons.inj e).1.symm) _

theorem becomes_trans {c : Touch} {P Q : Prop} (hPQ : ¬ (P ∧ Q)) {x y z : Option Node} (h1 : c.Becomes P x y) (h2 : c.Becomes Q y z) :
    c.Becomes (P ∨ Q) x z := by
  cases x with
  | none =>
    cases y with
    | none => cases z with
      | none => trivial
      | some z => exact h2.elim
    | some y => exact h1.elim
  | some x =>
    cases y with
    | none => cases x <;> exact h1.elim
    | some y =>
      cases z with
      | none => cases y <;> exact h2.elim
      | some z =>
        cases x with
        | text s =>
          cases y with
          | elem => exact h1.elim
          | text s' => cases z with
            | elem => exact h2.elim
            | text s'' => exact Eq.trans h2 h1
        | elem n as cs =>
          cases y with
          | text => exact h1.elim
          | elem n' as' cs' => cases z with
            | text => exact h2.elim
            | elem n'' as'' cs'' =>
              obtain ⟨a1, a2⟩ := h1
              obtain ⟨b1, b2⟩ := h2
              constructor
              · rintro (hp | hq)
                · obtain ⟨rfl, rfl⟩ := b2 fun hq => hPQ ⟨hp, hq⟩
                  exact a1 hp
                · obtain ⟨rfl, rfl⟩ := a2 fun hp => hPQ ⟨hp, hq⟩
                  exact b1 hq
              · intro h
                obtain ⟨rfl, rfl⟩ := b2 fun hq => h (.inr hq)
                exact a2 fun hp => h (.inl hp)

/-! ### what stays -/

theorem touched_elem {c : Touch} {P : Path → Prop} {d d' : Node} (h : d.TouchedAt c P d') {q : Path} {n' : Str} {as' : Attrs} {cs' : List Node}
    (hq : d'.at? q = some (.elem n' as' cs')) : ∃ n as cs, d.at? q = some (.elem n as cs) ∧ (P q → (n', as') = c.tag n as) ∧
      (¬ P q → n' = n ∧ as' = as) := by
  have := h q
  rw [hq] at this
  cases hx : d.at? q with
  | none => rw [hx] at this; exact this.elim
  | some x =>
    rw [hx] at this
    cases x with
    | text => exact this.elim
    | elem n as cs => exact ⟨n, as, cs, rfl, this.1, this.2⟩

theorem touched_elem' {c : Touch} {P : Path → Prop} {d d' : Node} (h : d.TouchedAt c P d') {q : Path} {n : Str} {as : Attrs} {cs : List Node}
    (hq : d.at? q = some (.elem n as cs)) : ∃ n' as' cs', d'.at? q = some (.elem n' as' cs') ∧ (P q → (n', as') = c.tag n as) ∧
      (¬ P q → n' = n ∧ as' = as) := by
  have := h q
  rw [hq] at this
  cases hx : d'.at? q with
  | none => rw [hx] at this; exact this.elim
  | some x =>
    rw [hx] at this
    cases x with
    | text => exact this.elim
    | elem n' as' cs' => exact ⟨n', as', cs', rfl, this.1, this.2⟩

theorem touched_noEmpty {c : Touch} {P : Path → Prop} {d d' : Node} (h : d.TouchedAt c P d') (hd : d.NoEmptyText) : d'.NoEmptyText := by
  intro q hq
  have := h q
  rw [hq] at this
  cases hx : d.at? q with
  | none => rw [hx] at this; exact this.elim
  | some x =>
    rw [hx] at this
    cases x with
    | text s =>
      have e : [] = s := this
      exact hd q (by rw [hx, e])
    | elem => exact this.elim

theorem mem_set {k v : Str} {p : Str × Str} : ∀ {as : Attrs}, p ∈ as.set k v → p = (k, v) ∨ p ∈ as
  | [], h => by simpa [Attrs.set] using h
  | (k', v') :: r, h => by
    rw [Attrs.set] at h
    split at h
    · next hk =>
      subst hk
      rcases List.mem_cons.1 h with h | h
      · exact .inl h
      · exact .inr (List.mem_cons_of_mem _ h)
    · rcases List.mem_cons.1 h with rfl | h
      · exact .inr (by simp)
      · exact (mem_set h).imp_right (List.mem_cons_of_mem _)

theorem set_distinct {k v : Str} : ∀ {as : Attrs}, as.Pairwise (fun a b => a.1 ≠ b.1) → (as.set k v).Pairwise fun a b => a.1 ≠ b.1
  | [], _ => List.pairwise_singleton _ _
  | (k', v') :: r, h => by
    rw [List.pairwise_cons] at h
    rw [Attrs.set]
    split
    · exact .cons (fun p hp => h.1 p hp) h.2
    · next hk =>
      refine .cons (fun p hp => ?_) (set_distinct h.2)
      rcases mem_set hp with rfl | hp
      · exact hk
      · exact h.1 p hp

theorem touched_dicts {c : Touch} {P : Path → Prop} {d d' : Node} (h : d.TouchedAt c P d') (hd : d.Dicts) : d'.Dicts := by
  intro q n' as' cs' hq
  obtain ⟨n, as, cs, h1, h2, h3⟩ := touched_elem h hq
  have := hd q n as cs h1
  by_cases hp : P q
  · have h4 := h2 hp
    cases c with
    | set k v => cases h4; exact set_distinct this
    | pop k => cases h4; exact List.Pairwise.filter _ this
    | name m => cases h4; exact this
  · rw [(h3 hp).2]; exact this

theorem modify_writable {ok : Str → Prop} {g : Node → Node} (hg : ∀ x : Node, x.WritableWith ok → (g x).WritableWith ok) :
    ∀ (ts : List Node) (k : Nat), Node.WritableList ok ts → Node.WritableList ok (ts.modify k g)
  | [], k, _ => by cases k <;> simp [List.modify, Node.WritableList]
  | x :: r, 0, h => by rw [List.modify_zero_cons]; exact ⟨hg x h.1, h.2⟩
  | x :: r, k + 1, h => by rw [List.modify_succ_cons]; exact ⟨h.1, modify_writable hg r k h.2⟩

theorem touch_writable {c : Touch} (hc : c.Writable) {x : Node} (h : x.Writable) : (c.onNode x).Writable := by
  cases x with
  | text s => cases c <;> exact h
  | elem n as cs =>
    obtain ⟨h1, h2, h3, h4⟩ := h
    cases c with
    | set k v =>
      refine ⟨h1, fun p hp => ?_, ?_, h4⟩
      · rcases mem_set hp with rfl | hp
        · exact hc
        · exact h2 p hp
      · rw [List.Nodup, List.pairwise_map] at h3 ⊢
        exact set_distinct h3
    | pop k =>
      refine ⟨h1, fun p hp => h2 p (List.mem_filter.1 hp).1, ?_, h4⟩
      rw [List.Nodup, List.pairwise_map] at h3 ⊢
      exact List.Pairwise.filter _ h3
    | name m => exact ⟨hc, h2, h3, h4⟩

theorem change_writable {c : Touch} (hc : c.Writable) : ∀ (p : Path) {t : Node}, t.Writable → (t.change c.onNode p).Writable
  | [], _, h => touch_writable hc h
  | _ :: _, .text _, h => h
  | k :: p, .elem _ _ ts, ⟨h1, h2, h3, h4⟩ => ⟨h1, h2, h3, modify_writable (fun _ hx => change_writable hc p hx) ts k h4⟩

/-! ### the loop -/

theorem touch_children (c : Touch) (h : Heap) (e i : Id) : (c.onHeap h e).children i = h.children i := by
  have key : ∀ n as n' as' cs q, h.obj e = some (.elem n as cs q) → (h.set e (.elem n' as' cs q)).children i = h.children i := by
    intro n as n' as' cs q ho
    unfold Heap.children
    rw [Heap.set_obj']
    by_cases hi : i = e
    · rw [if_pos hi, hi, ho]; rfl
    · rw [if_neg hi]
  cases c with
  | set k v =>
    show (h.changeAttrs e _).children i = _
    unfold Heap.changeAttrs
    split
    · next ho => exact key _ _ _ _ _ _ ho
    · rfl
  | pop k =>
    show (h.changeAttrs e _).children i = _
    unfold Heap.changeAttrs
    split
    · next ho => exact key _ _ _ _ _ _ ho
    · rfl
  | name m =>
    show (h.rename e m).children i = _
    unfold Heap.rename
    split
    · next ho => exact key _ _ _ _ _ _ ho
    · rfl

theorem touch_locate (c : Touch) (h : Heap) (e : Id) : ∀ (p : Path) (i : Id), (c.onHeap h e).locate i p = h.locate i p
  | [], _ => rfl
  | k :: p, i => by
    simp only [Heap.locate, touch_children]
    cases (h.children i)[k]? with
    | none => rfl
    | some j => exact touch_locate c h e p j

theorem touch_step (c : Touch) {h : Heap} {F : Forest} {t0 e : Id} {d : Node} {p : Path} (hF : F t0 = some d) (hl : h.locate t0 p = some e) :
    EditStep h F (c.onHeap h e) (F.put t0 (d.change c.onNode p)) := by
  cases c with
  | set k v => exact .attributes _ hF hl
  | pop k => exact .attributes _ hF hl
  | name m => exact .rename m hF hl

theorem touch_loop (c : Touch) : ∀ {ps : List Path} {xs : List Id} {h h0 : Heap} {F0 F : Forest} {t0 : Id} {d : Node}, EditSteps h0 F0 h F → F t0 = some d →
    ps.Nodup → (∀ p ∈ ps, d.ElemAt p) → ps.map (h.locate t0) = xs.map some →
    ∃ d', EditSteps h0 F0 (touchAll c h xs) (F.put t0 d') ∧ d.TouchedAt c (· ∈ ps) d' ∧
      (∀ p i, (touchAll c h xs).locate i p = h.locate i p) ∧ (c.Writable → d.Writable → d'.Writable)
  | [], [], h, _, _, F, t0, d, hs, hF, _, _, _ => by
    refine ⟨d, ?_, fun q => becomes_same c (by simp) _, fun _ _ => rfl, fun _ hw => hw⟩
    have : F.put t0 d = F := by
      funext j
      simp only [Forest.put]
      split
      · next hj => rw [hj, hF]
      · rfl
    rw [this]
    exact hs
  | [], _ :: _, _, _, _, _, _, _, _, _, _, _, hx => by cases hx
  | _ :: _, [], _, _, _, _, _, _, _, _, _, _, hx => by cases hx
  | p :: ps, e :: xs, h, h0, F0, F, t0, d, hs, hF, hnd, hel, hx => by
    rw [List.map_cons, List.map_cons] at hx
    obtain ⟨hl, hx⟩ := List.cons.inj hx
    obtain ⟨hnp, hnd⟩ := List.nodup_cons.1 hnd
    have h1 := touched_change c p (hel p (by simp))
    have hs1 := EditSteps.tail hs (touch_step c hF hl)
    obtain ⟨d', a1, a2, a3, a4⟩ := touch_loop c (ps := ps) (xs := xs) hs1 (t0 := t0) (d := d.change c.onNode p) (by simp [Forest.put]) hnd
      (fun q hq => by
        obtain ⟨m, as, cs, hq⟩ := hel q (by simp [hq])
        obtain ⟨m', as', cs', hq', _⟩ := touched_elem' h1 hq
        exact ⟨m', as', cs', hq'⟩)
      (by rw [← hx]; exact List.map_congr_left fun q _ => touch_locate c h e q t0)
    refine ⟨d', ?_, fun q => ?_, fun q i => ?_, fun hc hw => a4 hc (change_writable hc p hw)⟩
    · have : (F.put t0 (d.change c.onNode p)).put t0 d' = F.put t0 d' := by
        funext j
        simp only [Forest.put]
        split <;> rfl
      rw [this] at a1
      exact a1
    · have := becomes_trans (P := q = p) (Q := q ∈ ps) (by rintro ⟨rfl, h⟩; exact hnp h) (h1 q) (a2 q)
      simpa only [List.mem_cons] using this
    · show (touchAll c (c.onHeap h e) xs).locate i q = _
      rw [a3, touch_locate]

/-! ### queries -/

theorem noVars (h : Heap) (t0 : Id) : VarsStandFor (F := F) h t0 (fun _ => none) (fun _ => none) := fun _ => trivial

/-- What `//m` finds in a document. -/
theorem everywhere_plain (fo : FloatOps F) (n : Nat) {d : Node} (hd : d.NoEmptyText) (m : Str) {s : Str}
    (hs : X.Written fo [.abbrevSep, X.nameTok m] s) :
    ∃ ps : List Path, ps.Nodup ∧ (∀ q, q ∈ ps ↔ d.Named m q) ∧ xmlXPath fo (fun _ => none) n d [] (.str s) = ⟨ps.map .node, .done⟩ := by
  obtain ⟨qs, h1, h2, h3⟩ := C48_every_element_once (queryEnv fo (fun _ => none) d) hd n .root (.inl rfl) m
  have hparse : X.xparse fo s = some (.ok (TestedList.path (.core (.anywhere (.step .child m)))).expr) := by
    have h := nameTok_word (F := F) m
    have hp := WritesPath.anywhere (.step (.child h.1))
    rw [h.2] at hp
    exact C167_is_read fo (.path (.core hp)) hs
  refine ⟨qs, h2, h3, ?_⟩
  simp only [xmlXPath, parseText_eq hparse, contextItem, if_true]
  exact h1

theorem in_memory (fo : FloatOps F) (n : Nat) {h : Heap} {t0 : Id} {d : Node} (hr : Rep h none t0 d) (htx : d.isText = false) {s : Str} {ps : List Path}
    (hel : ∀ p ∈ ps, d.ElemAt p) (ha : xmlXPath fo (fun _ => none) n d [] (.str s) = ⟨ps.map .node, .done⟩) :
    ∃ xs : List Id, ps.map (h.locate t0) = xs.map some ∧
      ∀ k, d.count ≤ k → Mem.xmlXPath fo h k (fun _ => none) n t0 (.str s) = ⟨xs.map .obj, .done⟩ := by
  obtain ⟨xs, hx⟩ := locate_all hr hel
  refine ⟨xs, hx, fun k hk => ?_⟩
  have := C153_xml_xpath fo hr htx hk (noVars h t0) n (p := []) rfl s
  rw [ha] at this
  exact objs_of hx this

theorem named_elemAt {d : Node} {m : Str} {q : Path} (h : d.Named m q) : d.ElemAt q := by
  obtain ⟨as, cs, h⟩ := h
  exact ⟨_, _, _, h⟩

theorem touched_isText {c : Touch} {P : Path → Prop} {d d' : Node} (h : d.TouchedAt c P d') (htx : d.isText = false) : d'.isText = false := by
  cases d with
  | text => cases htx
  | elem n as cs =>
    obtain ⟨n', as', cs', h1, _⟩ := touched_elem' h (q := []) (n := n) (as := as) (cs := cs) rfl
    cases h1
    rfl

/-- C177: `for e in list(doc.xml_xpath('//m[t]…')): …` for one of the trees a program holds, where the body sets or drops an attribute of `e` or gives
it another name.  The list has each element called `m` of which the tests hold once and nothing else.  Afterwards the tree is as it was but
for the tags of these elements, every object is in its old place, and the other trees the program holds are what they were. -/
theorem C177_touching (fo : FloatOps F) (n : Nat) {h : Heap} {T : Forest} (hs : EditSteps Heap.empty (fun _ => none) h T) {t0 : Id} {d : Node}
    (hT : T t0 = some d) (htx : d.isText = false) (hd : d.NoEmptyText) (hdict : d.Dicts) (m : Str) {ts : Tests} (ht : ts.Ok)
    {wt : List (X.Tok F)} (hw : WritesTests wt ts) {s : Str} (hq : X.Written fo (.abbrevSep :: X.nameTok m :: wt) s) (c : Touch) :
    ∃ (ps : List Path) (xs : List Id) (d' : Node), ps.Nodup ∧ (∀ q, q ∈ ps ↔ d.Named m q ∧ ts.Hold d (.at q)) ∧
      ps.map (h.locate t0) = xs.map some ∧
      (∀ k, d.count ≤ k → Mem.xmlXPath fo h k (fun _ => none) n t0 (.str s) = ⟨xs.map .obj, .done⟩) ∧
      EditSteps Heap.empty (fun _ => none) (touchAll c h xs) (T.put t0 d') ∧ Rep (touchAll c h xs) none t0 d' ∧
      d.TouchedAt c (· ∈ ps) d' ∧ (∀ q, (touchAll c h xs).locate t0 q = h.locate t0 q) ∧ (c.Writable → d.Writable → d'.Writable) := by
  obtain ⟨ps, h1, h2, h3⟩ := everywhere_finds fo n hd hdict m ht hw hq
  have hel : ∀ p ∈ ps, d.ElemAt p := fun p hp => named_elemAt ((h2 p).1 hp).1
  obtain ⟨xs, h4, h5⟩ := in_memory fo n (C140_memory_is_the_forest hs hT) htx hel h3
  obtain ⟨d', a1, a2, a3, a4⟩ := touch_loop c hs hT h1 hel h4
  exact ⟨ps, xs, d', h1, h2, h4, h5, a1, C140_memory_is_the_forest a1 (by simp [Forest.put]), a2, fun q => a3 q t0, a4⟩

/-- C177: what was marked can be found by the mark.  After `e.xml_attributes[k] = v` for all elements called `m` of which the tests hold, the
query `//m[@k='v']` finds just these elements, the objects that were marked, and those that had the mark before. -/
theorem C177_marked_are_found (fo : FloatOps F) (n : Nat) {h : Heap} {T : Forest} (hs : EditSteps Heap.empty (fun _ => none) h T) {t0 : Id} {d : Node}
    (hT : T t0 = some d) (htx : d.isText = false) (hd : d.NoEmptyText) (hdict : d.Dicts) (m : Str) {ts : Tests} (ht : ts.Ok)
    {wt : List (X.Tok F)} (hw : WritesTests wt ts) {s : Str} (hq : X.Written fo (.abbrevSep :: X.nameTok m :: wt) s) {k v : Str} (hk : k ≠ ['*'])
    {s' : Str} (hq' : X.Written fo (.abbrevSep :: X.nameTok m :: (Sieve.is k v).tokens) s') :
    ∃ (xs : List Id) (d' : Node), (∀ j, d.count ≤ j → Mem.xmlXPath fo h j (fun _ => none) n t0 (.str s) = ⟨xs.map .obj, .done⟩) ∧
      let h' := touchAll (.set k v) h xs
      EditSteps Heap.empty (fun _ => none) h' (T.put t0 d') ∧
      ∃ (ps' : List Path) (xs' : List Id), ps'.Nodup ∧ (∀ q, q ∈ ps' ↔ d.Named m q ∧ (ts.Hold d (.at q) ∨ d.AttrAt (.at q) k v)) ∧
        ps'.map (h.locate t0) = xs'.map some ∧
        ∀ j, d'.count ≤ j → Mem.xmlXPath fo h' j (fun _ => none) n t0 (.str s') = ⟨xs'.map .obj, .done⟩ := by
  obtain ⟨ps, xs, d', _, a2, _, a4, a5, a6, a7, a8, _⟩ := C177_touching fo n hs hT htx hd hdict m ht hw hq (.set k v)
  have hw' : WritesTests (F := F) (Sieve.is k v).tokens (.one (Sieve.is k v).test) := by
    have := sieves_write (F := F) (.is k v) []
    rwa [List.flatMap_cons, List.flatMap_nil, List.append_nil] at this
  have hdict' := touched_dicts a7 hdict
  obtain ⟨ps', b1, b2, b3⟩ := everywhere_finds fo n (touched_noEmpty a7 hd) hdict' m (ts := .one (Sieve.is k v).test) (sieve_ok hk) hw' hq'
  obtain ⟨xs', b4, b5⟩ := in_memory fo n a6 (touched_isText a7 htx) (fun p hp => named_elemAt ((b2 p).1 hp).1) b3
  refine ⟨xs, d', a4, a5, ps', xs', b1, fun q => ?_, by rw [← b4]; exact List.map_congr_left fun q _ => (a8 q).symm, b5⟩
  have hHold : ∀ {n' as' cs'}, d'.at? q = some (.elem n' as' cs') → ((Tests.one (Sieve.is k v).test).Hold d' (.at q) ↔ as'.get k = some v) := by
    intro n' as' cs' h'
    show (Sieve.is k v).test.Holds d' (.at q) ↔ _
    rw [← sieve_holds hdict' h' (.is k v)]
    simp only [Sieve.sel, Node.look, Option.isSome_some, Bool.true_and, checkAttribute, Node.xmlAttributes]
    cases as'.get k with
    | none => simp
    | some v' => simp
  rw [b2]
  constructor
  · rintro ⟨⟨as', cs', e1⟩, e2⟩
    obtain ⟨n0, as, cs, e3, e4, e5⟩ := touched_elem a7 e1
    by_cases hp : q ∈ ps
    · have := (a2 q).1 hp
      exact ⟨this.1, .inl this.2⟩
    · obtain ⟨rfl, rfl⟩ := e5 hp
      exact ⟨⟨_, _, e3⟩, .inr ((attrAt_iff hdict e3 k v).2 ((hHold e1).1 e2))⟩
  · rintro ⟨⟨as, cs, e1⟩, e2⟩
    obtain ⟨n', as', cs', e3, e4, e5⟩ := touched_elem' a7 e1
    by_cases hp : q ∈ ps
    · cases e4 hp
      exact ⟨⟨_, _, e3⟩, (hHold e3).2 (by rw [get_set, if_pos rfl])⟩
    · obtain ⟨rfl, rfl⟩ := e5 hp
      refine ⟨⟨_, _, e3⟩, (hHold e3).2 ?_⟩
      rcases e2 with e2 | e2
      · exact absurd ((a2 q).2 ⟨⟨_, _, e1⟩, e2⟩) hp
      · exact (attrAt_iff hdict e1 k v).1 e2

theorem get_dropped {k : Str} : ∀ (as : Attrs), Attrs.get (as.filter fun a => a.1 ≠ k) k = none
  | [] => rfl
  | (k', v') :: r => by
    by_cases hk : k' = k
    · simpa [List.filter_cons, hk] using get_dropped (k := k) r
    · simpa [List.filter_cons, hk, Attrs.get] using get_dropped (k := k) r

/-- C177: after `e.xml_attributes.pop(k, None)` for all elements called `m` of which the tests hold, the query `//m[@k]` finds just the elements
that had the attribute before and of which the tests did not hold. -/
theorem C177_dropped_are_not_found (fo : FloatOps F) (n : Nat) {h : Heap} {T : Forest} (hs : EditSteps Heap.empty (fun _ => none) h T) {t0 : Id} {d : Node}
    (hT : T t0 = some d) (htx : d.isText = false) (hd : d.NoEmptyText) (hdict : d.Dicts) (m : Str) {ts : Tests} (ht : ts.Ok)
    {wt : List (X.Tok F)} (hw : WritesTests wt ts) {s : Str} (hq : X.Written fo (.abbrevSep :: X.nameTok m :: wt) s) {k : Str} (hk : k ≠ ['*'])
    {s' : Str} (hq' : X.Written fo (.abbrevSep :: X.nameTok m :: (Sieve.has k).tokens) s') :
    ∃ (xs : List Id) (d' : Node), (∀ j, d.count ≤ j → Mem.xmlXPath fo h j (fun _ => none) n t0 (.str s) = ⟨xs.map .obj, .done⟩) ∧
      let h' := touchAll (.pop k) h xs
      EditSteps Heap.empty (fun _ => none) h' (T.put t0 d') ∧
      ∃ (ps' : List Path) (xs' : List Id), ps'.Nodup ∧ (∀ q, q ∈ ps' ↔ d.Named m q ∧ (∃ v, d.AttrAt (.at q) k v) ∧ ¬ ts.Hold d (.at q)) ∧
        ps'.map (h.locate t0) = xs'.map some ∧
        ∀ j, d'.count ≤ j → Mem.xmlXPath fo h' j (fun _ => none) n t0 (.str s') = ⟨xs'.map .obj, .done⟩ := by
  obtain ⟨ps, xs, d', _, a2, _, a4, a5, a6, a7, a8, _⟩ := C177_touching fo n hs hT htx hd hdict m ht hw hq (.pop k)
  have hw' : WritesTests (F := F) (Sieve.has k).tokens (.one (Sieve.has k).test) := by
    have := sieves_write (F := F) (.has k) []
    rwa [List.flatMap_cons, List.flatMap_nil, List.append_nil] at this
  have hdict' := touched_dicts a7 hdict
  obtain ⟨ps', b1, b2, b3⟩ := everywhere_finds fo n (touched_noEmpty a7 hd) hdict' m (ts := .one (Sieve.has k).test) (sieve_ok hk) hw' hq'
  obtain ⟨xs', b4, b5⟩ := in_memory fo n a6 (touched_isText a7 htx) (fun p hp => named_elemAt ((b2 p).1 hp).1) b3
  refine ⟨xs, d', a4, a5, ps', xs', b1, fun q => ?_, by rw [← b4]; exact List.map_congr_left fun q _ => (a8 q).symm, b5⟩
  have hHold : ∀ {n' as' cs'}, d'.at? q = some (.elem n' as' cs') → ((Tests.one (Sieve.has k).test).Hold d' (.at q) ↔ ∃ v, as'.get k = some v) := by
    intro n' as' cs' h'
    show (Sieve.has k).test.Holds d' (.at q) ↔ _
    rw [← sieve_holds hdict' h' (.has k)]
    simp only [Sieve.sel, Node.look, Option.isSome_some, Bool.true_and, checkAttribute, Node.xmlAttributes]
    cases as'.get k with
    | none => simp
    | some v' => simp
  rw [b2]
  constructor
  · rintro ⟨⟨as', cs', e1⟩, e2⟩
    obtain ⟨v, e2⟩ := (hHold e1).1 e2
    obtain ⟨n0, as, cs, e3, e4, e5⟩ := touched_elem a7 e1
    by_cases hp : q ∈ ps
    · cases e4 hp
      rw [get_dropped] at e2
      cases e2
    · obtain ⟨rfl, rfl⟩ := e5 hp
      exact ⟨⟨_, _, e3⟩, ⟨v, (attrAt_iff hdict e3 k v).2 e2⟩, fun hh => hp ((a2 q).2 ⟨⟨_, _, e3⟩, hh⟩)⟩
  · rintro ⟨⟨as, cs, e1⟩, ⟨v, e2⟩, e6⟩
    obtain ⟨n', as', cs', e3, e4, e5⟩ := touched_elem' a7 e1
    obtain ⟨rfl, rfl⟩ := e5 fun hp => e6 ((a2 q).1 hp).2
    exact ⟨⟨_, _, e3⟩, (hHold e3).2 ⟨v, (attrAt_iff hdict e1 k v).1 e2⟩⟩

/-- C177: after `e.xml_name = m'` for all elements called `m` of which the tests hold, `//m'` finds just these and those that were called so
before, and, if `m'` is another name, `//m` finds just those of which the tests did not hold. -/
theorem C177_renamed_are_found (fo : FloatOps F) (n : Nat) {h : Heap} {T : Forest} (hs : EditSteps Heap.empty (fun _ => none) h T) {t0 : Id} {d : Node}
    (hT : T t0 = some d) (htx : d.isText = false) (hd : d.NoEmptyText) (hdict : d.Dicts) (m : Str) {ts : Tests} (ht : ts.Ok)
    {wt : List (X.Tok F)} (hw : WritesTests wt ts) {s : Str} (hq : X.Written fo (.abbrevSep :: X.nameTok m :: wt) s) (m' : Str) {s1 s2 : Str}
    (hq1 : X.Written fo [.abbrevSep, X.nameTok m'] s1) (hq2 : X.Written fo [.abbrevSep, X.nameTok m] s2) :
    ∃ (xs : List Id) (d' : Node), (∀ j, d.count ≤ j → Mem.xmlXPath fo h j (fun _ => none) n t0 (.str s) = ⟨xs.map .obj, .done⟩) ∧
      let h' := touchAll (.name m') h xs
      EditSteps Heap.empty (fun _ => none) h' (T.put t0 d') ∧
      (∃ (ps' : List Path) (xs' : List Id), ps'.Nodup ∧ (∀ q, q ∈ ps' ↔ d.Named m q ∧ ts.Hold d (.at q) ∨ d.Named m' q) ∧
        ps'.map (h.locate t0) = xs'.map some ∧
        ∀ j, d'.count ≤ j → Mem.xmlXPath fo h' j (fun _ => none) n t0 (.str s1) = ⟨xs'.map .obj, .done⟩) ∧
      (m' ≠ m → ∃ (ps' : List Path) (xs' : List Id), ps'.Nodup ∧ (∀ q, q ∈ ps' ↔ d.Named m q ∧ ¬ ts.Hold d (.at q)) ∧
        ps'.map (h.locate t0) = xs'.map some ∧
        ∀ j, d'.count ≤ j → Mem.xmlXPath fo h' j (fun _ => none) n t0 (.str s2) = ⟨xs'.map .obj, .done⟩) := by
  obtain ⟨ps, xs, d', _, a2, _, a4, a5, a6, a7, a8, _⟩ := C177_touching fo n hs hT htx hd hdict m ht hw hq (.name m')
  have hnamed : ∀ m1 q, d'.Named m1 q ↔ (q ∈ ps ∧ m1 = m') ∨ (q ∉ ps ∧ d.Named m1 q) := by
    intro m1 q
    constructor
    · rintro ⟨as', cs', e1⟩
      obtain ⟨n0, as, cs, e3, e4, e5⟩ := touched_elem a7 e1
      by_cases hp : q ∈ ps
      · cases e4 hp; exact .inl ⟨hp, rfl⟩
      · obtain ⟨rfl, rfl⟩ := e5 hp; exact .inr ⟨hp, _, _, e3⟩
    · rintro (⟨hp, rfl⟩ | ⟨hp, as, cs, e1⟩)
      · obtain ⟨⟨as, cs, e1⟩, _⟩ := (a2 q).1 hp
        obtain ⟨n', as', cs', e3, e4, _⟩ := touched_elem' a7 e1
        cases e4 hp
        exact ⟨_, _, e3⟩
      · obtain ⟨n', as', cs', e3, _, e5⟩ := touched_elem' a7 e1
        obtain ⟨rfl, rfl⟩ := e5 hp
        exact ⟨_, _, e3⟩
  have hne := touched_noEmpty a7 hd
  have found : ∀ (m1 : Str) {s1 : Str}, X.Written fo [.abbrevSep, X.nameTok m1] s1 → ∃ (ps' : List Path) (xs' : List Id), ps'.Nodup ∧
      (∀ q, q ∈ ps' ↔ (q ∈ ps ∧ m1 = m') ∨ (q ∉ ps ∧ d.Named m1 q)) ∧ ps'.map (h.locate t0) = xs'.map some ∧
        ∀ j, d'.count ≤ j → Mem.xmlXPath fo (touchAll (.name m') h xs) j (fun _ => none) n t0 (.str s1) = ⟨xs'.map .obj, .done⟩ := by
    intro m1 s1 hs1
    obtain ⟨ps', b1, b2, b3⟩ := everywhere_plain fo n hne m1 hs1
    obtain ⟨xs', b4, b5⟩ := in_memory fo n a6 (touched_isText a7 htx) (fun p hp => named_elemAt ((b2 p).1 hp)) b3
    exact ⟨ps', xs', b1, fun q => (b2 q).trans (hnamed m1 q), by rw [← b4]; exact List.map_congr_left fun q _ => (a8 q).symm, b5⟩
  refine ⟨xs, d', a4, a5, ?_, fun hmm => ?_⟩
  · obtain ⟨ps', xs', b1, b2, b3⟩ := found m' hq1
    refine ⟨ps', xs', b1, fun q => ?_, b3⟩
    rw [b2, ← a2]
    by_cases hp : q ∈ ps <;> simp [hp]
  · obtain ⟨ps', xs', b1, b2, b3⟩ := found m hq2
    refine ⟨ps', xs', b1, fun q => ?_, b3⟩
    rw [b2, a2]
    constructor
    · rintro (⟨_, e⟩ | ⟨e1, e2⟩)
      · exact absurd e.symm hmm
      · exact ⟨e2, fun e => e1 ⟨e2, e⟩⟩
    · rintro ⟨e1, e2⟩
      exact .inr ⟨fun e => e2 e.2, e1⟩

/-- C177: so for the text of a document, in a program that may hold other trees: it can be parsed, the elements the query finds marked or
renamed, and the result saved; read again, the saved text is the document with the new tags (adjacent texts merged). -/
theorem C177_parse_touch_save (fo : FloatOps F) (n : Nat) {b : Builder} {T : Forest} (hs : EditSteps Heap.empty (fun _ => none) b.heap T)
    {held : List Id} (hh : T.HeldBy held) {d : Node} {w : Str} (hdoc : IsDoc d w) {b' : Builder} {r : ParseRes} (hp : ParseHolding held b w r b')
    (m : Str) {ts : Tests} (ht : ts.Ok) {wt : List (X.Tok F)} (hw : WritesTests wt ts) {s : Str}
    (hq : X.Written fo (.abbrevSep :: X.nameTok m :: wt) s) {c : Touch} (hc : c.Writable) (hwr : d.Writable) :
    ∃ (t0 : Id) (xs : List Id) (d' : Node), r = .returned (some t0) ∧
      (∀ k, d.count ≤ k → Mem.xmlXPath fo b'.heap k (fun _ => none) n t0 (.str s) = ⟨xs.map .obj, .done⟩) ∧
      d.TouchedAt c (fun q => d.Named m q ∧ ts.Hold d (.at q)) d' ∧
      (∀ i u, i ≠ t0 → T i = some u → Rep (touchAll c b'.heap xs) none i u) ∧
      Rep (touchAll c b'.heap xs) none t0 d' ∧
      ∀ a r' a', TreeParse a d'.encode r' a' → ∃ i, r' = .returned (some i) ∧ Rep a'.heap none i d'.norm := by
  obtain ⟨t0, rfl, _, _⟩ := (C140_parsing_succeeds hs hdoc held).2 r b' hp
  have hs' : EditSteps Heap.empty (fun _ => none) b'.heap (T.put t0 d) := .tail hs (.parse hh hdoc hp)
  obtain ⟨ps, xs, d', _, a2, _, a4, a5, a6, a7, _, a9⟩ := C177_touching fo n hs' (t0 := t0) (d := d) (by simp [Forest.put]) hdoc.1 (doc_noEmpty hdoc)
    (fun p m as cs hp => doc_dicts hdoc hp) m ht hw hq c
  refine ⟨t0, xs, d', rfl, a4, fun q => ?_, fun i u hi hu => C140_memory_is_the_forest a5 ?_, a6, fun a r' a' ha => ?_⟩
  · have := a7 q
    simp only [a2] at this
    exact this
  · simp [Forest.put, hi, hu]
  · exact C15_serialise_then_parse (a9 hc hwr) (touched_isText a7 hdoc.1) ha

/-- C177: the list is needed: a loop body that changes what the tests look at changes what a query asked again would find.  After all elements
called `b` without an attribute `k` have been given one, `//b[not(@k)]` finds nothing. -/
theorem C177_asked_again :
    let d : Node := .elem ['r'] [] [.elem ['b'] [] [], .elem ['b'] [(['k'], ['1'])] []]
    let d' : Node := .elem ['r'] [] [.elem ['b'] [(['k'], ['2'])] [], .elem ['b'] [(['k'], ['1'])] []]
    xmlXPath noFloats (fun _ => none) 0 d [] (.str "//b[not(@k)]".toList) = ⟨[.node [0]], .done⟩ ∧
    d.change (Touch.onNode (.set ['k'] ['2'])) [0] = d' ∧
    xmlXPath noFloats (fun _ => none) 0 d' [] (.str "//b[not(@k)]".toList) = ⟨[], .done⟩ := by
  have h1 : X.xparse noFloats "//b[not(@k)]".toList =
      some (.ok (TestedList.path (.filter (.core (.anywhere (.step .child ['b']))) exNoKey)).expr) := by with_unfolding_all rfl
  refine ⟨?_, by decide +kernel, ?_⟩ <;> rw [asked_parsed h1] <;> decide +kernel

-- the hypotheses are met by a program that makes an `r` with a `b` in it: `r = element('r'); b = element('b'); r.xml_append(b)`
example : (Touch.set ['k'] ['1']).Writable ∧ (Touch.pop ['k']).Writable ∧ (Touch.name ['c']).Writable ∧ exNoKey.Ok ∧
    WritesTests (F := F) [.lbrack, .name "not".toList, .lparen, .at, .name ['k'], .rparen, .rbrack] exNoKey ∧
    ∃ h T, EditSteps Heap.empty (fun _ => none) h T ∧ T 0 = some (.elem ['r'] [] [.elem ['b'] [] []]) ∧ T.HeldBy [0] ∧
      (Node.elem ['r'] [] [.elem ['b'] [] []]).NoEmptyText ∧ (Node.elem ['r'] [] [.elem ['b'] [] []]).Dicts ∧ h.locate 0 [0] = some 1 ∧
      (touchAll (.set ['k'] ['1']) h [1]).obj 1 = some (.elem ['b'] [(['k'], ['1'])] [] (some 0)) ∧
      (touchAll (.name ['c']) h [1]).obj 1 = some (.elem ['c'] [] [] (some 0)) := by
  refine ⟨⟨by decide, by unfold AttrValue; decide⟩, trivial, by show IsName _; decide,
    by simp [exNoKey, Tests.Ok, ValueTest.Ok, TestedList.Ok, CoreList.Ok, CoreEnd.Ok],
    .one (.not (.found (.core (.rel (.last (.attr (k := .name ['k']) trivial)))))), _, _,
    .tail (.tail (.tail .refl (.newElement ['r'] [])) (.newElement ['b'] []))
      (.insertTree (r := 0) (p := []) (e := 0) (d := 1) (i := -1) rfl rfl rfl rfl (by decide) rfl), rfl, ?_,
    ?_, ?_, rfl, rfl, rfl⟩
  · intro i hi
    match i with
    | 0 => simp
    | 1 => exact absurd rfl hi
    | i + 2 => exact absurd rfl hi
  · intro p hp
    match p with
    | [] => cases hp
    | [0] => cases hp
    | 0 :: _ :: _ => cases hp
    | (_ + 1) :: _ => cases hp
  · intro p n as cs hp
    match p with
    | [] => cases hp; exact .nil
    | [0] => cases hp; exact .nil
    | 0 :: _ :: _ => cases hp
    | (_ + 1) :: _ => cases hp

end Amara
