import Verif.Spec.Copy
import Verif.Props.Mark
import Verif.Props.MoveSaved
import Verif.Props.XApart
import Verif.Props.Html5
import Verif.Props.Bones
import Verif.Lemmas.Encode
/-
C180: copying everything a query with tests finds to another tree.
-/
namespace Amara
variable {F : Type}

theorem locate_same {h h' : Heap} : ∀ (q : Path) {i : Id}, (∀ k, Reachable h [i] k → h'.obj k = h.obj k) → h'.locate i q = h.locate i q
  | [], _, _ => rfl
  | k :: q, i, hs => by
    have hc : h'.children i = h.children i := by simp only [Heap.children, hs i (reach_self h i)]
    simp only [Heap.locate, hc]
    cases hk : (h.children i)[k]? with
    | none => rfl
    | some c =>
      exact locate_same q fun j hj => hs j (reach_trans (.child (reach_self h i) (List.mem_of_getElem? hk)) hj)

theorem reach_same {h h' : Heap} {d : Id} (hsame : ∀ k, Reachable h [d] k → h'.obj k = h.obj k) {j : Id} (hj : Reachable h [d] j) : Reachable h' [d] j := by
  induction hj with
  | root hm => exact .root hm
  | child h1 hc ih => exact .child ih (by simpa only [Heap.children, hsame _ h1] using hc)

/-- One round. -/
theorem copy_round {b : Builder} {T : Forest} (hs : EditSteps Heap.empty (fun _ => none) b.heap T) {held : List Id} (hh : T.HeldBy held) {t0 w : Id}
    {d : Node} (h0 : T t0 = some d) (hwt : w ≠ t0) {n : Str} {as : Attrs} {ts : List Node} (hw : T w = some (.elem n as ts)) {u : Node}
    (hu : u.Writable) (htx : u.isText = false) :
    (∃ i b' h1, ParseHolding held b u.encode (.returned (some i)) b' ∧ b'.heap.xmlAppend w (.node i) = .ok h1) ∧
    ∀ i b' h1, ParseHolding held b u.encode (.returned (some i)) b' → b'.heap.xmlAppend w (.node i) = .ok h1 →
      EditSteps Heap.empty (fun _ => none) h1 (T.put w (.elem n as (ts ++ [u.norm]))) ∧ ∀ q, h1.locate t0 q = b.heap.locate t0 q := by
  have hdoc := encode_isDoc hu htx
  have hnt : u.norm.isText = false := hdoc.1
  have hH := holds_steps hs holds_empty
  obtain ⟨c1, c2⟩ := C140_parsing_succeeds hs hdoc held
  have hwi : ∀ {i}, T i = none → i ≠ w := fun hi e => by rw [e, hw] at hi; cases hi
  -- after the parse
  have after : ∀ {i b'}, ParseHolding held b u.encode (.returned (some i)) b' → T i = none ∧ Rep b'.heap none i u.norm ∧
      EditSteps Heap.empty (fun _ => none) b'.heap (T.put i u.norm) ∧ ∃ m bs ds q, b'.heap.obj i = some (.elem m bs ds q) := by
    intro i b' hp
    obtain ⟨i', e, h1, h2⟩ := c2 _ b' hp
    cases e
    refine ⟨h1, h2, .tail hs (.parse hh hdoc hp), ?_⟩
    cases hun : u.norm with
    | text => rw [hun] at hnt; cases hnt
    | elem m bs us => rw [hun] at h2; obtain ⟨ds, q, ho, _⟩ := rep_elem_iff.1 h2; exact ⟨_, _, _, _, ho⟩
  constructor
  · obtain ⟨r, b', hp⟩ := c1
    obtain ⟨i, rfl, hi, _⟩ := c2 r b' hp
    obtain ⟨_, _, a3, m, bs, ds, q, ho⟩ := after hp
    have hrw := C140_memory_is_the_forest a3 (r := w) (t := .elem n as ts) (by simp [Forest.put, (hwi hi).symm, hw])
    obtain ⟨cs, q', how, _⟩ := rep_elem_iff.1 hrw
    obtain ⟨h1, hok⟩ := insert_total (h := b'.heap) (e := w) ⟨_, _, _, _, how⟩ (c := .node i) (fun k hk => by cases hk; rw [ho]; rfl) (-1)
    exact ⟨i, b', h1, hp, hok⟩
  · intro i b' h1 hp hok
    obtain ⟨hi, _, a3, m, bs, ds, q, ho⟩ := after hp
    have hiw := hwi hi
    have hit : t0 ≠ i := fun e => by rw [← e, h0] at hi; cases hi
    have st := EditSteps.tail a3 (.insertTree (r := w) (t := .elem n as ts) (p := []) (e := w) (d := i) (u := u.norm) (i := -1)
      (by simp [Forest.put, hiw.symm, hw]) rfl (by simp [Forest.put]) hnt hiw hok)
    constructor
    · have : ((T.put i u.norm).drop i).put w (Node.change (Node.insertChild (-1) u.norm) [] (.elem n as ts)) = T.put w (.elem n as (ts ++ [u.norm])) := by
        funext j
        simp only [Forest.put, Forest.drop]
        by_cases hj : j = w
        · rw [if_pos hj, if_pos hj]; simp [Node.change, Node.insertChild, insertPos]
        · rw [if_neg hj, if_neg hj]
          by_cases hji : j = i
          · rw [if_pos hji, hji, hi]
          · rw [if_neg hji, if_neg hji]
      rw [this] at st
      exact st
    · have s1 := parse_sameOn hH hh hp h0
      have hr0 := C140_memory_is_the_forest a3 (r := t0) (t := d) (by simp [Forest.put, hit, h0])
      have hrw := C140_memory_is_the_forest a3 (r := w) (t := .elem n as ts) (by simp [Forest.put, hiw.symm, hw])
      have hri := C140_memory_is_the_forest a3 (r := i) (t := u.norm) (by simp [Forest.put])
      obtain ⟨n', as', cs', p', _, _, hobj⟩ := insertTree_obj ho hiw hok
      refine fun q => locate_same q fun k hk => ?_
      have hk' := reach_same s1 hk
      have k1 : k ≠ w := fun e => hwt (same_top hr0 hrw (e ▸ hk') (reach_self _ _)).symm
      have k2 : k ≠ i := fun e => hit (same_top hr0 hri (e ▸ hk') (reach_self _ _))
      rw [hobj k, if_neg k1, if_neg k2, s1 k hk]

theorem copy_loop {held : List Id} {T : Forest} (hh : T.HeldBy held) {t0 w : Id} {d : Node} (h0 : T t0 = some d) (hdw : d.Writable) (hwt : w ≠ t0)
    (hwT : T w ≠ none) {n : Str} {as : Attrs} : ∀ {ps : List Path} {xs : List Id} {h : Heap} {ts : List Node},
    EditSteps Heap.empty (fun _ => none) h (T.put w (.elem n as ts)) → (∀ p ∈ ps, d.ElemAt p) → ps.map (h.locate t0) = xs.map some →
    (∃ h', CopyEach held w h xs h') ∧ ∀ h', CopyEach held w h xs h' →
      EditSteps Heap.empty (fun _ => none) h' (T.put w (.elem n as (ts ++ d.copies ps))) ∧ ∀ q, h'.locate t0 q = h.locate t0 q
  | [], [], h, ts, hs, _, _ => by
    refine ⟨⟨h, .nil⟩, fun h' ha => ?_⟩
    cases ha
    exact ⟨by simpa [Node.copies] using hs, fun _ => rfl⟩
  | [], _ :: _, _, _, _, _, hx => by cases hx
  | _ :: _, [], _, _, _, _, hx => by cases hx
  | p :: ps, x :: xs, h, ts, hs, hel, hx => by
    rw [List.map_cons, List.map_cons] at hx
    obtain ⟨hl, hx⟩ := List.cons.inj hx
    obtain ⟨m, bs, cs, hp⟩ := hel p (by simp)
    have h0' : (T.put w (.elem n as ts)) t0 = some d := by simp [Forest.put, hwt.symm, h0]
    have hh' : (T.put w (.elem n as ts)).HeldBy held := by
      intro i hi
      by_cases hiw : i = w
      · exact hiw ▸ hh w hwT
      · simp only [Forest.put, if_neg hiw] at hi
        exact hh i hi
    obtain ⟨y, hy, hry, _⟩ := locate_rep p (C140_memory_is_the_forest hs h0') hl
    rw [hp] at hy
    cases hy
    have huw : (Node.elem m bs cs).Writable := writable_below p hdw hp
    have next := fun (h1 : Heap) (st : EditSteps Heap.empty (fun _ => none) h1 ((T.put w (.elem n as ts)).put w (.elem n as (ts ++ [(Node.elem m bs cs).norm]))))
        (hlo : ∀ q, h1.locate t0 q = h.locate t0 q) => by
      have : (T.put w (.elem n as ts)).put w (.elem n as (ts ++ [(Node.elem m bs cs).norm])) = T.put w (.elem n as (ts ++ [(Node.elem m bs cs).norm])) := by
        funext j
        simp only [Forest.put]
        split <;> rfl
      rw [this] at st
      exact copy_loop hh h0 hdw hwt hwT (ps := ps) (xs := xs) st (fun q hq => hel q (by simp [hq]))
        (by rw [← hx]; exact List.map_congr_left fun q _ => hlo q)
    constructor
    · obtain ⟨⟨i, b', h1, a1, a2⟩, a3⟩ :=
        copy_round (b := ⟨h, none, none, none, none⟩) hs hh' (n := n) (as := as) (ts := ts) h0' hwt (by simp [Forest.put]) huw rfl
      obtain ⟨st, hlo⟩ := a3 i b' h1 a1 a2
      obtain ⟨⟨h', hc⟩, _⟩ := next h1 st hlo
      exact ⟨h', .cons (b := ⟨h, none, none, none, none⟩) hry a1 a2 hc⟩
    · intro h' ha
      cases ha with
      | @cons b b' h1 _ _ _ q u i r1 r2 r3 r4 =>
        have hu : u = .elem m bs cs := by
          have hq := rep_parent r1
          rw [hq] at hry
          exact rep_unique r1 hry
        subst hu
        obtain ⟨_, a3⟩ := copy_round hs hh' (n := n) (as := as) (ts := ts) h0' hwt (by simp [Forest.put]) huw rfl
        obtain ⟨st, hlo⟩ := a3 i b' h1 r2 r3
        obtain ⟨_, g⟩ := next h1 st hlo
        obtain ⟨g1, g2⟩ := g h' r4
        refine ⟨?_, fun q => by rw [g2, hlo]⟩
        have hcp : d.copies (p :: ps) = (Node.elem m bs cs).norm :: d.copies ps := by simp [Node.copies, hp]
        rw [hcp]
        simpa using g1

/-! ### saving -/

theorem norm_writable {ok : Str → Prop} :
    (∀ t : Node, t.WritableWith ok → t.norm.WritableWith ok) ∧ (∀ ts : List Node, Node.WritableList ok ts → Node.WritableList ok (Node.normList ts)) := by
  have hcons : ∀ (s : Str) (ns : List Node), (∀ c ∈ s, Legal c) → Node.WritableList ok ns → Node.WritableList ok (consText s ns) := by
    intro s ns hs hn
    unfold consText
    split
    · exact hn
    · cases ns with
      | nil => exact ⟨hs, trivial⟩
      | cons x r =>
        cases x with
        | elem => exact ⟨hs, hn⟩
        | text t => exact ⟨fun c hc => (List.mem_append.1 hc).elim (hs c) (hn.1 c), hn.2⟩
  have main : (∀ (t : Node) (_ : Path), t.WritableWith ok → t.norm.WritableWith ok) ∧
      (∀ (ts : List Node) (_ : Path) (_ : Nat), Node.WritableList ok ts → Node.WritableList ok (Node.normList ts)) := by
    apply Node.induct
    case elem => intro n as cs ih here h; exact ⟨h.1, h.2.1, h.2.2.1, ih here 0 h.2.2.2⟩
    case text => intro s here h; exact h
    case nil => intro here k _; trivial
    case cons =>
      intro t ts iht ihts here k h
      cases t with
      | text s => exact hcons s _ h.1 (ihts here k h.2)
      | elem n as cs => exact ⟨iht here h.1, ihts here k h.2⟩
  exact ⟨fun t => main.1 t [], fun ts => main.2 ts [] 0⟩

theorem copied_writable {d : Node} (hd : d.Writable) (ps : List Path) {n : Str} {as : Attrs} {us : List Node} (hu : (Node.elem n as us).Writable) :
    (Node.elem n as (us ++ d.copies ps)).Writable := by
  refine ⟨hu.1, hu.2.1, hu.2.2.1, writableList_iff.2 fun x hx => ?_⟩
  rcases List.mem_append.1 hx with hx | hx
  · exact writableList_iff.1 hu.2.2.2 x hx
  · obtain ⟨p, _, hp⟩ := List.mem_filterMap.1 hx
    cases hy : d.at? p with
    | none => rw [hy] at hp; cases hp
    | some y =>
      rw [hy] at hp
      cases hp
      exact norm_writable.1 y (writable_below p hd hy)

/-! ### the properties -/

/-- C180: in a document that can be written as MicroXML, `//m[t]` finds the elements named `m` for which the tests hold, each once, and copying each
of them to an element `w` at the top of another tree never fails, whatever the garbage collector does, as long as the program holds its trees.
Afterwards the document is what it was, with every object at its place; `w` has, after the children it had, the tree of each result in the order of
the results, with adjacent texts merged; no object is in both trees; and every other tree is as before. -/
theorem C180_copying (fo : FloatOps F) (k : Nat) {h : Heap} {T : Forest} (hs : EditSteps Heap.empty (fun _ => none) h T) {held : List Id}
    (hh : T.HeldBy held) {t0 : Id} {d : Node} (hT : T t0 = some d) (htx : d.isText = false) (hd : d.NoEmptyText) (hdict : d.Dicts)
    (hdw : d.Writable) {w : Id} (hwt : w ≠ t0) {n : Str} {as : Attrs} {us : List Node} (hw : T w = some (.elem n as us)) (m : Str) {ts : Tests}
    (ht : ts.Ok) {wt : List (X.Tok F)} (hwr : WritesTests wt ts) {s : Str} (hq : X.Written fo (.abbrevSep :: X.nameTok m :: wt) s) :
    ∃ (ps : List Path) (xs : List Id), ps.Nodup ∧ (∀ q, q ∈ ps ↔ d.Named m q ∧ ts.Hold d (.at q)) ∧ ps.map (h.locate t0) = xs.map some ∧
      (∀ j, d.count ≤ j → Mem.xmlXPath fo h j (fun _ => none) k t0 (.str s) = ⟨xs.map .obj, .done⟩) ∧
      (∃ h', CopyEach held w h xs h') ∧ ∀ h', CopyEach held w h xs h' → Rep h' none t0 d ∧ (∀ q, h'.locate t0 q = h.locate t0 q) ∧
        Rep h' none w (.elem n as (us ++ d.copies ps)) ∧ (∀ x, Reachable h' [t0] x → ¬ Reachable h' [w] x) ∧
        ∀ i u, i ≠ w → T i = some u → Rep h' none i u := by
  obtain ⟨ps, h1, h2, h3⟩ := everywhere_finds fo k hd hdict m ht hwr hq
  have hel : ∀ p ∈ ps, d.ElemAt p := fun p hp => named_elemAt ((h2 p).1 hp).1
  obtain ⟨xs, h4, h5⟩ := in_memory fo k (C140_memory_is_the_forest hs hT) htx hel h3
  have hT0 : T.put w (.elem n as us) = T := by
    funext j
    simp only [Forest.put]
    split
    · next hj => rw [hj, hw]
    · rfl
  obtain ⟨a1, a2⟩ := copy_loop hh hT hdw hwt (by rw [hw]; simp) (ps := ps) (xs := xs) (h := h) (ts := us) (by rw [hT0]; exact hs) hel h4
  refine ⟨ps, xs, h1, h2, h4, h5, a1, fun h' ha => ?_⟩
  obtain ⟨b1, b2⟩ := a2 h' ha
  have others : ∀ i u, i ≠ w → T i = some u → Rep h' none i u := fun i u hi hu => C140_memory_is_the_forest b1 (by simp [Forest.put, hi, hu])
  have r0 := others t0 d hwt.symm hT
  have rw' := C140_memory_is_the_forest b1 (r := w) (t := .elem n as (us ++ d.copies ps)) (by simp [Forest.put])
  exact ⟨r0, b2, rw', fun x x1 x2 => hwt (same_top r0 rw' x1 x2).symm, others⟩

/-- C180: and if the tree of `w` could be written as MicroXML, it still can: serialised and parsed again, it is the tree in memory with adjacent texts
merged. -/
theorem C180_copy_and_save (fo : FloatOps F) (k : Nat) {h : Heap} {T : Forest} (hs : EditSteps Heap.empty (fun _ => none) h T) {held : List Id}
    (hh : T.HeldBy held) {t0 : Id} {d : Node} (hT : T t0 = some d) (htx : d.isText = false) (hd : d.NoEmptyText) (hdict : d.Dicts)
    (hdw : d.Writable) {w : Id} (hwt : w ≠ t0) {n : Str} {as : Attrs} {us : List Node} (hw : T w = some (.elem n as us))
    (huw : (Node.elem n as us).Writable) (m : Str) {ts : Tests}
    (ht : ts.Ok) {wt : List (X.Tok F)} (hwr : WritesTests wt ts) {s : Str} (hq : X.Written fo (.abbrevSep :: X.nameTok m :: wt) s) :
    ∃ xs : List Id, (∀ j, d.count ≤ j → Mem.xmlXPath fo h j (fun _ => none) k t0 (.str s) = ⟨xs.map .obj, .done⟩) ∧
      ∀ h', CopyEach held w h xs h' → ∃ e, Rep h' none w e ∧
        ∀ b r b', TreeParse b e.encode r b' → ∃ i, r = .returned (some i) ∧ Rep b'.heap none i e.norm := by
  obtain ⟨ps, xs, _, _, _, a4, _, a6⟩ := C180_copying fo k hs hh hT htx hd hdict hdw hwt hw m ht hwr hq
  exact ⟨xs, a4, fun h' ha => ⟨_, (a6 h' ha).2.2.1, fun b r b' hp => C15_serialise_then_parse (copied_writable hdw ps huw) rfl hp⟩⟩

/-- C180: queries on the document find the same objects in the same order after the loop as before it: the one the loop was over and any other
`//m'[t']`. -/
theorem C180_found_again (fo : FloatOps F) (k : Nat) {h : Heap} {T : Forest} (hs : EditSteps Heap.empty (fun _ => none) h T) {held : List Id}
    (hh : T.HeldBy held) {t0 : Id} {d : Node} (hT : T t0 = some d) (htx : d.isText = false) (hd : d.NoEmptyText) (hdict : d.Dicts)
    (hdw : d.Writable) {w : Id} (hwt : w ≠ t0) {n : Str} {as : Attrs} {us : List Node} (hw : T w = some (.elem n as us)) (m : Str) {ts : Tests}
    (ht : ts.Ok) {wt : List (X.Tok F)} (hwr : WritesTests wt ts) {s : Str} (hq : X.Written fo (.abbrevSep :: X.nameTok m :: wt) s)
    (m' : Str) {ts' : Tests} (ht' : ts'.Ok) {wt' : List (X.Tok F)} (hwr' : WritesTests wt' ts') {s' : Str}
    (hq' : X.Written fo (.abbrevSep :: X.nameTok m' :: wt') s') :
    ∃ xs ys : List Id, (∀ j, d.count ≤ j → Mem.xmlXPath fo h j (fun _ => none) k t0 (.str s) = ⟨xs.map .obj, .done⟩) ∧
      (∀ j, d.count ≤ j → Mem.xmlXPath fo h j (fun _ => none) k t0 (.str s') = ⟨ys.map .obj, .done⟩) ∧
      ∀ h', CopyEach held w h xs h' → ∀ j, d.count ≤ j → Mem.xmlXPath fo h' j (fun _ => none) k t0 (.str s') = ⟨ys.map .obj, .done⟩ := by
  obtain ⟨ps, xs, _, _, _, a4, _, a6⟩ := C180_copying fo k hs hh hT htx hd hdict hdw hwt hw m ht hwr hq
  obtain ⟨qs, _, h2, h3⟩ := everywhere_finds fo k hd hdict m' ht' hwr' hq'
  have hel : ∀ p ∈ qs, d.ElemAt p := fun p hp => named_elemAt ((h2 p).1 hp).1
  obtain ⟨ys, h4, h5⟩ := in_memory fo k (C140_memory_is_the_forest hs hT) htx hel h3
  refine ⟨xs, ys, a4, h5, fun h' ha => ?_⟩
  obtain ⟨b1, b2, _⟩ := a6 h' ha
  obtain ⟨zs, h6, h7⟩ := in_memory fo k b1 htx hel h3
  have hyz : zs.map some = ys.map some := by rw [← h6, ← h4]; exact List.map_congr_left fun q _ => b2 q
  have : zs = ys := (List.map_inj_right fun _ _ e => Option.some.inj e).1 hyz
  rw [← this]
  exact h7

theorem copies_get {d : Node} : ∀ {ps : List Path}, (∀ p ∈ ps, d.ElemAt p) → (d.copies ps).length = ps.length ∧
    ∀ (j : Nat) (v : Node), (d.copies ps)[j]? = some v → ∃ p m bs cs, p ∈ ps ∧ d.at? p = some (.elem m bs cs) ∧ v = (Node.elem m bs cs).norm
  | [], _ => ⟨rfl, fun j v h => by simp [Node.copies] at h⟩
  | p :: ps, hel => by
    obtain ⟨m, bs, cs, hp⟩ := hel p (by simp)
    obtain ⟨h1, h2⟩ := copies_get (d := d) (ps := ps) fun q hq => hel q (by simp [hq])
    have hc : d.copies (p :: ps) = (Node.elem m bs cs).norm :: d.copies ps := by simp [Node.copies, hp]
    rw [hc]
    refine ⟨by simp [h1], fun j v hv => ?_⟩
    cases j with
    | zero => cases hv; exact ⟨p, m, bs, cs, by simp, hp, rfl⟩
    | succ j =>
      obtain ⟨p', m', bs', cs', a1, a2, a3⟩ := h2 j v (by simpa using hv)
      exact ⟨p', m', bs', cs', by simp [a1], a2, a3⟩

theorem copied_noEmpty {d : Node} {ps : List Path} (hel : ∀ p ∈ ps, d.ElemAt p) {n : Str} {as : Attrs} {us : List Node}
    (hu : (Node.elem n as us).NoEmptyText) : (Node.elem n as (us ++ d.copies ps)).NoEmptyText := by
  intro q hq
  rcases joined_at hq with ⟨_, h⟩ | ⟨_, _, _, _, h⟩ | ⟨j, r, v, _, h1, h2⟩
  · cases h
  · exact hu q h
  · obtain ⟨p, m, bs, cs, _, _, rfl⟩ := (copies_get hel).2 j v h1
    exact norm_noEmptyText rfl r h2

theorem writable_dicts {d : Node} (hd : d.Writable) : d.Dicts :=
  fun p _ _ _ hp => List.pairwise_map.1 (writable_below p hd hp).2.2.1

/-- C180: with tests on the name and the attributes of the element itself, the query asked of `w` afterwards finds every copy: the children `w` has
more than before are as many as there are results, and each of them is found. -/
theorem C180_found_there (fo : FloatOps F) (k : Nat) {h : Heap} {T : Forest} (hs : EditSteps Heap.empty (fun _ => none) h T) {held : List Id}
    (hh : T.HeldBy held) {t0 : Id} {d : Node} (hT : T t0 = some d) (htx : d.isText = false) (hd : d.NoEmptyText) (hdict : d.Dicts)
    (hdw : d.Writable) {w : Id} (hwt : w ≠ t0) {n : Str} {as : Attrs} {us : List Node} (hw : T w = some (.elem n as us))
    (hu : (Node.elem n as us).NoEmptyText) (huw : (Node.elem n as us).Writable) (m : Str) {ts : Tests}
    (ht : ts.Ok) (hit : ts.ofItself = true) {wt : List (X.Tok F)} (hwr : WritesTests wt ts) {s : Str}
    (hq : X.Written fo (.abbrevSep :: X.nameTok m :: wt) s) :
    ∃ xs : List Id, (∀ j, d.count ≤ j → Mem.xmlXPath fo h j (fun _ => none) k t0 (.str s) = ⟨xs.map .obj, .done⟩) ∧
      ∀ h', CopyEach held w h xs h' → ∃ (c : Nat) (ys : List Id), (∀ j, c ≤ j → Mem.xmlXPath fo h' j (fun _ => none) k w (.str s) = ⟨ys.map .obj, .done⟩) ∧
        ((h'.children w).drop us.length).length = xs.length ∧ ∀ x ∈ (h'.children w).drop us.length, x ∈ ys := by
  obtain ⟨ps, xs, _, a2, a3, a4, _, a6⟩ := C180_copying fo k hs hh hT htx hd hdict hdw hwt hw m ht hwr hq
  have hel : ∀ p ∈ ps, d.ElemAt p := fun p hp => named_elemAt ((a2 p).1 hp).1
  refine ⟨xs, a4, fun h' ha => ?_⟩
  obtain ⟨_, _, b3, _⟩ := a6 h' ha
  obtain ⟨ps2, _, d2, d3⟩ := everywhere_finds fo k (copied_noEmpty hel hu) (writable_dicts (copied_writable hdw ps huw)) m ht hwr hq
  obtain ⟨ys, g1, g2⟩ := in_memory fo k b3 rfl (fun p hp => named_elemAt ((d2 p).1 hp).1) d3
  have hlx : ps.length = xs.length := by simpa using congrArg List.length a3
  have hlen : (h'.children w).length = us.length + ps.length := by
    obtain ⟨cs, q, ho, _, _, hl⟩ := rep_elem_iff.1 b3
    rw [elem_children ho, ((repList_iff _ cs).1 hl).1, List.length_append, (copies_get hel).1]
  refine ⟨_, ys, g2, by rw [List.length_drop, hlen]; omega, fun x hx => ?_⟩
  obtain ⟨j, hj, hjx⟩ := List.getElem_of_mem hx
  rw [List.getElem_drop] at hjx
  have hj' : j < (d.copies ps).length := by rw [(copies_get hel).1]; rw [List.length_drop, hlen] at hj; omega
  obtain ⟨p, m', bs, cs, hp, hdp, hv⟩ := (copies_get hel).2 j _ (List.getElem?_eq_getElem hj')
  have hat : (Node.elem n as (us ++ d.copies ps)).at? [us.length + j] = some (.elem m' bs (Node.normList cs)) := by
    simp only [Node.at?, Node.xmlChildren]
    rw [List.getElem?_append_right (Nat.le_add_right _ _), Nat.add_sub_cancel_left, List.getElem?_eq_getElem hj', hv]
    simp [Node.norm]
  obtain ⟨⟨bs', cs', hn⟩, hold⟩ := (a2 p).1 hp
  rw [hdp] at hn
  cases hn
  have hm := (d2 [us.length + j]).2 ⟨⟨_, _, hat⟩, (itself_tests ts hit hdp hat).1 hold⟩
  have hl : h'.locate w [us.length + j] = some x := by
    simp only [Heap.locate]
    rw [List.getElem?_eq_getElem (by rw [List.length_drop] at hj; omega), hjx]
  have : h'.locate w [us.length + j] ∈ ys.map some := by rw [← g1]; exact List.mem_map.2 ⟨_, hm, rfl⟩
  rw [hl] at this
  obtain ⟨i, hi1, hi2⟩ := List.mem_map.1 this
  cases hi2
  exact hi1

-- a program that makes an `r` with a `b` in it, and a `w`; and the copies from a tree in which one result is inside another
example : (Node.elem ['r'] [] [.elem ['b'] [] [.text ['x'], .text ['y'], .elem ['b'] [] []]]).copies [[0], [0, 2]] =
      [.elem ['b'] [] [.text ['x', 'y'], .elem ['b'] [] []], .elem ['b'] [] []] ∧ exNoKey.Ok ∧ exNoKey.ofItself = true ∧
    WritesTests (F := F) [.lbrack, .name "not".toList, .lparen, .at, .name ['k'], .rparen, .rbrack] exNoKey ∧
    ∃ h T h', EditSteps Heap.empty (fun _ => none) h T ∧ T.HeldBy [0, 2] ∧ T 0 = some (.elem ['r'] [] [.elem ['b'] [] []]) ∧
      T 2 = some (.elem ['w'] [] []) ∧ (Node.elem ['r'] [] [.elem ['b'] [] []]).NoEmptyText ∧ (Node.elem ['r'] [] [.elem ['b'] [] []]).Dicts ∧
      (Node.elem ['r'] [] [.elem ['b'] [] []]).Writable ∧ (Node.elem ['w'] [] []).Writable ∧
      (Node.elem ['w'] [] []).NoEmptyText ∧ h.locate 0 [0] = some 1 ∧ CopyEach [0, 2] 2 h [1] h' := by
  have base : ∃ h T, EditSteps Heap.empty (fun _ => none) h T ∧ (∀ i, i ≠ 0 → i ≠ 2 → T i = none) ∧ T 0 = some (.elem ['r'] [] [.elem ['b'] [] []]) ∧
      T 2 = some (.elem ['w'] [] []) ∧ h.locate 0 [0] = some 1 := by
    refine ⟨_, _, .tail (.tail (.tail (.tail .refl (.newElement ['r'] [])) (.newElement ['b'] []))
      (.insertTree (r := 0) (p := []) (e := 0) (d := 1) (i := -1) rfl rfl rfl rfl (by decide) rfl)) (.newElement ['w'] []), ?_, rfl, rfl, rfl⟩
    intro i h0 h2
    match i with
    | 0 => exact absurd rfl h0
    | 1 => rfl
    | 2 => exact absurd rfl h2
    | _ + 3 => rfl
  have hw : (Node.elem ['r'] [] [.elem ['b'] [] []]).Writable := ⟨by decide, by simp, by simp, ⟨by decide, by simp, by simp, trivial⟩, trivial⟩
  obtain ⟨h, T, hs, hn, hT0, hT2, hl⟩ := base
  have hheld : T.HeldBy [0, 2] := by
    intro i hi
    refine Decidable.byContradiction fun hc => hi ?_
    simp only [List.mem_cons, List.not_mem_nil, not_or] at hc
    exact hn i hc.1 hc.2.1
  have hput : T.put 2 (.elem ['w'] [] []) = T := by
    funext j
    simp only [Forest.put]
    split
    · next hj => rw [hj, hT2]
    · rfl
  obtain ⟨⟨h', hc⟩, _⟩ := copy_loop hheld (t0 := 0) (w := 2) hT0 hw (by decide) (by rw [hT2]; simp) (ps := [[0]]) (xs := [1]) (h := h) (n := ['w']) (as := [])
    (ts := []) (by rw [hput]; exact hs) (fun p hp => by cases List.mem_singleton.1 hp; exact ⟨_, _, _, rfl⟩) (by simp [hl])
  refine ⟨by decide, by simp [exNoKey, Tests.Ok, ValueTest.Ok, TestedList.Ok, CoreList.Ok, CoreEnd.Ok], rfl,
    .one (.not (.found (.core (.rel (.last (.attr (k := .name ['k']) trivial)))))), h, T, h', hs, hheld, hT0, hT2, ?_, ?_, hw,
    ⟨by decide, by simp, by simp, trivial⟩, ?_, hl, hc⟩
  · intro p hp
    match p with
    | [] => cases hp
    | [0] => cases hp
    | 0 :: _ :: _ => cases hp
    | (_ + 1) :: _ => cases hp
  · intro p n as cs hp
    match p with
    | [] => cases hp; exact .nil
    | [0] => cases hp; exact .nil
    | 0 :: _ :: _ => cases hp
    | (_ + 1) :: _ => cases hp
  · intro p hp
    match p with
    | [] => cases hp
    | _ :: _ => cases hp

end Amara
