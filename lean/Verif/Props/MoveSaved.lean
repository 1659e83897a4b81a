import Verif.Spec.MoveSaved
import Verif.Props.Move
/-
C178, second part: nothing is lost or doubled when results are moved, and both trees can be saved.
-/
namespace Amara
open Classical

/-! ### sums over a list of positions -/

/-- The sum over the positions for which `P` holds. -/
noncomputable def sumIf (pc : Path → Nat) (P : Path → Prop) : List Path → Nat
  | [] => 0
  | q :: r => (if P q then pc q else 0) + sumIf pc P r

theorem sumIf_congr {pc : Path → Nat} {P Q : Path → Prop} : ∀ (l : List Path), (∀ q ∈ l, P q ↔ Q q) → sumIf pc P l = sumIf pc Q l
  | [], _ => rfl
  | q :: r, h => by
    have h1 : P q = Q q := propext (h q (by simp))
    simp only [sumIf, h1, sumIf_congr r fun x hx => h x (by simp [hx])]

theorem sumIf_or {pc : Path → Nat} {P Q : Path → Prop} : ∀ (l : List Path), (∀ q ∈ l, ¬ (P q ∧ Q q)) →
    sumIf pc (fun q => P q ∨ Q q) l = sumIf pc P l + sumIf pc Q l
  | [], _ => rfl
  | q :: r, h => by
    have h1 := h q (by simp)
    have ih := sumIf_or (pc := pc) (P := P) (Q := Q) r fun x hx => h x (by simp [hx])
    simp only [sumIf, ih]
    by_cases hp : P q <;> by_cases hq : Q q
    · exact absurd ⟨hp, hq⟩ h1
    all_goals simp [hp, hq]; try omega

theorem sumIf_none {pc : Path → Nat} {P : Path → Prop} : ∀ (l : List Path), (∀ q ∈ l, ¬ P q) → sumIf pc P l = 0
  | [], _ => rfl
  | q :: r, h => by simp [sumIf, h q (by simp), sumIf_none r fun x hx => h x (by simp [hx])]

theorem sumIf_one {pc : Path → Nat} (a : Path) : ∀ {l : List Path}, l.Nodup → sumIf pc (fun q => q = a) l = if a ∈ l then pc a else 0
  | [], _ => by simp [sumIf]
  | q :: r, h => by
    obtain ⟨h1, h2⟩ := List.nodup_cons.1 h
    rw [sumIf, sumIf_one a h2]
    by_cases hq : q = a
    · subst hq; simp [h1]
    · simp [hq, Ne.symm hq]

/-- `q` is below the child number `k` or a later one of the node at `here`, or is that child. -/
def Beyond (here : Path) (k : Nat) (q : Path) : Prop := ∃ j r, k ≤ j ∧ q = here ++ j :: r

theorem beyond_step {here : Path} {k : Nat} {q : Path} :
    Beyond here k q ↔ q = here ++ [k] ∨ (Beyond (here ++ [k]) 0 q ∨ Beyond here (k + 1) q) := by
  constructor
  · rintro ⟨j, r, hj, rfl⟩
    by_cases hk : j = k
    · subst hk
      cases r with
      | nil => exact .inl rfl
      | cons i r => exact .inr (.inl ⟨i, r, Nat.zero_le _, by simp⟩)
    · exact .inr (.inr ⟨j, r, by omega, rfl⟩)
  · rintro (rfl | ⟨j, r, _, rfl⟩ | ⟨j, r, hj, rfl⟩)
    · exact ⟨k, [], Nat.le_refl _, rfl⟩
    · exact ⟨k, j :: r, Nat.le_refl _, by simp⟩
    · exact ⟨j, r, by omega, rfl⟩

theorem beyond_apart {here : Path} {k : Nat} {q : Path} : ¬ (q = here ++ [k] ∧ (Beyond (here ++ [k]) 0 q ∨ Beyond here (k + 1) q)) ∧
    ¬ (Beyond (here ++ [k]) 0 q ∧ Beyond here (k + 1) q) := by
  constructor
  · rintro ⟨rfl, ⟨j, r, _, h⟩ | ⟨j, r, hj, h⟩⟩
    · simp at h
    · simp at h; omega
  · rintro ⟨⟨j, r, _, rfl⟩, ⟨i, s, hi, h⟩⟩
    simp at h
    omega

/-! ### counting -/

theorem tallyList_eq {g : Str → Attrs → Nat} {f : Str → Nat} : ∀ l : List Node, Node.tallyList g f l = (l.map (Node.tally g f)).sum
  | [] => rfl
  | x :: r => by simp [Node.tallyList, tallyList_eq r]

/-- What a piece counts for. -/
def pieceTally (g : Str → Attrs → Nat) (f : Str → Nat) (d : Node) (ps : List Path) (q : Path) : Nat :=
  match d.at? q with
  | some x => (x.cutAt ps q).tally g f
  | none => 0

theorem cut_tally {g : Str → Attrs → Nat} {f : Str → Nat} {d : Node} {ps : List Path} (hnd : ps.Nodup) (hv : ∀ q ∈ ps, (d.at? q).isSome = true) :
    (∀ (x : Node) (here : Path), d.at? here = some x →
      (x.cutAt ps here).tally g f + sumIf (pieceTally g f d ps) (Beyond here 0) ps = x.tally g f) ∧
    (∀ (ts : List Node) (here : Path) (k : Nat), (∀ j, d.at? (here ++ [k + j]) = ts[j]?) →
      Node.tallyList g f (Node.cutAtList ps here k ts) + sumIf (pieceTally g f d ps) (Beyond here k) ps = Node.tallyList g f ts) := by
  apply Node.induct
  case elem =>
    intro n as cs ih here h
    have := ih here 0 fun j => by rw [at_snoc here h, Nat.zero_add]; rfl
    simp only [Node.cutAt, Node.tally]
    omega
  case text =>
    intro s here h
    simp only [Node.cutAt, Node.tally]
    rw [sumIf_none ps, Nat.add_zero]
    rintro q hq ⟨j, r, _, rfl⟩
    have := hv _ hq
    rw [Node.at?_append, h] at this
    cases this
  case nil =>
    intro here k h
    simp only [Node.cutAtList, Node.tallyList]
    rw [sumIf_none]
    rintro q hq ⟨j, r, hj, rfl⟩
    have := hv _ hq
    have h1 := h (j - k)
    rw [Nat.add_sub_cancel' hj] at h1
    rw [show here ++ j :: r = (here ++ [j]) ++ r by simp, Node.at?_append, h1] at this
    cases this
  case cons =>
    intro t ts iht ihts here k h
    have h0 : d.at? (here ++ [k]) = some t := h 0
    have h1 := iht (here ++ [k]) h0
    have h2 := ihts here (k + 1) fun j => by
      rw [show k + 1 + j = k + (j + 1) by omega, h (j + 1)]; rfl
    have hs : sumIf (pieceTally g f d ps) (Beyond here k) ps = (if here ++ [k] ∈ ps then pieceTally g f d ps (here ++ [k]) else 0) +
        (sumIf (pieceTally g f d ps) (Beyond (here ++ [k]) 0) ps + sumIf (pieceTally g f d ps) (Beyond here (k + 1)) ps) := by
      rw [sumIf_congr ps fun q _ => beyond_step, sumIf_or ps fun q _ => beyond_apart.1, sumIf_or ps fun q _ => beyond_apart.2, sumIf_one _ hnd]
    rw [hs]
    simp only [Node.cutAtList, Node.tallyList]
    by_cases hm : here ++ [k] ∈ ps
    · rw [if_pos hm, if_pos hm, pieceTally, h0]
      simp only
      omega
    · rw [if_neg hm, if_neg hm, Node.tallyList]
      omega

theorem pieces_tally {g : Str → Attrs → Nat} {f : Str → Nat} {d : Node} {ps : List Path} :
    ∀ {l : List Path}, [] ∉ l → Node.tallyList g f (l.filterMap fun p => (d.at? p).map fun x => x.cutAt ps p) =
      sumIf (pieceTally g f d ps) (Beyond [] 0) l
  | [], _ => rfl
  | q :: r, h => by
    have hb : Beyond [] 0 q := by
      cases q with
      | nil => simp at h
      | cons j s => exact ⟨j, s, Nat.zero_le _, rfl⟩
    have ih := pieces_tally (g := g) (f := f) (d := d) (ps := ps) (l := r) fun hr => h (by simp [hr])
    rw [sumIf, if_pos hb, ← ih, pieceTally]
    cases hx : d.at? q with
    | none => simp [hx]
    | some x => simp [hx, Node.tallyList]

theorem tallyList_append {g : Str → Attrs → Nat} {f : Str → Nat} (a b : List Node) :
    Node.tallyList g f (a ++ b) = Node.tallyList g f a + Node.tallyList g f b := by
  simp [tallyList_eq]

/-- Nothing is lost and nothing doubled, whatever is counted. -/
theorem moved_tally (g : Str → Attrs → Nat) (f : Str → Nat) {d : Node} {ps : List Path} (hnd : ps.Nodup) (hroot : [] ∉ ps)
    (hel : ∀ p ∈ ps, d.ElemAt p) (n : Str) (as : Attrs) (us : List Node) :
    (d.cutAt ps []).tally g f + (Node.elem n as (us ++ d.pieces ps)).tally g f = d.tally g f + (Node.elem n as us).tally g f := by
  have h1 := (cut_tally (g := g) (f := f) hnd fun q hq => by
    obtain ⟨m, bs, cs, h⟩ := hel q hq
    rw [h]; rfl).1 d [] rfl
  rw [← pieces_tally hroot] at h1
  simp only [Node.tally, tallyList_append]
  have h2 : Node.tallyList g f (d.pieces ps) = Node.tallyList g f (ps.filterMap fun p => (d.at? p).map fun x => x.cutAt ps p) := rfl
  omega

/-! ### saving -/

theorem writableList_iff {ok : Str → Prop} : ∀ {l : List Node}, Node.WritableList ok l ↔ ∀ x ∈ l, x.WritableWith ok
  | [] => by simp [Node.WritableList]
  | x :: r => by simp [Node.WritableList, writableList_iff (l := r)]

theorem writable_below {ok : Str → Prop} : ∀ (p : Path) {d x : Node}, d.WritableWith ok → d.at? p = some x → x.WritableWith ok
  | [], d, x, hd, hx => by cases hx; exact hd
  | k :: r, d, x, hd, hx => by
    cases d with
    | text => simp [Node.at?, Node.xmlChildren] at hx
    | elem n as cs =>
      simp only [Node.at?, Node.xmlChildren] at hx
      cases hc : cs[k]? with
      | none => rw [hc] at hx; cases hx
      | some c =>
        rw [hc] at hx
        exact writable_below r (writableList_iff.1 hd.2.2.2 c (List.mem_of_getElem? hc)) hx

theorem joined_writable {d : Node} (hd : d.Writable) (ps : List Path) {n : Str} {as : Attrs} {us : List Node} (hu : (Node.elem n as us).Writable) :
    (Node.elem n as (us ++ d.pieces ps)).Writable := by
  refine ⟨hu.1, hu.2.1, hu.2.2.1, writableList_iff.2 fun x hx => ?_⟩
  rcases List.mem_append.1 hx with hx | hx
  · exact writableList_iff.1 hu.2.2.2 x hx
  · obtain ⟨p, y, _, h1, rfl⟩ := pieces_mem hx
    exact cut_writable.1 y p (writable_below p hd h1)

/-! ### the properties -/

/-- C178: moving loses nothing and doubles nothing.  After the loops, the document and the tree of `w` are trees `d1` and `e1` that together have
every tag and every text as often as the document and the tree of `w` had before.  If both could be written as MicroXML they still can: each of
the two, serialised and parsed again, is the tree in memory with adjacent texts merged. -/
theorem C178_nothing_lost (fo : FloatOps F) (k : Nat) {h : Heap} {T : Forest} (hs : EditSteps Heap.empty (fun _ => none) h T) {t0 : Id} {d : Node}
    (hT : T t0 = some d) (htx : d.isText = false) (hd : d.NoEmptyText) (hdict : d.Dicts) {w : Id} (hwt : w ≠ t0) {n : Str} {as : Attrs}
    {us : List Node} (hw : T w = some (.elem n as us)) (m : Str) {ts : Tests} (ht : ts.Ok) {wt : List (X.Tok F)} (hwr : WritesTests wt ts) {s : Str}
    (hq : X.Written fo (.abbrevSep :: X.nameTok m :: wt) s) :
    ∃ xs : List Id, (∀ j, d.count ≤ j → Mem.xmlXPath fo h j (fun _ => none) k t0 (.str s) = ⟨xs.map .obj, .done⟩) ∧
      ∀ h1 h2, RemoveAll h xs h1 → AppendAll w h1 xs h2 → ∃ d1 e1 : Node, Rep h2 none t0 d1 ∧ Rep h2 none w e1 ∧
        (∀ n' as', d1.tagCount n' as' + e1.tagCount n' as' = d.tagCount n' as' + (Node.elem n as us).tagCount n' as') ∧
        (∀ s', d1.textCount s' + e1.textCount s' = d.textCount s' + (Node.elem n as us).textCount s') ∧
        (d.Writable → (Node.elem n as us).Writable →
          (∀ b r b', TreeParse b d1.encode r b' → ∃ i, r = .returned (some i) ∧ Rep b'.heap none i d1.norm) ∧
          ∀ b r b', TreeParse b e1.encode r b' → ∃ i, r = .returned (some i) ∧ Rep b'.heap none i e1.norm) := by
  obtain ⟨ps, xs, a1, a2, _, a4, a5, a6⟩ := C178_moving fo k hs hT htx hd hdict hwt hw m ht hwr hq
  have hel : ∀ p ∈ ps, d.ElemAt p := fun p hp => named_elemAt ((a2 p).1 hp).1
  refine ⟨xs, a4, fun h1 h2 hr ha => ?_⟩
  obtain ⟨b1, b2, _, _⟩ := a6 h1 h2 hr ha
  have hroot : [] ∉ ps := fun hm => (a5.1 ⟨h1, h2, hr, ha⟩) ((a2 []).1 hm)
  refine ⟨_, _, b1, b2, fun n' as' => moved_tally _ _ a1 hroot hel n as us, fun s' => moved_tally _ _ a1 hroot hel n as us, fun w1 w2 => ⟨fun b r b' hp => ?_, fun b r b' hp => ?_⟩⟩
  · exact C15_serialise_then_parse (cut_writable.1 d [] w1) (cut_isText htx ps []) hp
  · exact C15_serialise_then_parse (joined_writable w1 ps w2) rfl hp

-- the counts see something, and the trees of the example of C178_moving can be written (its other hypotheses are met there)
example : (Node.elem ['r'] [] [.elem ['b'] [] [.text ['x']], .text ['x'], .elem ['b'] [] []]).tagCount ['b'] [] = 2 ∧
    (Node.elem ['r'] [] [.elem ['b'] [] [.text ['x']], .text ['x'], .elem ['b'] [] []]).textCount ['x'] = 2 ∧
    (Node.elem ['r'] [] [.elem ['b'] [] []]).Writable ∧ (Node.elem ['w'] [] []).Writable := by
  refine ⟨by simp [Node.tagCount, Node.tally, Node.tallyList], by simp [Node.textCount, Node.tally, Node.tallyList], ?_, ?_⟩ <;>
    simp only [Node.Writable, Node.WritableWith, Node.WritableList] <;> refine ⟨by decide, by simp, by simp, ?_⟩
  · exact ⟨⟨by decide, by simp, by simp, trivial⟩, trivial⟩
  · trivial

end Amara
