import Verif.Spec.SendersMem
import Verif.Lemmas.SenderMem
/-
Lemmas about a sender with several patterns in memory.
-/
namespace Amara

/-! ### what is reachable from one object -/

theorem from_mono {h h' : Heap} {q : Id} (hs : ∀ k, Reachable h [q] k → h'.obj k = h.obj k) {k} (hk : Reachable h [q] k) :
    Reachable h' [q] k := by
  induction hk with
  | root hm => exact .root hm
  | @child i c hr hc ih =>
    refine .child ih ?_
    simpa [Heap.children, hs i hr] using hc

theorem from_back {h h' : Heap} {q : Id} (hs : ∀ k, Reachable h [q] k → h'.obj k = h.obj k) {k} (hk : Reachable h' [q] k) :
    Reachable h [q] k := by
  induction hk with
  | root hm => exact .root hm
  | @child i c hr hc ih =>
    refine .child ih ?_
    simpa [Heap.children, hs i ih] using hc

theorem from_trans {h : Heap} {q i k : Id} (hi : Reachable h [q] i) (hk : Reachable h [i] k) : Reachable h [q] k := by
  induction hk with
  | root hm => rw [List.mem_singleton.1 hm]; exact hi
  | child _ hc ih => exact .child ih hc

theorem from_mem {h : Heap} {roots : List Id} {q k : Id} (hq : q ∈ roots) (hk : Reachable h [q] k) : Reachable h roots k :=
  reachable_mono (fun i hi => by rw [List.mem_singleton.1 hi]; exact hq) hk

theorem from_split {h : Heap} {roots : List Id} {k : Id} (hk : Reachable h roots k) : ∃ q ∈ roots, Reachable h [q] k := by
  induction hk with
  | root hm => exact ⟨_, hm, .root (by simp)⟩
  | child _ hc ih =>
    obtain ⟨q, h1, h2⟩ := ih
    exact ⟨q, h1, .child h2 hc⟩

theorem from_leaf {h : Heap} {c k : Id} (hc : h.children c = []) (hk : Reachable h [c] k) : k = c := by
  induction hk with
  | root hm => exact List.mem_singleton.1 hm
  | child _ hm ih => rw [ih, hc] at hm; cases hm

theorem append_children (h : Heap) (i c j : Id) : ∀ x ∈ (h.append i c).children j, x ∈ h.children j ∨ x = c ∧ j = i := by
  intro x hx
  by_cases hj : j = i
  · subst hj
    unfold Heap.append at hx
    split at hx
    · rename_i n as cs q ho
      simp only [Heap.children, set_obj, if_true, Option.map_some, Obj.kids, Option.getD_some, List.mem_append,
        List.mem_singleton] at hx
      rcases hx with hx | hx
      · exact .inl (by simpa [Heap.children, ho, Obj.kids] using hx)
      · exact .inr ⟨hx, rfl⟩
    · exact .inl hx
  · simp only [Heap.children, append_obj_ne h hj] at hx
    exact .inl hx

theorem from_append {h : Heap} {q i c k : Id} (hc : h.children c = []) (hci : c ≠ i) (hk : Reachable (h.append i c) [q] k) :
    Reachable h [q] k ∨ k = c := by
  induction hk with
  | root hm => exact .inl (.root hm)
  | @child a b _ hm ih =>
    rcases ih with ih | ih
    · rcases append_children h i c a b hm with h1 | h1
      · exact .inl (.child ih h1)
      · exact .inr h1.1
    · subst ih
      rcases append_children h i a a b hm with h1 | h1
      · rw [hc] at h1; cases h1
      · exact .inr h1.1

/-! ### the invariant -/

/-- The last tree sent to sink `j`. -/
def lastTo (j : Nat) (xs : List (Nat × Node)) : Option Node := (xs.filter fun x => x.1 == j).getLast?.map (·.2)

/-- Everything held between events: the tops, and what was sent if it is kept. -/
def MMem.All (keep : Bool) (s : MMem) (q : Id) : Prop :=
  (∃ j, s.roots j = some q) ∨ (keep = true ∧ ∃ p ∈ s.sent, p.2.1 = q)

/-- All but the top of pattern `j`. -/
def MMem.Other (keep : Bool) (s : MMem) (j : Nat) (q : Id) : Prop :=
  (∃ j', j' ≠ j ∧ s.roots j' = some q) ∨ (keep = true ∧ ∃ p ∈ s.sent, p.2.1 = q)

theorem other_all {keep s j q} (h : MMem.Other keep s j q) : MMem.All keep s q :=
  h.imp (fun ⟨j', _, h⟩ => ⟨j', h⟩) id

theorem all_cases {keep : Bool} {s : MMem} {j q} (h : MMem.All keep s q) : s.roots j = some q ∨ MMem.Other keep s j q := by
  rcases h with ⟨j', h⟩ | h
  · by_cases e : j' = j
    · subst e; exact .inl h
    · exact .inr (.inl ⟨j', e, h⟩)
  · exact .inr (.inr h)

/-- What belongs to one pattern, without the shared variables. -/
def MMem.cell (s : MMem) (j : Nat) : Builder := ⟨s.heap, s.roots j, s.parents j, none, none⟩

/-- One pattern between events. -/
def CellOk (b : Building) (last : Option Node) (c : Builder) : Prop :=
  b.base = none ∧ b.depth = b.open_.length ∧
    (b.open_ ≠ [] ∧ Chain b.open_ c ∨
      b.open_ = [] ∧ c.parent = none ∧ (c.root = none ∧ last = none ∨ ∃ x, last = some x ∧ Finished x c))

theorem chain_from {fs : List Frame} {c : Builder} {r : Id} (hc : Chain fs c) (hr : c.root = some r) :
    ∀ i, c.parent = some i → Reachable c.heap [r] i := by
  obtain ⟨r', i, h1, h2, h3⟩ := hc
  rw [hr] at h1
  cases h1
  intro j hj
  rw [h2] at hj
  cases hj
  exact (spine_reach h3 (.root (by simp))).1

theorem cellOk_same {b : Building} {last : Option Node} {c : Builder} {h' : Heap} (hc : CellOk b last c)
    (hn : c.newElement = none ∧ c.newText = none) (hle : c.heap.next ≤ h'.next)
    (hs : ∀ q, c.root = some q → ∀ k, Reachable c.heap [q] k → h'.obj k = c.heap.obj k) :
    CellOk b last { c with heap := h' } := by
  obtain ⟨h1, h2, h3⟩ := hc
  refine ⟨h1, h2, ?_⟩
  have hd : (∀ i, c.parent = some i → ∃ r, c.root = some r ∧ Reachable c.heap [r] i) → Disturbed c.roots c.heap h' := by
    intro hp
    refine ⟨hle, fun k hk => ?_⟩
    obtain ⟨q, hq, hk⟩ := from_split hk
    simp only [Builder.roots, hn.1, hn.2, Option.toList_none, List.append_nil, List.mem_append,
      Option.mem_toList] at hq
    rcases hq with hq | hq
    · exact hs q hq k hk
    · obtain ⟨r, h4, h5⟩ := hp q hq
      exact hs r h4 k (from_trans h5 hk)
  rcases h3 with ⟨h3, h4⟩ | ⟨h3, h4, h5⟩
  · refine .inl ⟨h3, stable_chain _ _ _ h4 (hd fun i hi => ?_)⟩
    obtain ⟨r, -, e, -⟩ := id h4
    exact ⟨r, e, chain_from h4 e i hi⟩
  · refine .inr ⟨h3, h4, h5.imp id ?_⟩
    rintro ⟨x, h6, h7⟩
    exact ⟨x, h6, stable_finished _ _ _ h7 (hd fun i hi => by rw [h4] at hi; cases hi)⟩

/-- What was sent. -/
def MSent (keep : Bool) (h : Heap) : List (Nat × Id × Heap) → List (Nat × Node) → Prop
  | [], [] => True
  | p :: ps, x :: xs => p.1 = x.1 ∧ Rep p.2.2 none p.2.1 x.2 ∧ (keep = true → RepTop h p.2.1 x.2) ∧ MSent keep h ps xs
  | _, _ => False

theorem repTop_same {h h' : Heap} {r : Id} {x : Node} (hr : RepTop h r x) (hle : h.next ≤ h'.next)
    (hs : ∀ k, Reachable h [r] k → h'.obj k = h.obj k) : RepTop h' r x := by
  have := stable_finished x ⟨h, some r, none, none, none⟩ h' ⟨r, rfl, rfl, hr⟩ ⟨hle, fun k hk => hs k hk⟩
  obtain ⟨r', e, -, h1⟩ := this
  cases e
  exact h1

theorem mSent_same {keep : Bool} {h h' : Heap} (hle : h.next ≤ h'.next) : ∀ {ps xs}, MSent keep h ps xs →
    (keep = true → ∀ p ∈ ps, ∀ k, Reachable h [p.2.1] k → h'.obj k = h.obj k) → MSent keep h' ps xs
  | [], [], _, _ => trivial
  | p :: _, _ :: _, hk, hs => ⟨hk.1, hk.2.1, fun e => repTop_same (hk.2.2.1 e) hle (hs e p (by simp)),
      mSent_same hle hk.2.2.2 fun e q hq => hs e q (by simp [hq])⟩
  | [], _ :: _, hk, _ => hk.elim
  | _ :: _, [], hk, _ => hk.elim

theorem mSent_snoc {keep : Bool} {h : Heap} {p x} : ∀ {ps xs}, MSent keep h ps xs → p.1 = x.1 → Rep p.2.2 none p.2.1 x.2 →
    (keep = true → RepTop h p.2.1 x.2) → MSent keep h (ps ++ [p]) (xs ++ [x])
  | [], [], _, h1, h2, h3 => ⟨h1, h2, h3, trivial⟩
  | _ :: _, _ :: _, hk, h1, h2, h3 => ⟨hk.1, hk.2.1, hk.2.2.1, mSent_snoc hk.2.2.2 h1 h2 h3⟩
  | [], _ :: _, hk, _, _, _ => hk.elim
  | _ :: _, [], hk, _, _, _ => hk.elim

/-- Everything but what belongs to pattern `ix` itself. -/
structure MFrame (n : Nat) (keep : Bool) (bs : Nat → Building) (xs : List (Nat × Node)) (ix : Nat) (s : MMem) : Prop where
  few : ∀ j, n ≤ j → s.roots j = none
  below : ∀ q, s.All keep q → ∀ k, Reachable s.heap [q] k → k < s.heap.next
  cells : ∀ j, j ≠ ix → CellOk (bs j) (lastTo j xs) (s.cell j)
  sent : MSent keep s.heap s.sent xs
  sep : ∀ j, (bs j).open_ ≠ [] → ∀ r, s.roots j = some r → ∀ q, s.Other keep j q → ∀ k, Reachable s.heap [r] k →
    ¬ Reachable s.heap [q] k
  apart : keep = true → s.sent.Pairwise fun p p' => ∀ k, Reachable s.heap [p.2.1] k → ¬ Reachable s.heap [p'.2.1] k

variable {n : Nat} {keep : Bool} {bs : Nat → Building} {xs : List (Nat × Node)} {ix : Nat} {s : MMem}

/-- The frame depends on nothing else. -/
theorem frame_congr {s' : MMem} (hf : MFrame n keep bs xs ix s) (h1 : s'.heap = s.heap) (h2 : s'.roots = s.roots)
    (h3 : s'.sent = s.sent) (h4 : ∀ j, j ≠ ix → s'.parents j = s.parents j) : MFrame n keep bs xs ix s' := by
  have ha : ∀ q, s'.All keep q = s.All keep q := fun q => by simp [MMem.All, h2, h3]
  have ho : ∀ j q, s'.Other keep j q = s.Other keep j q := fun j q => by simp [MMem.Other, h2, h3]
  refine ⟨by rw [h2]; exact hf.few, ?_, fun j hj => ?_, by rw [h1, h3]; exact hf.sent, ?_, ?_⟩
  · intro q hq
    rw [h1]
    rw [ha] at hq
    exact hf.below q hq
  · have := hf.cells j hj
    simpa [MMem.cell, h1, h2, h4 j hj] using this
  · intro j hj r hr q hq
    rw [h1]
    rw [h2] at hr
    rw [ho] at hq
    exact hf.sep j hj r hr q hq
  · rw [h1, h3]
    exact hf.apart

/-- What leaves alone all that is held. -/
theorem frame_same {h' : Heap} (hf : MFrame n keep bs xs ix s) (hle : s.heap.next ≤ h'.next)
    (hs : ∀ q, s.All keep q → ∀ k, Reachable s.heap [q] k → h'.obj k = s.heap.obj k) :
    MFrame n keep bs xs ix { s with heap := h' } := by
  refine ⟨hf.few, ?_, fun j hj => ?_, ?_, ?_, fun hk => ?_⟩
  · intro q hq k hk
    exact Nat.lt_of_lt_of_le (hf.below q hq k (from_back (hs q hq) hk)) hle
  · exact cellOk_same (hf.cells j hj) ⟨rfl, rfl⟩ hle fun q hq => hs q (.inl ⟨j, hq⟩)
  · exact mSent_same hle hf.sent fun e p hp => hs _ (.inr ⟨e, p, hp, rfl⟩)
  · intro j hj r hr q hq k h1 h2
    exact hf.sep j hj r hr q hq k (from_back (hs r (.inl ⟨j, hr⟩)) h1) (from_back (hs q (other_all hq)) h2)
  · refine List.Pairwise.imp_of_mem ?_ (hf.apart hk)
    intro p p' hp hp' h1 k h2 h3
    exact h1 k (from_back (hs _ (.inr ⟨hk, p, hp, rfl⟩)) h2) (from_back (hs _ (.inr ⟨hk, p', hp', rfl⟩)) h3)

theorem frame_alloc (hf : MFrame n keep bs xs ix s) (o : Obj) : MFrame n keep bs xs ix { s with heap := s.heap.alloc o } :=
  frame_same hf (Nat.le_succ _) fun q hq k hk => by
    rw [alloc_obj, if_neg (Nat.ne_of_lt (hf.below q hq k hk))]

/-- A new object: nothing else leads to it. -/
def MFresh (keep : Bool) (ix : Nat) (s : MMem) (c : Id) : Prop := ∀ q, s.Other keep ix q → ¬ Reachable s.heap [q] c

theorem fresh_alloc (hf : MFrame n keep bs xs ix s) (o : Obj) (e : Option Id) (t : Option Id) :
    MFresh keep ix { s with heap := s.heap.alloc o, newElement := e, newText := t } s.heap.next := by
  intro q hq hk
  have hs : ∀ k, Reachable s.heap [q] k → (s.heap.alloc o).obj k = s.heap.obj k := fun k hk => by
    rw [alloc_obj, if_neg (Nat.ne_of_lt (hf.below q (other_all hq) k hk))]
  exact Nat.lt_irrefl _ (hf.below q (other_all hq) _ (from_back hs hk))

/-- A new object is appended inside the tree of pattern `ix`. -/
theorem frame_link {r i c : Id} (hf : MFrame n keep bs xs ix s) (hb : (bs ix).open_ ≠ []) (hr : s.roots ix = some r)
    (hi : Reachable s.heap [r] i) (hlt : c < s.heap.next) (hc : s.heap.children c = []) (hci : c ≠ i)
    (hn : MFresh keep ix s c) : MFrame n keep bs xs ix { s with heap := s.heap.append i c } := by
  have same : ∀ q, s.Other keep ix q → ∀ k, Reachable s.heap [q] k → (s.heap.append i c).obj k = s.heap.obj k := by
    intro q hq k hk
    refine append_obj_ne _ ?_
    rintro rfl
    exact hf.sep ix hb r hr q hq k hi hk
  refine ⟨hf.few, ?_, fun j hj => ?_, ?_, ?_, fun hk => ?_⟩
  · intro q hq k hk
    show k < (s.heap.append i c).next
    rw [append_next]
    rcases from_append hc hci hk with h | h
    · exact hf.below q hq k h
    · rw [h]; exact hlt
  · exact cellOk_same (hf.cells j hj) ⟨rfl, rfl⟩ (Nat.le_of_eq (append_next ..).symm) fun q hq => same q (.inl ⟨j, hj, hq⟩)
  · exact mSent_same (Nat.le_of_eq (append_next ..).symm) hf.sent fun e p hp => same _ (.inr ⟨e, p, hp, rfl⟩)
  · intro j hj r' hr' q hq k h1 h2
    by_cases e : j = ix
    · subst e
      have h2' := from_back (same q hq) h2
      rw [hr] at hr'
      cases hr'
      rcases from_append hc hci h1 with h1 | h1
      · exact hf.sep j hj r hr q hq k h1 h2'
      · rw [h1] at h2'
        exact hn q hq h2'
    · have ho : s.Other keep ix r' := .inl ⟨j, e, hr'⟩
      have h1' := from_back (same r' ho) h1
      rcases from_append hc hci h2 with h2 | h2
      · exact hf.sep j hj r' hr' q hq k h1' h2
      · rw [h2] at h1'
        exact hn r' ho h1'
  · refine List.Pairwise.imp_of_mem ?_ (hf.apart hk)
    intro p p' hp hp' h1 k h2 h3
    exact h1 k (from_back (same _ (.inr ⟨hk, p, hp, rfl⟩)) h2) (from_back (same _ (.inr ⟨hk, p', hp', rfl⟩)) h3)

/-- A new object becomes the top of pattern `ix`. -/
theorem frame_root {c : Id} {b : Building} (hf : MFrame n keep bs xs ix s) (hix : ix < n) (hlt : c < s.heap.next)
    (hc : s.heap.children c = []) (hn : MFresh keep ix s c) :
    MFrame n keep (fun j => if j = ix then b else bs j) xs ix
      { s with roots := fun j => if j = ix then some c else s.roots j } := by
  have hoth : ∀ j q, MMem.Other keep { s with roots := fun j => if j = ix then some c else s.roots j } j q →
      q = c ∧ j ≠ ix ∨ s.Other keep j q ∧ (j ≠ ix → True) := by
    intro j q hq
    rcases hq with ⟨j', h1, h2⟩ | h
    · simp only at h2
      by_cases e : j' = ix
      · subst e
        simp only [if_true, Option.some.injEq] at h2
        exact .inl ⟨h2.symm, fun e => h1 e.symm⟩
      · rw [if_neg e] at h2
        exact .inr ⟨.inl ⟨j', h1, h2⟩, fun _ => trivial⟩
    · exact .inr ⟨.inr h, fun _ => trivial⟩
  refine ⟨?_, ?_, ?_, hf.sent, ?_, hf.apart⟩
  · intro j hj
    simp only
    rw [if_neg (by omega), hf.few j hj]
  · intro q hq k hk
    rcases hq with ⟨j, h⟩ | h
    · simp only at h
      split at h
      · cases h
        rw [from_leaf hc hk]
        exact hlt
      · exact hf.below q (.inl ⟨j, h⟩) k hk
    · exact hf.below q (.inr h) k hk
  · intro j hj
    have := hf.cells j hj
    simpa [MMem.cell, hj] using this
  · intro j hj r hr q hq k h1 h2
    simp only at hr hj
    by_cases e : j = ix
    · subst e
      simp only [if_true, Option.some.injEq] at hr
      subst hr
      rw [from_leaf hc h1] at h2
      rcases hoth _ q hq with ⟨-, h⟩ | h
      · exact h rfl
      · exact hn q h.1 h2
    · rw [if_neg e] at hr hj
      rcases hoth _ q hq with ⟨rfl, -⟩ | h
      · rw [from_leaf hc h2] at h1
        exact hn r (.inl ⟨j, e, hr⟩) h1
      · exact hf.sep j hj r hr q h.1 k h1 h2

theorem lastTo_ne {j i : Nat} {x : Node} (h : i ≠ j) (xs : List (Nat × Node)) : lastTo j (xs ++ [(i, x)]) = lastTo j xs := by
  simp [lastTo, List.filter_append, h]

theorem lastTo_eq {j : Nat} {x : Node} (xs : List (Nat × Node)) : lastTo j (xs ++ [(j, x)]) = some x := by
  simp [lastTo, List.filter_append]

/-- The tree of pattern `ix` is sent. -/
theorem frame_sent {r : Id} {x : Node} {b : Building} (hf : MFrame n keep bs xs ix s) (hb : (bs ix).open_ ≠ [])
    (hb' : b.open_ = []) (hr : s.roots ix = some r) (hx : RepTop s.heap r x) :
    MFrame n keep (fun j => if j = ix then b else bs j) (xs ++ [(ix, x)]) ix { s with sent := s.sent ++ [(ix, r, s.heap)] } := by
  have hall : ∀ q, MMem.All keep { s with sent := s.sent ++ [(ix, r, s.heap)] } q → s.All keep q := by
    rintro q (h | ⟨hk, p, hp, e⟩)
    · exact .inl h
    · simp only [List.mem_append, List.mem_singleton] at hp
      rcases hp with hp | hp
      · exact .inr ⟨hk, p, hp, e⟩
      · subst hp
        exact .inl ⟨ix, by rw [hr]; exact congrArg some e⟩
  refine ⟨hf.few, fun q hq => hf.below q (hall q hq), ?_, ?_, ?_, fun hk => ?_⟩
  · intro j hj
    simp only [if_neg hj]
    rw [lastTo_ne (fun e => hj e.symm)]
    exact hf.cells j hj
  · exact mSent_snoc hf.sent rfl (repTop_rep hx) fun _ => hx
  · intro j hj r' hr' q hq
    by_cases e : j = ix
    · rw [if_pos e] at hj
      exact absurd hb' hj
    · rw [if_neg e] at hj
      refine hf.sep j hj r' hr' q ?_
      rcases hq with h | ⟨hk, p, hp, e'⟩
      · exact .inl h
      · simp only [List.mem_append, List.mem_singleton] at hp
        rcases hp with hp | hp
        · exact .inr ⟨hk, p, hp, e'⟩
        · subst hp
          exact .inl ⟨ix, fun h => e h.symm, by rw [hr]; exact congrArg some e'⟩
  · refine List.pairwise_append.2 ⟨hf.apart hk, List.pairwise_singleton .., fun p hp p' hp' k h1 h2 => ?_⟩
    rw [List.mem_singleton.1 hp'] at h2
    exact hf.sep ix hb r hr _ (.inr ⟨hk, p, hp, rfl⟩) k h2 h1

/-! ### stability -/

def MStable (n : Nat) (keep : Bool) (P : MMem → Prop) : Prop :=
  ∀ s h, P s → Disturbed (s.refs n keep) s.heap h → P { s with heap := h }

theorem refs_cell {j : Nat} {q : Id} (hj : j < n) (h : s.roots j = some q ∨ s.parents j = some q) : q ∈ s.refs n keep := by
  simp only [MMem.refs, List.mem_append, List.mem_flatMap, List.mem_range]
  refine .inl (.inr ⟨j, hj, ?_⟩)
  rcases h with h | h <;> simp [h]

theorem refs_all {q : Id} (hf : ∀ j, n ≤ j → s.roots j = none) (h : s.All keep q) : q ∈ s.refs n keep := by
  rcases h with ⟨j, h⟩ | ⟨hk, p, hp, e⟩
  · refine refs_cell ?_ (.inl h)
    apply Nat.lt_of_not_le
    intro hle
    rw [hf j hle] at h
    cases h
  · simp only [MMem.refs, hk, if_true, List.mem_append, List.mem_map]
    exact .inr ⟨p, hp, e⟩

theorem mstable_frame (n keep bs xs ix) : MStable n keep (MFrame n keep bs xs ix) := fun _ _ hf hd =>
  frame_same hf hd.1 fun _ hq k hk => hd.2 k (from_mem (refs_all hf.few hq) hk)

theorem mstable_own {P : Builder → Prop} (hP : Stable P) (hix : ix < n) : MStable n keep (fun s => P (s.turn ix).mem) := by
  intro s h hp hd
  refine hP _ _ hp (disturbed_less (fun i hi => ?_) hd)
  simp only [Builder.roots, MMem.turn, List.mem_append, Option.mem_toList] at hi
  rcases hi with ((hi | hi) | hi) | hi
  · exact refs_cell hix (.inl hi)
  · exact refs_cell hix (.inr hi)
  · simp [MMem.refs, Option.mem_def.1 hi]
  · simp [MMem.refs, Option.mem_def.1 hi]

theorem mstable_and {P Q : MMem → Prop} (hP : MStable n keep P) (hQ : MStable n keep Q) :
    MStable n keep (fun s => P s ∧ Q s) := fun s h hp hd => ⟨hP s h hp.1 hd, hQ s h hp.2 hd⟩

/-- The frame, and a new object. -/
def FrameNew (n : Nat) (keep : Bool) (bs : Nat → Building) (xs : List (Nat × Node)) (ix : Nat) (f : MMem → Option Id)
    (s : MMem) : Prop := MFrame n keep bs xs ix s ∧ ∀ c, f s = some c → MFresh keep ix s c

theorem mstable_new (n keep bs xs ix) {f : MMem → Option Id} (hf : ∀ s h, f { s with heap := h } = f s) :
    MStable n keep (FrameNew n keep bs xs ix f) := by
  rintro s h ⟨h1, h2⟩ hd
  refine ⟨mstable_frame n keep bs xs ix s h h1 hd, fun c hc q hq hk => ?_⟩
  rw [hf] at hc
  exact h2 c hc q hq (from_back (fun k hk => hd.2 k (from_mem (refs_all h1.few (other_all hq)) hk)) hk)

def TextOk (s : MMem) : Prop := ∀ k, s.newText = some k → k < s.heap.next ∧ ∃ t p, s.heap.obj k = some (.text t p)

def ElemOk (s : MMem) : Prop := ∀ k, s.newElement = some k → ∃ j r, s.roots j = some r ∧ Reachable s.heap [r] k

theorem mstable_text (n keep) : MStable n keep TextOk := by
  intro s h ht hd k hk
  obtain ⟨h1, t, p, h2⟩ := ht k hk
  refine ⟨Nat.lt_of_lt_of_le h1 hd.1, t, p, ?_⟩
  show h.obj k = _
  rw [hd.2 k (.root (by simp [MMem.refs, show s.newText = some k from hk])), h2]

theorem mstable_elem (n keep bs xs ix) : MStable n keep (fun s => MFrame n keep bs xs ix s ∧ ElemOk s) := by
  rintro s h ⟨h1, h2⟩ hd
  refine ⟨mstable_frame n keep bs xs ix s h h1 hd, fun k hk => ?_⟩
  obtain ⟨j, r, h3, h4⟩ := h2 k hk
  exact ⟨j, r, h3, from_mono (fun k hk => hd.2 k (from_mem (refs_all h1.few (.inl ⟨j, h3⟩)) hk)) h4⟩

variable {D : List Id → Heap → Heap → Prop}

theorem mruns_op (hD : Harmless D) {P : MMem → Prop} (hP : MStable n keep P) {ops' s s'}
    (h : MRuns D n keep ix ops' s s') : ∀ {o ops}, ops' = o :: ops → P s → ∃ s₁, P s₁ ∧ MRuns D n keep ix ops (s₁.exec ix o) s' := by
  induction h with
  | done => intro o ops h; cases h
  | other hd _ ih => intro o ops h hb; exact ih h (hP _ _ hb (hD _ _ _ hd))
  | op hr _ => intro o ops h hb; cases h; exact ⟨_, hb, hr⟩

theorem mruns_end (hD : Harmless D) {P : MMem → Prop} (hP : MStable n keep P) {ops' s s'}
    (h : MRuns D n keep ix ops' s s') : ops' = [] → P s → P s' := by
  induction h with
  | done => intro _ hb; exact hb
  | other hd _ ih => intro h hb; exact ih h (hP _ _ hb (hD _ _ _ hd))
  | op => intro h; cases h

/-! ### the assignments -/

theorem upd_same (f : Nat → Option Id) (ix : Nat) : (fun j => if j = ix then f ix else f j) = f := by
  funext j
  split
  · rename_i e; rw [e]
  · rfl

theorem exec_turn (s : MMem) (ix : Nat) (o : SOp) : ((s.exec ix o).turn ix).mem = (o.exec (s.turn ix)).mem := by
  simp [MMem.exec, MMem.turn]

theorem exec_make (s : MMem) (ix : Nat) (m : Str) (as : Attrs) : s.exec ix (.make m as) =
    { s with heap := s.heap.alloc (.elem m as [] (s.parents ix)), newElement := some s.heap.next } := by
  simp [MMem.exec, SOp.exec, Op.exec, MMem.turn, upd_same]

theorem exec_makeText (s : MMem) (ix : Nat) (t : Str) : s.exec ix (.makeText t) =
    { s with heap := s.heap.alloc (.text t (s.parents ix)), newText := some s.heap.next } := by
  simp [MMem.exec, SOp.exec, Op.exec, MMem.turn, upd_same]

theorem exec_link {s : MMem} {ix : Nat} {i c : Id} (h1 : s.parents ix = some i) (h2 : s.newElement = some c) :
    s.exec ix .link = { s with heap := s.heap.append i c } := by
  obtain ⟨h, roots, parents, ne, nt, sent⟩ := s
  simp only at h1 h2
  subst h2
  have := upd_same parents ix
  rw [h1] at this
  simp [MMem.exec, SOp.exec, Op.exec, MMem.turn, upd_same, h1, this]

theorem exec_linkNone {s : MMem} {ix : Nat} (h1 : s.parents ix = none) : s.exec ix .link = s := by
  obtain ⟨h, roots, parents, ne, nt, sent⟩ := s
  simp only at h1
  have := upd_same parents ix
  rw [h1] at this
  simp [MMem.exec, SOp.exec, Op.exec, MMem.turn, upd_same, h1, this]

theorem exec_linkText {s : MMem} {ix : Nat} {i c : Id} (h1 : s.parents ix = some i) (h2 : s.newText = some c) :
    s.exec ix .linkText = { s with heap := s.heap.append i c } := by
  obtain ⟨h, roots, parents, ne, nt, sent⟩ := s
  simp only at h1 h2
  subst h2
  have := upd_same parents ix
  rw [h1] at this
  simp [MMem.exec, SOp.exec, Op.exec, MMem.turn, upd_same, h1, this]

theorem exec_down (s : MMem) (ix : Nat) : s.exec ix .down =
    { s with parents := fun j => if j = ix then s.newElement else s.parents j } := by
  simp [MMem.exec, SOp.exec, Op.exec, MMem.turn, upd_same]

theorem exec_setRoot (s : MMem) (ix : Nat) : s.exec ix .setRoot =
    { s with roots := fun j => if j = ix then s.newElement else s.roots j } := by
  simp [MMem.exec, SOp.exec, MMem.turn, upd_same]

theorem exec_send {s : MMem} {ix : Nat} {i : Id} (h1 : s.parents ix = some i) : s.exec ix .send =
    { s with sent := s.sent ++ [(ix, i, s.heap)] } := by
  obtain ⟨h, roots, parents, ne, nt, sent⟩ := s
  simp only at h1
  have := upd_same parents ix
  rw [h1] at this
  simp [MMem.exec, SOp.exec, MMem.turn, upd_same, h1, this]

theorem exec_up (s : MMem) (ix : Nat) : ∃ v, s.exec ix .up =
    { s with parents := fun j => if j = ix then v else s.parents j } := by
  refine ⟨(Op.exec (s.turn ix).mem .moveUp).parent, ?_⟩
  have h1 := moveUp_fields (s.turn ix).mem
  have h2 : (Op.exec (s.turn ix).mem .moveUp).newElement = s.newElement ∧
      (Op.exec (s.turn ix).mem .moveUp).newText = s.newText := by
    simp only [Op.exec]
    split <;> exact ⟨rfl, rfl⟩
  simp only [MMem.exec, SOp.exec, h1.1, h1.2, h2.1, h2.2]
  simp [MMem.turn, upd_same]

/-! ### events -/

def FirstB (m : Str) (as : Attrs) (b : Builder) : Prop :=
  b.parent = none ∧ ∃ k, b.newElement = some k ∧ k < b.heap.next ∧ b.heap.obj k = some (.elem m as [] none)

def DownB (m : Str) (as : Attrs) (b : Builder) : Prop :=
  ∃ k, b.parent = some k ∧ b.newElement = some k ∧ k < b.heap.next ∧ b.heap.obj k = some (.elem m as [] none)

def IdleB (b : Builder) : Prop := b.parent = none

theorem stable_idleB : Stable IdleB := fun _ _ h _ => h

theorem stable_firstB (m as) : Stable (FirstB m as) := by
  rintro b h ⟨h2, k, h3, h4, h5⟩ hc
  exact ⟨h2, k, h3, Nat.lt_of_lt_of_le h4 hc.1, by
    show h.obj k = _
    rw [collected_same hc (mem_roots_new h3), h5]⟩

theorem stable_downB (m as) : Stable (DownB m as) := by
  rintro b h ⟨k, h2, h3, h4, h5⟩ hc
  exact ⟨k, h2, h3, Nat.lt_of_lt_of_le h4 hc.1, by
    show h.obj k = _
    rw [collected_same hc (mem_roots_new h3), h5]⟩

theorem leaf_of {h : Heap} {c : Id} {o : Obj} (ho : h.obj c = some o) (hk : o.kids = []) : h.children c = [] := by
  simp [Heap.children, ho, hk]

theorem text_make {m as} (h : TextOk s) : TextOk (s.exec ix (.make m as)) := by
  rw [exec_make]
  exact fun k hk => ⟨Nat.lt_succ_of_lt (h k hk).1, text_alloc (h k hk).2 (h k hk).1⟩

theorem text_heapAppend {i c : Id} (h : TextOk s) : TextOk { s with heap := s.heap.append i c } := by
  intro k hk
  refine ⟨?_, text_append (h k hk).2⟩
  show k < (s.heap.append i c).next
  rw [append_next]
  exact (h k hk).1

/-- The first element of a subtree. -/
theorem mruns_first (hD : Harmless D) (hix : ix < n) {m as s'} (b : Building) (hf : MFrame n keep bs xs ix s)
    (hp : s.parents ix = none) (ht : TextOk s) (hr : MRuns D n keep ix [.make m as, .link, .down, .setRoot] s s') :
    (MFrame n keep (fun j => if j = ix then b else bs j) xs ix s' ∧ ElemOk s') ∧ TextOk s' ∧ Chain [(m, as, [])] (s'.turn ix).mem := by
  have t := mstable_text n keep
  have new := mstable_new n keep bs xs ix (f := MMem.newElement) fun _ _ => rfl
  obtain ⟨s1, ⟨h1, t1, o1⟩, hr⟩ := mruns_op hD (mstable_and (mstable_frame n keep bs xs ix) (mstable_and t
    (mstable_own stable_idleB hix))) hr rfl ⟨hf, ht, hp⟩
  have o1' : s1.parents ix = none := o1
  obtain ⟨s2, ⟨h2, t2, o2⟩, hr⟩ := mruns_op hD (mstable_and new (mstable_and t (mstable_own (stable_firstB m as) hix))) hr rfl
    ⟨by
      rw [exec_make]
      refine ⟨frame_congr (frame_alloc h1 (.elem m as [] (s1.parents ix))) rfl rfl rfl fun _ _ => rfl, fun c hc => ?_⟩
      cases hc
      exact fresh_alloc h1 _ _ s1.newText, text_make t1, by
      rw [exec_make, o1']
      exact ⟨o1, s1.heap.next, rfl, Nat.lt_succ_self _, by simp [MMem.turn, alloc_obj]⟩⟩
  rw [exec_linkNone o2.1] at hr
  obtain ⟨s3, ⟨h3, t3, o3⟩, hr⟩ := mruns_op hD (mstable_and new (mstable_and t (mstable_own (stable_firstB m as) hix))) hr rfl
    ⟨h2, t2, o2⟩
  obtain ⟨s4, ⟨h4, t4, o4⟩, hr⟩ := mruns_op hD (mstable_and new (mstable_and t (mstable_own (stable_downB m as) hix))) hr rfl
    ⟨by
      rw [exec_down]
      exact ⟨frame_congr h3.1 rfl rfl rfl fun j hj => by simp [hj], h3.2⟩, by rw [exec_down]; exact t3, by
      rw [exec_down]
      obtain ⟨-, k, e1, e2, e3⟩ := o3
      exact ⟨k, by simp only [MMem.turn, if_true]; exact e1, e1, e2, e3⟩⟩
  obtain ⟨k, e1, e2, e3, e4⟩ := o4
  have e2' : s4.newElement = some k := e2
  have e4' : s4.heap.obj k = some (.elem m as [] none) := e4
  refine and_assoc.1 (mruns_end hD (mstable_and (mstable_and (mstable_elem n keep _ xs ix) t) (mstable_own (stable_chain _) hix))
    hr rfl ⟨⟨⟨?_, ?_⟩, ?_⟩, ?_⟩)
  · rw [exec_setRoot, e2']
    exact frame_congr (frame_root h4.1 hix e3 (leaf_of e4' rfl) (h4.2 k e2')) rfl rfl rfl fun _ _ => rfl
  · rw [exec_setRoot]
    intro j hj
    exact ⟨ix, j, by simpa using hj, .root (by simp)⟩
  · rw [exec_setRoot]
    exact t4
  · rw [exec_turn]
    refine ⟨k, k, e2, e1, ?_⟩
    rw [spine_cases]
    exact ⟨e3, [], none, by simpa [SOp.exec] using e4, by simp, rfl, .inl ⟨rfl, rfl, rfl⟩⟩

/-- A further element. -/
theorem mruns_start (hD : Harmless D) (hix : ix < n) {m as fs s'} (hb : (bs ix).open_ ≠ []) (hf : MFrame n keep bs xs ix s)
    (hc : Chain fs (s.turn ix).mem) (ht : TextOk s) (hr : MRuns D n keep ix [.make m as, .link, .down] s s') :
    (MFrame n keep bs xs ix s' ∧ ElemOk s') ∧ TextOk s' ∧ Chain ((m, as, []) :: fs) (s'.turn ix).mem := by
  have t := mstable_text n keep
  have new := mstable_new n keep bs xs ix (f := MMem.newElement) fun _ _ => rfl
  obtain ⟨s1, ⟨h1, t1, o1⟩, hr⟩ := mruns_op hD (mstable_and (mstable_frame n keep bs xs ix) (mstable_and t
    (mstable_own (stable_chain fs) hix))) hr rfl ⟨hf, ht, hc⟩
  obtain ⟨s2, ⟨h2, t2, o2⟩, hr⟩ := mruns_op hD (mstable_and new (mstable_and t (mstable_own (stable_made fs m as) hix))) hr rfl
    ⟨by
      rw [exec_make]
      refine ⟨frame_congr (frame_alloc h1 (.elem m as [] (s1.parents ix))) rfl rfl rfl fun _ _ => rfl, fun c hc => ?_⟩
      cases hc
      exact fresh_alloc h1 _ _ s1.newText, text_make t1, by rw [exec_turn]; exact do_make o1⟩
  have o2' := do_link o2
  obtain ⟨r, i, k, e1, e2, e3, e4, e5, e6⟩ := o2
  have e1' : s2.roots ix = some r := e1
  have e2' : s2.parents ix = some i := e2
  have e3' : s2.newElement = some k := e3
  have e6' : s2.heap.obj k = some (.elem m as [] (some i)) := e6
  have el := exec_link e2' e3'
  obtain ⟨s3, ⟨⟨h3, l3⟩, t3, o3⟩, hr⟩ := mruns_op hD (mstable_and (mstable_elem n keep bs xs ix) (mstable_and t
    (mstable_own (stable_linked fs m as) hix))) hr rfl
    ⟨⟨by
      rw [el]
      exact frame_link h2.1 hb e1' (spine_reach e5 (.root (by simp))).1 e4 (leaf_of e6' rfl) (Nat.ne_of_gt (spine_lt e5))
        (h2.2 k e3'), by
      intro j hj
      rw [el] at hj ⊢
      rw [show s2.newElement = some k from e3'] at hj
      cases hj
      obtain ⟨r', i', k', f1, f2, f3, f4, f5, f6, f7⟩ := o2'
      have g := (spine_reach f6 (roots := [r']) (.root (by simp))).2 k' rfl
      have : (Op.exec (s2.turn ix).mem .linkElement).heap = s2.heap.append i k := by
        simp [Op.exec, MMem.turn, e2', e3']
      rw [this] at g
      have f1' : (Op.exec (s2.turn ix).mem .linkElement).root = some r := by
        simp [Op.exec, e2, e3, e1]
      have f3' : (Op.exec (s2.turn ix).mem .linkElement).newElement = some k := by
        simp [Op.exec, e2, e3]
      rw [f1] at f1'
      rw [f3] at f3'
      cases f1'
      cases f3'
      exact ⟨ix, r, e1', g⟩⟩, by rw [el]; exact text_heapAppend t2, by rw [exec_turn]; exact o2'⟩
  refine and_assoc.1 (mruns_end hD (mstable_and (mstable_and (mstable_elem n keep _ xs ix) t) (mstable_own (stable_chain _) hix))
    hr rfl ⟨⟨⟨?_, ?_⟩, ?_⟩, ?_⟩)
  · rw [exec_down]
    exact frame_congr h3 rfl rfl rfl fun j hj => by simp [hj]
  · rw [exec_down]
    exact l3
  · rw [exec_down]
    exact t3
  · rw [exec_turn]
    exact do_down o3

/-- A text. -/
theorem mruns_text (hD : Harmless D) (hix : ix < n) {t m as ts fs s'} (hb : (bs ix).open_ ≠ []) (hf : MFrame n keep bs xs ix s)
    (hc : Chain ((m, as, ts) :: fs) (s.turn ix).mem) (hl : ElemOk s) (hr : MRuns D n keep ix [.makeText t, .linkText] s s') :
    (MFrame n keep bs xs ix s' ∧ ElemOk s') ∧ TextOk s' ∧ Chain ((m, as, ts ++ [.text t]) :: fs) (s'.turn ix).mem := by
  have new := mstable_new n keep bs xs ix (f := MMem.newText) fun _ _ => rfl
  have el := mstable_elem n keep bs xs ix
  obtain ⟨s1, ⟨⟨h1, l1⟩, o1⟩, hr⟩ := mruns_op hD (mstable_and el (mstable_own (stable_chain _) hix)) hr rfl ⟨⟨hf, hl⟩, hc⟩
  obtain ⟨s2, ⟨h2, ⟨-, l2⟩, o2⟩, hr⟩ := mruns_op hD (mstable_and new (mstable_and el (mstable_own (stable_madeText _ t) hix))) hr rfl
    ⟨by
      rw [exec_makeText]
      refine ⟨frame_congr (frame_alloc h1 (.text t (s1.parents ix))) rfl rfl rfl fun _ _ => rfl, fun c hc => ?_⟩
      cases hc
      exact fresh_alloc h1 _ s1.newElement _, by
      rw [exec_makeText]
      refine ⟨frame_congr (frame_alloc h1 (.text t (s1.parents ix))) rfl rfl rfl fun _ _ => rfl, fun k hk => ?_⟩
      obtain ⟨j, r, a1, a2⟩ := l1 k hk
      exact ⟨j, r, a1, from_mono (fun k hk => by
        rw [alloc_obj, if_neg (Nat.ne_of_lt (h1.below r (.inl ⟨j, a1⟩) k hk))]) a2⟩, by
      rw [exec_turn]
      exact do_makeText o1⟩
  have o2' := do_linkText o2
  obtain ⟨r, i, k, e1, e2, e3, e4, e5, e6⟩ := o2
  have e1' : s2.roots ix = some r := e1
  have e2' : s2.parents ix = some i := e2
  have e3' : s2.newText = some k := e3
  have e6' : s2.heap.obj k = some (.text t (some i)) := e6
  have el := exec_linkText e2' e3'
  refine and_assoc.1 (mruns_end hD (mstable_and (mstable_and (mstable_elem n keep _ xs ix) (mstable_text n keep))
    (mstable_own (stable_chain _) hix)) hr rfl ⟨⟨⟨?_, ?_⟩, ?_⟩, ?_⟩)
  · rw [el]
    exact frame_link h2.1 hb e1' (spine_reach e5 (.root (by simp))).1 e4 (leaf_of e6' rfl) (Nat.ne_of_gt (spine_lt e5))
      (h2.2 k e3')
  · rw [el]
    intro j hj
    obtain ⟨j', r', a1, a2⟩ := l2 j hj
    exact ⟨j', r', a1, reach_append a2⟩
  · rw [el]
    refine text_heapAppend fun k' hk' => ?_
    rw [e3'] at hk'
    cases hk'
    exact ⟨e4, t, some i, e6'⟩
  · rw [exec_turn]
    exact o2'

/-- An end tag inside a subtree. -/
theorem mruns_up (hD : Harmless D) (hix : ix < n) {m as ts m' as' ts' fs s'} (hf : MFrame n keep bs xs ix s)
    (hc : Chain ((m, as, ts) :: (m', as', ts') :: fs) (s.turn ix).mem) (hl : ElemOk s) (ht : TextOk s)
    (hr : MRuns D n keep ix [.up] s s') :
    (MFrame n keep bs xs ix s' ∧ ElemOk s') ∧ TextOk s' ∧ Chain ((m', as', ts' ++ [.elem m as ts]) :: fs) (s'.turn ix).mem := by
  obtain ⟨s1, ⟨⟨⟨h1, l1⟩, t1⟩, o1⟩, hr⟩ := mruns_op hD (mstable_and (mstable_and (mstable_elem n keep bs xs ix) (mstable_text n keep))
    (mstable_own (stable_chain _) hix)) hr rfl ⟨⟨⟨hf, hl⟩, ht⟩, hc⟩
  obtain ⟨v, eu⟩ := exec_up s1 ix
  refine and_assoc.1 (mruns_end hD (mstable_and (mstable_and (mstable_elem n keep _ xs ix) (mstable_text n keep))
    (mstable_own (stable_chain _) hix)) hr rfl ⟨⟨⟨?_, ?_⟩, ?_⟩, ?_⟩)
  · rw [eu]
    exact frame_congr h1 rfl rfl rfl fun j hj => by simp [hj]
  · rw [eu]; exact l1
  · rw [eu]; exact t1
  · rw [exec_turn]
    exact do_up o1

/-- The end tag of a subtree. -/
theorem mruns_last (hD : Harmless D) (hix : ix < n) {m as ts s'} {b : Building} (hb' : b.open_ = []) (hb : (bs ix).open_ ≠ [])
    (hf : MFrame n keep bs xs ix s) (hc : Chain [(m, as, ts)] (s.turn ix).mem) (hl : ElemOk s) (ht : TextOk s)
    (hr : MRuns D n keep ix [.send, .up] s s') :
    (MFrame n keep (fun j => if j = ix then b else bs j) (xs ++ [(ix, .elem m as ts)]) ix s' ∧ ElemOk s') ∧ TextOk s' ∧
      Finished (.elem m as ts) (s'.turn ix).mem := by
  obtain ⟨s1, ⟨⟨⟨h1, l1⟩, t1⟩, o1⟩, hr⟩ := mruns_op hD (mstable_and (mstable_and (mstable_elem n keep bs xs ix) (mstable_text n keep))
    (mstable_own (stable_chain _) hix)) hr rfl ⟨⟨⟨hf, hl⟩, ht⟩, hc⟩
  obtain ⟨r, i, e1, e2, e3⟩ := id o1
  have e1' : s1.roots ix = some r := e1
  have e2' : s1.parents ix = some i := e2
  obtain ⟨rfl, hx⟩ : i = r ∧ RepTop s1.heap r (.elem m as ts) := by
    rw [spine_cases] at e3
    obtain ⟨k2, cs, p, k3, k4, k5, ⟨_, rfl, rfl⟩ | ⟨k6, _⟩⟩ := e3
    · simp only [Option.toList_none, List.append_nil] at k3 k4
      exact ⟨rfl, cs, _, k3, k4, k5⟩
    · exact absurd rfl k6
  have es := exec_send e2'
  obtain ⟨s2, ⟨⟨⟨h2, l2⟩, t2⟩, o2⟩, hr⟩ := mruns_op hD (mstable_and (mstable_and (mstable_elem n keep _ _ ix) (mstable_text n keep))
    (mstable_own (stable_chain [(m, as, ts)]) hix)) hr rfl
    ⟨⟨⟨by rw [es]; exact frame_sent (b := b) h1 hb hb' e1' hx, by rw [es]; exact l1⟩, by rw [es]; exact t1⟩, by
      rw [es]; exact o1⟩
  obtain ⟨v, eu⟩ := exec_up s2 ix
  refine and_assoc.1 (mruns_end hD (mstable_and (mstable_and (mstable_elem n keep _ _ ix) (mstable_text n keep))
    (mstable_own (stable_finished _) hix)) hr rfl ⟨⟨⟨?_, ?_⟩, ?_⟩, ?_⟩)
  · rw [eu]
    exact frame_congr h2 rfl rfl rfl fun j hj => by simp [hj]
  · rw [eu]; exact l2
  · rw [eu]; exact t2
  · rw [exec_turn]
    exact do_upLast o2

/-! ### between events -/

/-- The invariant between events. -/
def MInv (n : Nat) (keep : Bool) (bs : Nat → Building) (xs : List (Nat × Node)) (s : MMem) : Prop :=
  (∀ ix, MFrame n keep bs xs ix s) ∧ ElemOk s ∧ TextOk s

theorem frame_all (hf : MFrame n keep bs xs ix s) (hc : CellOk (bs ix) (lastTo ix xs) (s.cell ix)) :
    ∀ ix', MFrame n keep bs xs ix' s := fun ix' => ⟨hf.few, hf.below, fun j _ => by
  by_cases e : j = ix
  · rw [e]; exact hc
  · exact hf.cells j e, hf.sent, hf.sep, hf.apart⟩

theorem inv_cell (hi : MInv n keep bs xs s) (j : Nat) : CellOk (bs j) (lastTo j xs) (s.cell j) :=
  (hi.1 (j + 1)).cells j (by omega)

theorem mstable_inv (n keep bs xs) : MStable n keep (MInv n keep bs xs) := by
  rintro s h ⟨h1, h2, h3⟩ hd
  refine ⟨fun ix => mstable_frame n keep bs xs ix s h (h1 ix) hd, ?_, mstable_text n keep s h h3 hd⟩
  exact (mstable_elem n keep bs xs 0 s h ⟨h1 0, h2⟩ hd).2

/-- One pattern handles one event, in memory and without. -/
theorem pattern_event (hD : Harmless D) (hix : ix < n) {st : List (Stage Event)} (stack : List Event) (ev : Event)
    (hi : MInv n keep bs xs s) :
    match handleOne st ix none stack (bs ix) ev with
    | (o, none) => o = [] ∧ senderOps st (stack, (bs ix).depth) ev = none
    | (o, some (stack', b')) => ∃ ops, senderOps st (stack, (bs ix).depth) ev = some (ops, (stack', b'.depth)) ∧
        ∀ s', MRuns D n keep ix ops s s' → MInv n keep (fun j => if j = ix then b' else bs j) (xs ++ sentBy o) s' := by
  obtain ⟨hb, hd, hcase⟩ := inv_cell hi ix
  have hf := hi.1 ix
  have hl := hi.2.1
  have ht := hi.2.2
  have upd : (fun j => if j = ix then bs ix else bs j) = bs := by
    funext j
    split
    · rename_i e; rw [e]
    · rfl
  have same : ∀ s', MRuns D n keep ix [] s s' →
      MInv n keep (fun j => if j = ix then bs ix else bs j) (xs ++ sentBy []) s' := by
    intro s' hr
    rw [upd]
    simpa [sentBy] using mruns_end hD (mstable_inv n keep bs xs) hr rfl hi
  have fin : ∀ {b' : Building} {ys s'}, (MFrame n keep (fun j => if j = ix then b' else bs j) ys ix s' ∧ ElemOk s') →
      TextOk s' → CellOk b' (lastTo ix ys) (s'.cell ix) →
      MInv n keep (fun j => if j = ix then b' else bs j) ys s' := by
    intro b' ys s' h1 h2 h3
    exact ⟨frame_all h1.1 (by simpa using h3), h1.2, h2⟩
  -- the same frame with another state of this pattern, which stays open
  have reframe : ∀ {b' : Building} {s'}, (bs ix).open_ ≠ [] → MFrame n keep bs xs ix s' →
      MFrame n keep (fun j => if j = ix then b' else bs j) xs ix s' := by
    intro b' s' ho h
    refine ⟨h.few, h.below, fun j hj => by simpa [hj] using h.cells j hj, h.sent, fun j hj => ?_, h.apart⟩
    refine h.sep j ?_
    by_cases e : j = ix
    · rw [e]; exact ho
    · simpa [e] using hj
  cases ev with
  | start m as anc =>
    simp only [handleOne, senderOps]
    rcases hcase with ⟨ho, h1⟩ | ⟨ho, h1, h2⟩
    · have hz : (bs ix).depth > 0 := by rw [hd]; exact List.length_pos_iff.2 ho
      simp only [hz, if_true]
      refine ⟨_, rfl, fun s' hr => ?_⟩
      have := mruns_start hD hix ho hf h1 ht hr
      simp only [sentBy, List.filterMap_nil, List.append_nil]
      exact fin ⟨reframe ho this.1.1, this.1.2⟩ this.2.1 ⟨hb, by simp [Building.push, hd], .inl ⟨by simp [Building.push], this.2.2⟩⟩
    · have hz : (bs ix).depth = 0 := by rw [hd, ho]; rfl
      simp only [hz, Nat.lt_irrefl, gt_iff_lt, if_false]
      cases hm : matchState st (stack ++ [.start m as anc]) with
      | none => exact ⟨rfl, rfl⟩
      | some v =>
        cases v with
        | false => exact ⟨[], by simp [hz], same⟩
        | true =>
          refine ⟨[.make m as, .link, .down, .setRoot], by simp [Building.push, hz], fun s' hr => ?_⟩
          have := mruns_first hD hix ((bs ix).push m as) hf h1 ht hr
          simp only [hb, Option.map_none, Option.toList_none, sentBy, List.filterMap_nil, List.append_nil]
          refine fin this.1 this.2.1 ⟨hb, by simp [Building.push, hd], .inl ⟨by simp [Building.push], ?_⟩⟩
          have h3 : Chain [(m, as, [])] (s'.cell ix) := this.2.2
          simpa [Building.push, ho] using h3
  | chars t =>
    simp only [handleOne, senderOps]
    rcases hcase with ⟨ho, h1⟩ | ⟨ho, h1, h2⟩
    · have hz : (bs ix).depth > 0 := by rw [hd]; exact List.length_pos_iff.2 ho
      simp only [hz, if_true]
      refine ⟨_, rfl, fun s' hr => ?_⟩
      cases he : (bs ix).open_ with
      | nil => exact absurd he ho
      | cons f fs =>
        obtain ⟨m, as, ts⟩ := f
        rw [he] at h1
        have := mruns_text hD hix ho hf h1 hl hr
        simp only [sentBy, List.filterMap_nil, List.append_nil, addChild]
        exact fin ⟨reframe ho this.1.1, this.1.2⟩ this.2.1 ⟨hb, by rw [hd, he]; simp, .inl ⟨by simp, this.2.2⟩⟩
    · have hz : (bs ix).depth = 0 := by rw [hd, ho]; rfl
      simp only [hz, Nat.lt_irrefl, gt_iff_lt, if_false]
      exact ⟨[], by simp, same⟩
  | stop m anc =>
    simp only [handleOne, senderOps]
    by_cases hs : stack = []
    · simp [hs]
    · simp only [hs, if_false]
      rcases hcase with ⟨ho, h1⟩ | ⟨ho, h1, h2⟩
      · cases he : (bs ix).open_ with
        | nil => exact absurd he ho
        | cons f fs =>
          obtain ⟨m', as, ts⟩ := f
          rw [he] at h1 hd
          cases fs with
          | nil =>
            have hz : (bs ix).depth = 1 := hd
            simp only [hz, if_true]
            refine ⟨[.send, .up], by simp, fun s' hr => ?_⟩
            have := mruns_last hD hix (b := ⟨0, [], Option.none.or (bs ix).base⟩) rfl ho hf h1 hl ht hr
            simp only [sentBy, List.filterMap_cons, List.filterMap_nil]
            refine fin this.1 this.2.1 ⟨by simp [hb], rfl, .inr ⟨rfl, ?_, .inr ⟨_, lastTo_eq xs, this.2.2⟩⟩⟩
            obtain ⟨_, _, e, _⟩ := this.2.2
            exact e
          | cons g fs =>
            obtain ⟨m'', as', ts'⟩ := g
            have hz : (bs ix).depth = fs.length + 1 + 1 := hd
            simp only [hz, Nat.succ_ne_zero, if_false]
            refine ⟨[.up], by simp, fun s' hr => ?_⟩
            have := mruns_up hD hix hf h1 hl ht hr
            simp only [sentBy, List.filterMap_nil, List.append_nil, addChild]
            exact fin ⟨reframe ho this.1.1, this.1.2⟩ this.2.1 ⟨hb, by simp, .inl ⟨by simp, this.2.2⟩⟩
      · have hz : (bs ix).depth = 0 := by rw [hd, ho]; rfl
        simp only [hz]
        exact ⟨[], by simp, same⟩

/-- First states and depths. -/
def depths (pats : List (List (Stage Event) × Building)) : Depths := pats.map fun p => (p.1, p.2.depth)

/-- The patterns from number `ix` on are in these states. -/
def PatsAre (bs : Nat → Building) (ix : Nat) (pats : List (List (Stage Event) × Building)) : Prop :=
  ∀ k p, pats[k]? = some p → bs (ix + k) = p.2

theorem patsAre_tail {bs : Nat → Building} {ix : Nat} {p : List (Stage Event) × Building} {r} (h : PatsAre bs ix (p :: r))
    (b : Building) : PatsAre (fun j => if j = ix then b else bs j) (ix + 1) r := by
  intro k q hk
  have := h (k + 1) q (by simpa using hk)
  simp only [show ix + 1 + k ≠ ix by omega, if_false]
  rw [← this]
  congr 1
  omega

theorem sentBy_append (o o' : List SOut) : sentBy (o ++ o') = sentBy o ++ sentBy o' := by simp [sentBy]

/-- The loop over the patterns. -/
theorem pattern_loop (hD : Harmless D) (ev : Event) : ∀ (r : List (List (Stage Event) × Building)) {bs : Nat → Building}
    {ix : Nat} {stack : List Event} {xs : List (Nat × Node)} {s s' : MMem} {res}, MInv n keep bs xs s → PatsAre bs ix r →
    ix + r.length = n → PatternLoop D n keep ev ix stack (depths r) s s' res →
    match handlePats (fun _ => none) ev ix stack r with
    | (o, none) => res = none ∧ ∃ bs', MInv n keep bs' (xs ++ sentBy o) s'
    | (o, some (stack', r')) => res = some (stack', depths r') ∧ r'.length = r.length ∧ r'.map (·.1) = r.map (·.1) ∧
        ∃ bs', MInv n keep bs' (xs ++ sentBy o) s' ∧ PatsAre bs' ix r' ∧ ∀ j, j < ix → bs' j = bs j := by
  intro r
  induction r with
  | nil =>
    intro bs ix stack xs s s' res hi hh hn hr
    cases hr
    simp only [handlePats, depths, List.map_nil]
    exact ⟨trivial, trivial, trivial, bs, by simpa [sentBy] using hi, hh, fun _ _ => rfl⟩
  | cons p r ih =>
    intro bs ix stack xs s s' res hi hh hn hr
    obtain ⟨st, b⟩ := p
    have hb : bs ix = b := hh 0 (st, b) rfl
    have hix : ix < n := by simp only [List.length_cons] at hn; omega
    have hev := pattern_event (st := st) hD hix stack ev hi
    rw [hb] at hev
    simp only [handlePats]
    generalize handleOne st ix none stack b ev = x at hev ⊢
    obtain ⟨o, _ | ⟨stack', b'⟩⟩ := x
    · obtain ⟨ho, hnone⟩ := hev
      simp only
      cases hr with
      | raise => exact ⟨rfl, bs, by simpa [ho, sentBy] using hi⟩
      | next he => rw [hnone] at he; cases he
    · obtain ⟨ops, hops, hrun⟩ := hev
      cases hr with
      | raise he => rw [hops] at he; cases he
      | next he hr1 hr2 =>
        rw [hops] at he
        cases he
        have := ih (hrun _ hr1) (patsAre_tail hh b') (by simp only [List.length_cons] at hn; omega) hr2
        simp only
        generalize handlePats (fun _ => none) ev (ix + 1) stack' r = y at this ⊢
        obtain ⟨o', _ | ⟨stack'', r'⟩⟩ := y
        · obtain ⟨e1, bs', e2⟩ := this
          simp only
          rw [sentBy_append, ← List.append_assoc, e1]
          exact ⟨rfl, bs', e2⟩
        · obtain ⟨e1, e2, e3, bs', e4, e5, e6⟩ := this
          simp only
          rw [sentBy_append, ← List.append_assoc, e1]
          refine ⟨by simp [depths], by simp [e2], by simp [e3], bs', e4, ?_, fun j hj => ?_⟩
          · intro k q hk
            cases k with
            | zero =>
              simp only [List.getElem?_cons_zero, Option.some.injEq] at hk
              rw [← hk, Nat.add_zero, e6 ix (Nat.lt_succ_self _)]
              simp
            | succ k =>
              have := e5 k q (by simpa using hk)
              rw [← this]
              congr 1
              omega
          · rw [e6 j (by omega)]
            simp [Nat.ne_of_lt hj]

/-- All events. -/
theorem senders_events (hD : Harmless D) : ∀ (evs : List Event) {xs : List (Nat × Node)} {bs : Nat → Building}
    {pats : List (List (Stage Event) × Building)} {s s' : MMem} {stack : List Event} {res}, MInv n keep bs xs s → PatsAre bs 0 pats →
    pats.length = n → SendersRun D n keep (stack, depths pats) evs s s' res →
    ∃ os fin, (Sender.mk stack pats).run (quiet evs) = (os, fin) ∧
      ((res = none ∧ fin = none ∧ ∃ bs', MInv n keep bs' (xs ++ sentBy os.flatten) s') ∨
        ∃ stack' pats' bs', res = some (stack', depths pats') ∧ fin = some ⟨stack', pats'⟩ ∧ PatsAre bs' 0 pats' ∧ pats'.length = n ∧
          MInv n keep bs' (xs ++ sentBy os.flatten) s') := by
  intro evs
  induction evs with
  | nil =>
    intro xs bs pats s s' stack res hi hh hn hr
    cases hr with
    | done hr =>
      refine ⟨[], _, rfl, .inr ⟨stack, pats, bs, rfl, rfl, hh, hn, ?_⟩⟩
      simpa [sentBy] using mruns_end hD (mstable_inv n keep bs xs) hr rfl hi
  | cons ev evs ih =>
    intro xs bs pats s s' stack res hi hh hn hr
    simp only [quiet, List.map_cons, Sender.run, Sender.handle]
    cases hr with
    | event hp hr =>
      have hl := pattern_loop hD ev pats hi hh (by omega) hp
      generalize handlePats (fun _ => none) ev 0 stack pats = y at hl ⊢
      obtain ⟨o, _ | ⟨stack', r'⟩⟩ := y
      · obtain ⟨e1, -⟩ := hl
        cases e1
      · obtain ⟨e1, e2, e3, bs', e4, e5, -⟩ := hl
        cases e1
        obtain ⟨os, fin, f1, f2⟩ := ih e4 e5 (by omega) hr
        simp only [quiet] at f1
        refine ⟨o :: os, fin, by simp [f1], ?_⟩
        simpa [sentBy_append, List.append_assoc] using f2
    | raise hp =>
      have hl := pattern_loop hD ev pats hi hh (by omega) hp
      generalize handlePats (fun _ => none) ev 0 stack pats = y at hl ⊢
      obtain ⟨o, _ | ⟨stack', r'⟩⟩ := y
      · obtain ⟨-, bs', e2⟩ := hl
        exact ⟨[o], none, rfl, .inl ⟨rfl, rfl, bs', by simpa using e2⟩⟩
      · obtain ⟨e1, -⟩ := hl
        cases e1

theorem minv_new (n : Nat) (keep : Bool) (h : Heap) : MInv n keep (fun _ => .idle) [] (MMem.new h) := by
  refine ⟨fun ix => ⟨fun _ _ => rfl, ?_, ?_, trivial, ?_, fun _ => .nil⟩, ?_, ?_⟩
  · rintro q (⟨j, h⟩ | ⟨-, p, hp, -⟩)
    · cases h
    · cases hp
  · intro j _
    exact ⟨rfl, rfl, .inr ⟨rfl, rfl, .inl ⟨rfl, rfl⟩⟩⟩
  · intro j hj
    exact absurd rfl hj
  · intro k hk
    cases hk
  · intro k hk
    cases hk

theorem mSent_as {keep : Bool} {h : Heap} : ∀ {ps xs}, MSent keep h ps xs →
    SentAs (fun p => p.2.2) ps xs ∧ (keep = true → SentAs (fun _ => h) ps xs)
  | [], [], _ => ⟨trivial, fun _ => trivial⟩
  | _ :: _, _ :: _, hk => ⟨⟨hk.1, hk.2.1, (mSent_as hk.2.2.2).1⟩,
      fun e => ⟨hk.1, repTop_rep (hk.2.2.1 e), (mSent_as hk.2.2.2).2 e⟩⟩
  | [], _ :: _, hk => hk.elim
  | _ :: _, [], hk => hk.elim

/-- There are executions. -/
theorem mruns_exists (D : List Id → Heap → Heap → Prop) (n keep ix) : ∀ (ops : List SOp) (s : MMem), ∃ s', MRuns D n keep ix ops s s'
  | [], s => ⟨s, .done⟩
  | o :: ops, s => by
    obtain ⟨s', h⟩ := mruns_exists D n keep ix ops (s.exec ix o)
    exact ⟨s', .op h⟩

theorem loop_exists (D : List Id → Heap → Heap → Prop) (n keep) (ev : Event) : ∀ (r : Depths) (ix : Nat) (stack : List Event)
    (s : MMem), ∃ s' res, PatternLoop D n keep ev ix stack r s s' res
  | [], ix, stack, s => ⟨s, _, .done⟩
  | (st, d) :: r, ix, stack, s => by
    cases h : senderOps st (stack, d) ev with
    | none => exact ⟨s, none, .raise h⟩
    | some x =>
      obtain ⟨ops, stack', d'⟩ := x
      obtain ⟨s₁, h1⟩ := mruns_exists D n keep ix ops s
      obtain ⟨s', res, h2⟩ := loop_exists D n keep ev r (ix + 1) stack' s₁
      exact ⟨s', _, .next h h1 h2⟩

theorem sendersRun_exists (D : List Id → Heap → Heap → Prop) (n keep) : ∀ (evs : List Event) (c : List Event × Depths) (s : MMem),
    ∃ s' res, SendersRun D n keep c evs s s' res
  | [], c, s => ⟨s, _, .done .done⟩
  | ev :: evs, c, s => by
    obtain ⟨s₁, res, h⟩ := loop_exists D n keep ev c.2 0 c.1 s
    cases res with
    | none => exact ⟨s₁, none, .raise h⟩
    | some c' =>
      obtain ⟨s', res, h2⟩ := sendersRun_exists D n keep evs c' s₁
      exact ⟨s', res, .event h h2⟩

/-! ### how much is kept alive -/

/-- The nodes of the subtree being built, or else of the last one sent. -/
def cellSize (b : Building) (last : Option Node) : Nat :=
  if b.open_ = [] then (last.map Node.count).getD 0 else openCount b.open_

theorem cell_ids {b : Building} {last : Option Node} {c : Builder} (h : CellOk b last c) : ∃ ids : List Id,
    ids.length = cellSize b last ∧ (∀ i, c.root = some i ∨ c.parent = some i → i ∈ ids) ∧ ClosedBut c.heap none ids := by
  obtain ⟨-, -, ⟨h1, h2⟩ | ⟨h1, h2, ⟨h3, h4⟩ | ⟨x, h3, h4⟩⟩⟩ := h
  · obtain ⟨ids, a1, a2, -, a3⟩ := chain_ids h2
    refine ⟨ids, by simp [cellSize, h1, a1], fun i hi => a2 i ?_, a3⟩
    rcases hi with hi | hi <;> simp [hi]
  · refine ⟨[], by simp [cellSize, h1, h4], fun i hi => ?_, fun j hj => by cases hj⟩
    rcases hi with hi | hi
    · rw [h3] at hi; cases hi
    · rw [h2] at hi; cases hi
  · obtain ⟨ids, a1, a2, a3⟩ := finished_ids h4
    refine ⟨ids, by simp [cellSize, h1, h3, a1], fun i hi => ?_, a3⟩
    rcases hi with hi | hi
    · exact a2 i (by simp [hi])
    · rw [h2] at hi; cases hi

theorem cells_ids (hi : MInv n keep bs xs s) : ∀ k : Nat, ∃ ids : List Id,
    ids.length = ((List.range k).map fun j => cellSize (bs j) (lastTo j xs)).sum ∧
    (∀ j, j < k → ∀ i, s.roots j = some i ∨ s.parents j = some i → i ∈ ids) ∧ ClosedBut s.heap none ids
  | 0 => ⟨[], rfl, fun j hj => by omega, fun j hj => by cases hj⟩
  | k + 1 => by
    obtain ⟨ids, h1, h2, h3⟩ := cells_ids hi k
    obtain ⟨ids', a1, a2, a3⟩ := cell_ids (inv_cell hi k)
    refine ⟨ids ++ ids', by simp [List.range_succ, h1, a1], fun j hj i hji => ?_, fun j hj c hc => ?_⟩
    · rcases Nat.lt_succ_iff_lt_or_eq.1 hj with hj | hj
      · exact List.mem_append_left _ (h2 j hj i hji)
      · rw [hj] at hji
        exact List.mem_append_right _ (a2 i hji)
    · rcases List.mem_append.1 hj with hj | hj
      · exact (h3 j hj c hc).imp (List.mem_append_left _) id
      · exact (a3 j hj c hc).imp (List.mem_append_right _) id

theorem inv_size (hi : MInv n keep bs xs s) :
    AtMost s.heap (s.refs n false) (((List.range n).map fun j => cellSize (bs j) (lastTo j xs)).sum + 1) := by
  obtain ⟨ids, h1, h2, h3⟩ := cells_ids hi n
  have hn : ∀ i, s.newElement = some i → i ∈ ids := by
    intro i hi'
    obtain ⟨j, r, a1, a2⟩ := hi.2.1 i hi'
    have hj : j < n := by
      apply Nat.lt_of_not_le
      intro hle
      rw [(hi.1 0).few j hle] at a1
      cases a1
    refine closed_reach h3 (fun q hq => ?_) a2
    rw [List.mem_singleton.1 hq]
    exact h2 j hj r (.inl a1)
  refine ⟨s.newText.toList ++ ids, ?_, fun j hj => closed_reach ?_ ?_ hj⟩
  · rw [List.length_append, h1]
    cases s.newText <;> simp <;> omega
  · intro j hj c hc
    rcases List.mem_append.1 hj with hj | hj
    · obtain ⟨-, t, p, ho⟩ := hi.2.2 j (Option.mem_toList.1 hj)
      simp [Heap.children, ho, Obj.kids] at hc
    · exact (h3 j hj c hc).imp (List.mem_append_right _) id
  · intro i hi'
    simp only [MMem.refs, List.mem_append, Option.mem_toList, List.mem_flatMap, List.mem_range] at hi'
    rcases hi' with ((hi' | hi') | ⟨j, hj, hi'⟩) | hi'
    · exact List.mem_append_right _ (hn i hi')
    · exact List.mem_append_left _ (Option.mem_toList.2 hi')
    · exact List.mem_append_right _ (h2 j hj i hi')
    · simp at hi'

theorem sentTo_sentBy (j : Nat) : ∀ os : List SOut, sentTo j os = ((sentBy os).filter fun x => x.1 == j).map (·.2)
  | [] => rfl
  | .send i x :: os => by
    have := sentTo_sentBy j os
    simp only [sentTo, sentBy] at this
    by_cases h : i = j <;> simp [sentTo, sentBy, h, this]
  | .stray i x :: os => by
    have := sentTo_sentBy j os
    simp only [sentTo, sentBy] at this
    simp [sentTo, sentBy, this]

theorem sentTo_flatten (j : Nat) : ∀ os : List (List SOut), (os.map (sentTo j)).flatten = sentTo j os.flatten
  | [] => rfl
  | o :: os => by
    have := sentTo_flatten j os
    simp only [sentTo] at this
    simp [sentTo, this]

theorem lastTo_sentTo (j : Nat) (os : List (List SOut)) : lastTo j (sentBy os.flatten) = ((os.map (sentTo j)).flatten).getLast? := by
  rw [sentTo_flatten, sentTo_sentBy, lastTo, List.getLast?_map]

end Amara
