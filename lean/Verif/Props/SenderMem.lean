import Verif.Lemmas.SenderMem
import Verif.Props.TreeIter
/-
C114, C115: the tree sender in memory.
-/
namespace Amara

/-- C114 (one pattern, a sink that does not attach what it gets to trees of its own).  Whatever events a sender handles and
whatever the garbage collector and the rest of the program do in between, as long as they leave alone what the sender and the
sink refer to: the objects passed to the sink are, one for one and at the time they are passed, exactly the trees the sender
without memory sends — with the right content, no missing part and no parent; if the sink keeps them, they still are when the
events have been handled; and an exception is raised exactly when the sender without memory raises one. -/
theorem C114_sent_objects_are_the_trees {D : List Id → Heap → Heap → Prop} (hD : ∀ roots h h', D roots h h' →
      h.next ≤ h'.next ∧ ∀ i, Reachable h roots i → h'.obj i = h.obj i)
    (keep : Bool) (p : List (Stage Event)) (evs : List Event) (h : Heap) {s r}
    (hr : SenderRun D keep p ([], 0) evs (.new h) s r) : ∃ os fin, (newSender [p]).run (quiet evs) = (os, fin) ∧
      AllRep (fun x => x.2) s.sent (os.map (sentTo 0)).flatten ∧
      (keep = true → AllRep (fun _ => s.mem.heap) s.sent (os.map (sentTo 0)).flatten) ∧ (r = none ↔ fin = none) := by
  obtain ⟨os, fin, h1, h2⟩ := sender_events (b := .idle) (D := D) hD evs (inv_new keep h) hr
  refine ⟨os, fin, by rw [newSender_one]; exact h1, ?_⟩
  rcases h2 with ⟨e1, e2, b', hi⟩ | ⟨stack', b', e1, e2, hi⟩
  · have := inv_record hi
    exact ⟨this.1, this.2, by simp [e1, e2]⟩
  · have := inv_record hi
    exact ⟨this.1, this.2, by simp [e1, e2]⟩

/-- C114, the collector alone. -/
theorem C114_collector (keep : Bool) (p : List (Stage Event)) (evs : List Event) (h : Heap) {s r}
    (hr : SenderRun Collected keep p ([], 0) evs (.new h) s r) : ∃ os fin, (newSender [p]).run (quiet evs) = (os, fin) ∧
      AllRep (fun x => x.2) s.sent (os.map (sentTo 0)).flatten ∧
      (keep = true → AllRep (fun _ => s.mem.heap) s.sent (os.map (sentTo 0)).flatten) ∧ (r = none ↔ fin = none) :=
  C114_sent_objects_are_the_trees harmless_collected keep p evs h hr

/-- C114 for a document: the objects a sink that keeps what it gets has at the end are exactly the matching elements that are
inside no other match, in document order, whole and without a parent, for every pattern that means what it says. -/
theorem C114_document_partial {e : Node} {w : Str} (hdoc : IsDoc e w) (p : List (Stage Event)) (hne : p ≠ []) (hs : Safe p)
    (h : Heap) {s r} (hr : SenderRun Collected true p ([], 0) (drive w).1 (.new h) s r) : r ≠ none ∧
      ∃ l : List (Path × Node), AllRep (fun _ => s.mem.heap) s.sent (l.map Prod.snd) ∧ InDocOrder l ∧
        ∀ q x, (q, x) ∈ l ↔ e.at? q = some x ∧ x.isText = false ∧
          ∃ t, e.opened [] q = some t ∧ Outermost Event.look p t := by
  obtain ⟨os, l, h1, h2, h3, h4⟩ := C33_all_sent_partial hdoc p hne hs
  rw [parse_of_drive (drive_doc hdoc)] at h1
  rw [drive_doc hdoc] at hr
  obtain ⟨os', fin, e1, -, e2, e3⟩ := C114_collector true p _ h hr
  rw [h1] at e1
  cases e1
  refine ⟨fun hn => ?_, l, ?_, h3, h4⟩
  · cases e3.1 hn
  · rw [← h2]
    exact e2 rfl

/-- There are such executions. -/
theorem C114_can_run (D : List Id → Heap → Heap → Prop) (keep : Bool) (p : List (Stage Event)) (evs : List Event) (h : Heap) :
    ∃ s r, SenderRun D keep p ([], 0) evs (.new h) s r := senderRun_exists D keep p evs _ _

/-- The objects passed to the sink have a tree each: two lists of the same length. -/
theorem allRep_length {f : Id × Heap → Heap} : ∀ {ps xs}, AllRep f ps xs → ps.length = xs.length
  | [], [], _ => rfl
  | _ :: _, _ :: _, h => by simp [allRep_length h.2]
  | [], _ :: _, h => h.elim
  | _ :: _, [], h => h.elim

theorem srun_append : ∀ (e₁ e₂ : List Event) (s : Sender), s.run (quiet (e₁ ++ e₂)) =
    match s.run (quiet e₁) with
    | (o, none) => (o, none)
    | (o, some s') => (o ++ (s'.run (quiet e₂)).1, (s'.run (quiet e₂)).2) := by
  intro e₁
  induction e₁ with
  | nil => intro e₂ s; simp [quiet, Sender.run]
  | cons ev e₁ ih =>
    intro e₂ s
    have := ih e₂
    simp only [quiet] at this
    simp only [quiet, List.cons_append, List.map_cons, Sender.run]
    cases hh : s.handle (fun _ => none) ev with
    | mk o r =>
      cases r with
      | none => rfl
      | some s' =>
        simp only
        rw [this s']
        cases s'.run (e₁.map fun ev => (ev, fun _ => none)) with
        | mk o' r' => cases r' <;> simp

theorem atMost_mono {h : Heap} {roots : List Id} {n m : Nat} (hn : AtMost h roots n) (hle : n ≤ m) : AtMost h roots m := by
  obtain ⟨ids, h1, h2⟩ := hn
  exact ⟨ids, Nat.le_trans h1 hle, h2⟩

/-- C115.  What a sender keeps alive after any events: while a subtree is being built, as many objects as that subtree has
nodes so far, and possibly one text; between subtrees, as many as the last subtree sent has, and possibly one text; nothing
before the first match.  Not the earlier subtrees, and nothing of the rest of the document. -/
theorem C115_what_is_kept {D : List Id → Heap → Heap → Prop} (hD : ∀ roots h h', D roots h h' →
      h.next ≤ h'.next ∧ ∀ i, Reachable h roots i → h'.obj i = h.obj i)
    (keep : Bool) (p : List (Stage Event)) (evs : List Event) (h : Heap) {s c}
    (hr : SenderRun D keep p ([], 0) evs (.new h) s (some c)) :
    ∃ os stack b, (newSender [p]).run (quiet evs) = (os, some ⟨stack, [(p, b)]⟩) ∧
      ((b.depth > 0 ∧ AtMost s.mem.heap s.mem.roots (openCount b.open_ + 1)) ∨
        (b.depth = 0 ∧ (os.map (sentTo 0)).flatten = [] ∧ s.mem.roots = []) ∨
        (b.depth = 0 ∧ ∃ ys x, (os.map (sentTo 0)).flatten = ys ++ [x] ∧ AtMost s.mem.heap s.mem.roots (x.count + 1))) := by
  obtain ⟨os, fin, h1, h2⟩ := sender_events (b := .idle) (D := D) hD evs (inv_new keep h) hr
  rcases h2 with ⟨e1, -⟩ | ⟨stack', b', e1, e2, hi⟩
  · cases e1
  · refine ⟨os, stack', b', by rw [newSender_one, h1, e2], ?_⟩
    have hd := hi.2.1
    rcases inv_atMost hi with ⟨a, b⟩ | ⟨a, b⟩ | ⟨a, b⟩
    · exact .inl ⟨by rw [hd]; exact List.length_pos_iff.2 a, b⟩
    · exact .inr (.inl ⟨by rw [hd, a]; rfl, by simpa using b⟩)
    · exact .inr (.inr ⟨by rw [hd, a]; rfl, by simpa using b⟩)

/-- C115.  Hence a bound that does not depend on how long the input is or how many matches there are: if each of the trees that
are sent has at most `m` nodes, at no point between two events are more than `m + 1` objects kept alive. -/
theorem C115_memory_bound {D : List Id → Heap → Heap → Prop} (hD : ∀ roots h h', D roots h h' →
      h.next ≤ h'.next ∧ ∀ i, Reachable h roots i → h'.obj i = h.obj i)
    (keep : Bool) (p : List (Stage Event)) (evs rest : List Event) (h : Heap) {os stack b m}
    (hall : (newSender [p]).run (quiet (evs ++ rest)) = (os, some ⟨stack, [(p, b)]⟩)) (hb : b.depth = 0)
    (hm : ∀ x ∈ (os.map (sentTo 0)).flatten, x.count ≤ m) {s r}
    (hr : SenderRun D keep p ([], 0) evs (.new h) s r) : AtMost s.mem.heap s.mem.roots (m + 1) := by
  obtain ⟨os₁, fin, h1, h2⟩ := sender_events (b := .idle) (D := D) hD evs (inv_new keep h) hr
  have h1' : (newSender [p]).run (quiet evs) = (os₁, fin) := by rw [newSender_one]; exact h1
  rw [srun_append, h1'] at hall
  rcases h2 with ⟨-, e2, -⟩ | ⟨stack', b', -, e2, hi⟩
  · rw [e2] at hall
    cases hall
  · rw [e2] at hall
    simp only [Prod.mk.injEq] at hall
    have hsub : ∀ x ∈ (os₁.map (sentTo 0)).flatten, x.count ≤ m := fun x hx => hm x (by
      rw [← hall.1]; simp only [List.map_append, List.flatten_append, List.mem_append]; exact .inl hx)
    rcases inv_atMost hi with ⟨a, c⟩ | ⟨a, c, d⟩ | ⟨a, ys, x, c, d⟩
    · obtain ⟨x, hx, hle⟩ := open_le_sent rest hi.2.1 a (Prod.ext rfl hall.2) hb
      refine atMost_mono c (Nat.succ_le_succ (Nat.le_trans hle (hm x ?_)))
      rw [← hall.1]
      simp only [List.map_append, List.flatten_append, List.mem_append]
      exact .inr hx
    · refine ⟨[], Nat.zero_le _, fun j hj => ?_⟩
      rw [d] at hj
      exact closed_reach (ids := []) (fun _ hj => by cases hj) (by simp) hj
    · exact atMost_mono d (Nat.succ_le_succ (hsub x (by simp only [List.nil_append] at c; rw [c]; simp)))

/-- C115 for a document and a pattern that means what it says: `m` need only bound the matching elements that are inside no
other match. -/
theorem C115_document_partial {e : Node} (p : List (Stage Event)) (hne : p ≠ []) (hs : Safe p) {m : Nat}
    (hm : ∀ q x t, e.at? q = some x → e.opened [] q = some t → Outermost Event.look p t → x.count ≤ m)
    {evs rest : List Event} (he : e.events [] = evs ++ rest) (keep : Bool) (h : Heap) {s r}
    (hr : SenderRun Collected keep p ([], 0) evs (.new h) s r) : AtMost s.mem.heap s.mem.roots (m + 1) := by
  obtain ⟨os, h1, h2⟩ := C33_outermost_matches_sent_partial e p hne hs
  rw [he, newSender_one] at h1
  refine C115_memory_bound harmless_collected keep p evs rest h (by rw [newSender_one]; exact h1) rfl ?_ hr
  intro x hx
  obtain ⟨l, h3, -, h5⟩ := delivers_list h2
  rw [h3] at hx
  obtain ⟨⟨q, y⟩, hy, rfl⟩ := List.mem_map.1 hx
  obtain ⟨a, t, b, c⟩ := (h5 q y).1 hy
  obtain ⟨r', rfl, d, -⟩ := (marks_list.1 e [] []).1 q y |>.1 a
  exact hm _ y t d b c

/-- `('a', 'c')` on the events of `<a>x<c>y</c>z<c/></a>`: two elements are sent; the bound is 3 objects. -/
def smExample : Node := .elem ['a'] [] [.text ['x'], .elem ['c'] [] [.text ['y']], .text ['z'], .elem ['c'] [] []]

example (h : Heap) : ∃ s r, SenderRun Collected true [.name ['a'], .name ['c']] ([], 0) (smExample.events []) (.new h) s r ∧
    AllRep (fun _ => s.mem.heap) s.sent [.elem ['c'] [] [.text ['y']], .elem ['c'] [] []] := by
  obtain ⟨s, r, hr⟩ := C114_can_run Collected true [.name ['a'], .name ['c']] (smExample.events []) h
  obtain ⟨os, fin, h1, -, h2, -⟩ := C114_collector true _ _ h hr
  refine ⟨s, r, hr, ?_⟩
  have : (((newSender [[.name ['a'], .name ['c']]]).run (quiet (smExample.events []))).1.map (sentTo 0)).flatten =
    [.elem ['c'] [] [.text ['y']], .elem ['c'] [] []] := by decide
  rw [h1] at this
  rw [← this]
  exact h2 rfl

example (h : Heap) (evs rest : List Event) (he : smExample.events [] = evs ++ rest) : ∃ s r,
    SenderRun Collected false [.name ['a'], .name ['c']] ([], 0) evs (.new h) s r ∧ AtMost s.mem.heap s.mem.roots 3 := by
  obtain ⟨s, r, hr⟩ := C114_can_run Collected false [.name ['a'], .name ['c']] evs h
  refine ⟨s, r, hr, ?_⟩
  have : (newSender [[.name ['a'], .name ['c']]]).run (quiet (smExample.events [])) =
    ([[], [], [], [], [.send 0 (.elem ['c'] [] [.text ['y']])], [], [], [.send 0 (.elem ['c'] [] [])], []],
      some ⟨[], [([.name ['a'], .name ['c']], .idle)]⟩) := by
    rfl
  exact C115_memory_bound harmless_collected false _ evs rest h (by rw [← he]; exact this) rfl (by decide) hr

end Amara
