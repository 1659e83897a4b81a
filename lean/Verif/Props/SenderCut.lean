import Verif.Props.SenderMem
import Verif.Props.Prompt
import Verif.Spec.SenderCut
/-
C133: what a sender delivers of a document that is cut off or not well formed.
-/
namespace Amara

theorem delivers_take {F : Path → Prop} {ms os} (hd : Delivers F ms os) : ∀ n, Delivers F (ms.take n) (os.take n) := by
  induction hd with
  | nil => intro n; simpa using .nil
  | inside _ ih => intro n; cases n with | zero => exact .nil | succ n => exact .inside (ih n)
  | match_ hF _ ih => intro n; cases n with | zero => exact .nil | succ n => exact .match_ hF (ih n)
  | other hF _ ih => intro n; cases n with | zero => exact .nil | succ n => exact .other hF (ih n)

theorem frames_complete : ∀ (fs : List Frame) (n : Str) (a : Attrs) (cs : List Node),
    ∃ m a' cs' later, Node.events [] (.elem m a' cs') = frameEvents ((n, a, cs) :: fs) ++ later := by
  intro fs
  induction fs with
  | nil => intro n a cs; exact ⟨n, a, cs, [.stop n []], by simp [frameEvents, frameNames, Node.events]⟩
  | cons f fs ih =>
    obtain ⟨m, a', cs'⟩ := f
    intro n a cs
    obtain ⟨k, b, ds, later, h⟩ := ih m a' (cs' ++ [.elem n a cs])
    refine ⟨k, b, ds, .stop n ((frameNames fs).reverse ++ [m]) :: later, h.trans ?_⟩
    simp [frameEvents, frameNames, Node.events, Node.eventsList, eventsList_append]

/-- Events that are well nested are a beginning of the events of an element. -/
theorem complete_events {evs : List Event} (h : WellNested evs) : ∃ n a cs later, Node.events [] (.elem n a cs) = evs ++ later := by
  have hf := track_frames evs
  cases ht : track evs with
  | bad => exact absurd ht h
  | before =>
    rw [ht] at hf
    exact ⟨[], [], [], _, by rw [show evs = [] from hf]; rfl⟩
  | after =>
    rw [ht] at hf
    obtain ⟨n, a, cs, h⟩ := hf
    exact ⟨n, a, cs, [], by rw [h, List.append_nil]⟩
  | inside o =>
    rw [ht] at hf
    obtain ⟨fs, _, h2, h3⟩ := hf
    cases fs with
    | nil => exact absurd rfl h2
    | cons f fs =>
      obtain ⟨n, a, cs⟩ := f
      rw [h3]
      exact frames_complete fs n a cs

theorem srun_length : ∀ {evs : List Event} {s s' : Sender} {os}, s.run (quiet evs) = (os, some s') → os.length = evs.length := by
  intro evs
  induction evs with
  | nil => intro s s' os h; simp only [quiet, List.map_nil, Sender.run] at h; cases h; rfl
  | cons ev evs ih =>
    intro s s' os h
    simp only [quiet, List.map_cons, Sender.run] at h
    cases hh : s.handle (fun _ => none) ev with
    | mk o r =>
      rw [hh] at h
      cases r with
      | none => cases h
      | some s1 =>
        simp only at h
        cases hx : s1.run (evs.map fun ev => (ev, fun _ => none)) with
        | mk o' r' =>
          rw [hx] at h
          cases h
          rw [List.length_cons, List.length_cons, ih hx]

theorem srun_take {s : Sender} {evs later : List Event} {os : List (List SOut)} {s' : Sender}
    (h : s.run (quiet (evs ++ later)) = (os, some s')) :
    ∃ s'', s.run (quiet evs) = (os.take evs.length, some s'') := by
  rw [srun_append] at h
  cases hx : s.run (quiet evs) with
  | mk o r =>
    rw [hx] at h
    cases r with
    | none => cases h
    | some s1 =>
      simp only [Prod.mk.injEq] at h
      refine ⟨s1, ?_⟩
      rw [← h.1, ← srun_length hx, List.take_left]

/-- C133.  Whatever the text and the patterns (so long as none makes the sender raise): the events of the text are a beginning
of the events of some element, and with each of them every sink is sent what it would be sent in a document with that element:
a matching element when it ends, and otherwise nothing; nothing is attached elsewhere; and the sender raises only what the
parser raises. -/
theorem C133_any_text (w : Str) (pats : List (List (Stage Event))) (hall : ∀ p ∈ pats, Callable p) :
    ∃ (e : Node) (later : List Event), e.isText = false ∧ e.events [] = (send newParser w false).1 ++ later ∧
      (((newSender pats).parse w).2.isSome ↔ (send newParser w false).2.1 = .returned) ∧
      (∀ o ∈ ((newSender pats).parse w).1, strays o = []) ∧
      ∀ k st, GoesBy pats k st →
        Delivers (fun q => ∃ t, e.opened [] q = some t ∧ ReachesFirst st (stretched pats.length k t) ∧
          ∀ t', t' <+: t → t' ≠ t → ¬ ReachesFirst st (stretched pats.length k t'))
          ((e.marks [] []).take (send newParser w false).1.length) (((newSender pats).parse w).1.map (sentTo k)) := by
  have hwn : WellNested (send newParser w false).1 := by
    have := C03_events_well_nested [(w, false)]
    simpa [sends] using this
  obtain ⟨n, a, cs, later, he⟩ := complete_events hwn
  obtain ⟨os, h1, h2, h3⟩ := C35_what_each_sink_gets_exactly (.elem n a cs) pats hall
  rw [he] at h1
  obtain ⟨s'', h4⟩ := srun_take h1
  have hp : (newSender pats).parse w = (os.take (send newParser w false).1.length,
      if (send newParser w false).2.1 = .returned then some s'' else none) := by
    rw [quiet] at h4
    simp only [Sender.parse, drive_eq, h4]
  refine ⟨.elem n a cs, later, rfl, he, ?_⟩
  rw [hp]
  refine ⟨?_, fun o ho => h2 o (List.mem_of_mem_take ho), fun k st hk => ?_⟩
  · by_cases hr : (send newParser w false).2.1 = .returned <;> simp [hr]
  · simp only [List.map_take]
    exact delivers_take (h3 k st hk) _

/-! Which elements have ended. -/

/-- The ends are numbered: with `k` tags before, the element at `q` ends with tag number `f q`. -/
def NumFrom (f : Path → Nat) : Nat → List (Event × Option (Path × Node)) → Prop
  | _, [] => True
  | k, (ev, m) :: ms => (∀ q z, m = some (q, z) → ev.isTag = true ∧ f q = k + 1) ∧
      NumFrom f (k + if ev.isTag then 1 else 0) ms

theorem numFrom_append {f : Path → Nat} : ∀ (a b : List (Event × Option (Path × Node))) (k : Nat),
    NumFrom f k (a ++ b) ↔ NumFrom f k a ∧ NumFrom f (k + a.countP (·.1.isTag)) b := by
  intro a
  induction a with
  | nil => intro b k; simp [NumFrom]
  | cons x a ih =>
    obtain ⟨ev, m⟩ := x
    intro b k
    simp only [List.cons_append, NumFrom, ih, and_assoc, List.countP_cons]
    by_cases h : ev.isTag = true <;> simp [h, Nat.add_assoc, Nat.add_comm 1]

theorem marks_num : (∀ (x : Node) (p : Path) (anc : List Str) (k : Nat) (f : Path → Nat),
      (∀ r, (∃ y, x.at? r = some y ∧ y.isText = false) → f (p ++ r) = k + x.tagsTo r) →
      NumFrom f k (x.marks p anc) ∧ (x.marks p anc).countP (·.1.isTag) = x.tags) ∧
    (∀ (xs : List Node) (p : Path) (i : Nat) (anc : List Str) (k : Nat) (f : Path → Nat),
      (∀ j x r, xs[j]? = some x → (∃ y, x.at? r = some y ∧ y.isText = false) →
        f (p ++ (i + j) :: r) = k + Node.tagsList (xs.take j) + x.tagsTo r) →
      NumFrom f k (Node.marksList p i anc xs) ∧ (Node.marksList p i anc xs).countP (·.1.isTag) = Node.tagsList xs) := by
  apply Node.induct
  case elem =>
    intro n as cs ih p anc k f hf
    obtain ⟨h1, h2⟩ := ih p 0 (anc ++ [n]) (k + 1) f (by
      intro j x r hx hy
      have := hf (j :: r) (by simpa only [Node.at?, Node.xmlChildren, hx] using hy)
      rw [Nat.zero_add, this, Node.tagsTo, hx]
      simp only
      omega)
    have h3 := hf [] ⟨_, rfl, rfl⟩
    rw [List.append_nil] at h3
    refine ⟨⟨?_, (numFrom_append _ _ _).2 ⟨h1, ?_, trivial⟩⟩, ?_⟩
    · intro q z h; cases h
    · intro q z h
      cases h
      refine ⟨rfl, ?_⟩
      rw [h3, h2]
      simp only [Node.tagsTo, Node.tags, Event.isTag, if_true]
      omega
    · rw [Node.marks, List.countP_cons, List.countP_append, h2]
      simp [Event.isTag, Node.tags]
      omega
  case text => intro s p anc k f _; exact ⟨⟨fun q z h => (by cases h), trivial⟩, rfl⟩
  case nil => intro p i anc k f _; exact ⟨trivial, rfl⟩
  case cons =>
    intro x xs ihx ihs p i anc k f hf
    obtain ⟨h1, h2⟩ := ihx (p ++ [i]) anc k f (by
      intro r hy
      have := hf 0 x r rfl hy
      simpa [Node.tagsList] using this)
    obtain ⟨h3, h4⟩ := ihs p (i + 1) anc (k + x.tags) f (by
      intro j y r hy hz
      have := hf (j + 1) y r (by simpa using hy) hz
      rw [show i + 1 + j = i + (j + 1) by omega, this]
      simp only [List.take_succ_cons, Node.tagsList]
      omega)
    rw [Node.marksList]
    refine ⟨(numFrom_append _ _ _).2 ⟨h1, by rw [h2]; exact h3⟩, ?_⟩
    rw [List.countP_append, h2, h4, Node.tagsList]

theorem numFrom_gt {f : Path → Nat} : ∀ (ms : List (Event × Option (Path × Node))) (k : Nat) (q : Path) (z : Node), NumFrom f k ms →
    (q, z) ∈ ms.filterMap (·.2) → k < f q := by
  intro ms
  induction ms with
  | nil => intro k q z _ h; simp at h
  | cons x ms ih =>
    obtain ⟨ev, m⟩ := x
    intro k q z h hm
    rw [List.filterMap_cons] at hm
    cases m with
    | none => exact Nat.lt_of_le_of_lt (Nat.le_add_right _ _) (ih _ q z h.2 hm)
    | some y =>
      rcases List.mem_cons.1 hm with rfl | hm
      · rw [(h.1 q z rfl).2]; omega
      · exact Nat.lt_of_le_of_lt (Nat.le_add_right _ _) (ih _ q z h.2 hm)

theorem numFrom_sorted {f : Path → Nat} : ∀ (ms : List (Event × Option (Path × Node))) (k : Nat), NumFrom f k ms →
    (ms.filterMap (·.2)).Pairwise fun a b => f a.1 < f b.1 := by
  intro ms
  induction ms with
  | nil => intro k _; simp
  | cons x ms ih =>
    obtain ⟨ev, m⟩ := x
    intro k h
    rw [List.filterMap_cons]
    cases m with
    | none => exact ih _ h.2
    | some y =>
      obtain ⟨q, z⟩ := y
      refine List.pairwise_cons.2 ⟨?_, ih _ h.2⟩
      rintro ⟨q', z'⟩ hm
      have h1 := h.1 q z rfl
      have h2 := numFrom_gt _ _ q' z' h.2 hm
      rw [h1.1] at h2
      simp only [if_true] at h2
      show f q < f q'
      omega

theorem numFrom_mem {f : Path → Nat} : ∀ (ms : List (Event × Option (Path × Node))) (k n : Nat) (q : Path) (z : Node), NumFrom f k ms →
    ((q, z) ∈ (ms.take n).filterMap (·.2) ↔ (q, z) ∈ ms.filterMap (·.2) ∧ f q ≤ k + (ms.take n).countP (·.1.isTag)) := by
  intro ms
  induction ms with
  | nil => intro k n q z _; simp
  | cons x ms ih =>
    intro k n q z h
    cases n with
    | zero =>
      simp only [List.take_zero, List.filterMap_nil, List.not_mem_nil, List.countP_nil, Nat.add_zero, false_iff, not_and]
      intro hm
      have := numFrom_gt _ k q z h hm
      omega
    | succ n =>
      obtain ⟨ev, m⟩ := x
      have hi := ih _ n q z h.2
      have hc : k + (((ev, m) :: ms).take (n + 1)).countP (·.1.isTag) =
          k + (if ev.isTag then 1 else 0) + (ms.take n).countP (·.1.isTag) := by
        rw [List.take_succ_cons, List.countP_cons, Nat.add_assoc, Nat.add_comm (List.countP _ _)]
      rw [hc, List.take_succ_cons, List.filterMap_cons, List.filterMap_cons]
      cases m with
      | none => exact hi
      | some y =>
        simp only [List.mem_cons]
        constructor
        · rintro (rfl | hm)
          · obtain ⟨h1, h2⟩ := h.1 q z rfl
            refine ⟨.inl rfl, ?_⟩
            rw [h2, h1]
            simp only [if_true]
            omega
          · exact ⟨.inr (hi.1 hm).1, (hi.1 hm).2⟩
        · rintro ⟨rfl | hm, hle⟩
          · exact .inl rfl
          · exact .inr (hi.2 ⟨hm, hle⟩)

/-- C133, a document that is cut off anywhere: nothing is raised, and the sink is sent exactly the matching elements (with every
'**' laid up to the first fit) whose end tag is complete, whole, in the order in which they end. -/
theorem C133_cut_off {e : Node} {x y : Str} (h : IsDoc e (x ++ y)) (p : List (Stage Event)) (hc : Callable p) :
    ((newSender [p]).parse x).2.isSome = true ∧
    ∃ l : List (Path × Node), (((newSender [p]).parse x).1.map (sentTo 0)).flatten = l.map Prod.snd ∧
      (l.Pairwise fun a b => e.tagsTo a.1 < e.tagsTo b.1) ∧
      ∀ q z, (q, z) ∈ l ↔ e.at? q = some z ∧ z.isText = false ∧
        (∃ t, e.opened [] q = some t ∧ LaysFirst Event.look p t) ∧ e.tagsTo q ≤ x.count '>' := by
  obtain ⟨hret, later, h1, h2, -, -⟩ := C116_delivered_so_far h
  obtain ⟨os, h3, h4⟩ := C33_exactly_first_fits_sent e p hc
  rw [h1] at h3
  obtain ⟨s', h5⟩ := srun_take h3
  have hp : (newSender [p]).parse x = (os.take (send newParser x false).1.length, some s') := by
    rw [quiet] at h5
    simp only [Sender.parse, drive_eq, h5, hret, if_true]
  rw [hp]
  refine ⟨rfl, ?_⟩
  have hd := delivers_take h4 (send newParser x false).1.length
  rw [← List.map_take] at hd
  obtain ⟨l, k1, k2, k3⟩ := delivers_list hd
  have hnum := (marks_num.1 e [] [] 0 e.tagsTo (fun r _ => (by simp))).1
  refine ⟨l, k1, ?_, fun q z => ?_⟩
  · refine List.Pairwise.sublist (k2.trans ((List.take_sublist _ _).filterMap _)) (numFrom_sorted _ 0 hnum)
  · rw [k3, numFrom_mem _ 0 _ q z hnum, (marks_list.1 e [] []).1]
    have hcount : ((e.marks [] []).take (send newParser x false).1.length).countP (·.1.isTag) = x.count '>' := by
      rw [← h2]
      have : ((e.marks [] []).take (send newParser x false).1.length).map (·.1) = (send newParser x false).1 := by
        rw [List.map_take, marks_events.1, h1, List.take_left]
      have h6 := congrArg (List.countP Event.isTag) this
      rw [List.countP_map] at h6
      exact h6
    rw [hcount, Nat.zero_add]
    constructor
    · rintro ⟨⟨⟨r, rfl, a, b⟩, c⟩, d⟩; exact ⟨a, b, d, c⟩
    · rintro ⟨a, b, d, c⟩; exact ⟨⟨⟨q, rfl, a, b⟩, c⟩, d⟩

/-- `('a', 'b')` on the cut-off `<a><b>1</b><c></c><b>2</b` : the first `b` is sent (its end tag is the third tag), the second
(seventh tag) is not. -/
def cutExample : Node := .elem ['a'] [] [.elem ['b'] [] [.text ['1']], .elem ['c'] [] [], .elem ['b'] [] [.text ['2']]]
example : (((newSender [[.name ['a'], .name ['b']]]).parse "<a><b>1</b><c></c><b>2</b".toList).1.map (sentTo 0)).flatten =
    [.elem ['b'] [] [.text ['1']]] := by decide +kernel
example : cutExample.tagsTo [0] = 3 ∧ cutExample.tagsTo [2] = 7 ∧ "<a><b>1</b><c></c><b>2</b".toList.count '>' = 6 := by decide
/-- `</a>` in the wrong place: what was complete before has been sent, and the parser's exception comes out. -/
example : (((newSender [[.name ['a'], .name ['b']]]).parse "<a><b>1</b><c></a>".toList).1.map (sentTo 0)) =
    [[], [], [], [.elem ['b'] [] [.text ['1']]], []] ∧
    ((newSender [[.name ['a'], .name ['b']]]).parse "<a><b>1</b><c></a>".toList).2.isSome = false := by decide +kernel

end Amara
