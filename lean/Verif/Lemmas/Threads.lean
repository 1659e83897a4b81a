import Verif.Spec.Threads
import Verif.Lemmas.Builder
import Verif.Props.Tree
/-
Helper lemmas: what is made by a call of `tree.parse` belongs to that call and to no other.
-/
namespace Amara

theorem runsWith_snoc {D ops b b'} (h : RunsWith D ops b b') (o : Op) : RunsWith D (ops ++ [o]) b (o.exec b') := by
  induction h with
  | done => exact .op .done
  | collect hd _ ih => exact .collect hd ih
  | op _ ih => exact .op ih

theorem runsWith_disturb {D ops b b' h'} (h : RunsWith D ops b b') (hd : D b'.roots b'.heap h') :
    RunsWith D ops b { b' with heap := h' } := by
  induction h with
  | done => exact .collect hd .done
  | collect hc _ ih => exact .collect hc (ih hd)
  | op _ ih => exact .op (ih hd)

theorem disturbed_trans {roots : List Id} {h h1 h2 : Heap} (a : Disturbed roots h h1) (b : Disturbed roots h1 h2) :
    Disturbed roots h h2 := by
  have hre : ∀ i, Reachable h roots i → Reachable h1 roots i := by
    intro i hr
    induction hr with
    | root hm => exact .root hm
    | child hr hm ih => exact .child ih (by simpa only [Heap.children, a.2 _ hr] using hm)
  exact ⟨Nat.le_trans a.1 b.1, fun i hr => by rw [b.2 i (hre i hr), a.2 i hr]⟩

theorem disturbed_mono {roots roots' : List Id} {h h' : Heap} (a : Disturbed roots h h')
    (hs : ∀ i ∈ roots', i ∈ roots) : Disturbed roots' h h' := by
  refine ⟨a.1, fun i hr => a.2 i ?_⟩
  induction hr with
  | root hm => exact .root (hs _ hm)
  | child _ hm ih => exact .child ih hm

/-! ### ownership -/

/-- `owner` tells which call made an object; the objects of a call refer only to each other. -/
structure Owned (owner : Id → Option Nat) (h : Heap) : Prop where
  lt : ∀ i k, owner i = some k → i < h.next
  kids : ∀ i k o, owner i = some k → h.obj i = some o → ∀ c ∈ o.kids, owner c = some k
  link : ∀ i k o, owner i = some k → h.obj i = some o → ∀ p, o.link = some p → owner p = some k

/-- Everything a builder refers to belongs to call `k`. -/
structure OwnB (owner : Id → Option Nat) (k : Nat) (b : Builder) : Prop where
  root : ∀ i, b.root = some i → owner i = some k
  parent : ∀ i, b.parent = some i → owner i = some k
  new : ∀ i, b.newElement = some i → owner i = some k
  txt : ∀ i, b.newText = some i → owner i = some k

theorem owned_reachable {owner h k} (ho : Owned owner h) {roots : List Id} (hr : ∀ i ∈ roots, owner i = some k) :
    ∀ i, Reachable h roots i → owner i = some k := by
  intro i hi
  induction hi with
  | root hm => exact hr _ hm
  | @child j c _ hm ih =>
    cases hj : h.obj j with
    | none => simp [Heap.children, hj] at hm
    | some o => exact ho.kids j k o ih hj c (by simpa [Heap.children, hj] using hm)

theorem ownB_roots {owner k b} (h : OwnB owner k b) : ∀ i ∈ b.roots, owner i = some k := by
  intro i hi
  simp only [Builder.roots, List.mem_append, Option.mem_toList] at hi
  rcases hi with ((hi | hi) | hi) | hi
  · exact h.root i hi
  · exact h.parent i hi
  · exact h.new i hi
  · exact h.txt i hi

/-- What a step of call `j` does to the objects. -/
structure OwnStep (owner owner' : Id → Option Nat) (j : Nat) (b b' : Builder) : Prop where
  mono : ∀ i k, owner i = some k → owner' i = some k
  owned : Owned owner' b'.heap
  ownB : OwnB owner' j b'
  same : ∀ i k, owner i = some k → k ≠ j → b'.heap.obj i = b.heap.obj i
  next : b.heap.next ≤ b'.heap.next

theorem ownStep_alloc {owner j b} (ho : Owned owner b.heap) (hb : OwnB owner j b) (o : Obj) (hk : o.kids = [])
    (hl : o.link = b.parent) :
    let owner' := fun i => if i = b.heap.next then some j else owner i
    (∀ i k, owner i = some k → owner' i = some k) ∧ Owned owner' (b.heap.alloc o) ∧
    (∀ i k, owner i = some k → k ≠ j → (b.heap.alloc o).obj i = b.heap.obj i) ∧ owner' b.heap.next = some j := by
  have mono : ∀ i k, owner i = some k → (if i = b.heap.next then some j else owner i) = some k := by
    intro i k hi
    rw [if_neg (Nat.ne_of_lt (ho.lt i k hi)), hi]
  refine ⟨mono, ⟨?_, ?_, ?_⟩, ?_, by simp⟩
  · intro i k hi
    show i < b.heap.next + 1
    by_cases h : i = b.heap.next
    · exact h ▸ Nat.lt_succ_self _
    · rw [if_neg h] at hi; exact Nat.lt_succ_of_lt (ho.lt i k hi)
  · intro i k ob hi hob c hc
    rw [alloc_obj] at hob
    by_cases h : i = b.heap.next
    · rw [if_pos h] at hob
      cases hob
      rw [hk] at hc; cases hc
    · rw [if_neg h] at hi hob
      exact mono _ _ (ho.kids i k ob hi hob c hc)
  · intro i k ob hi hob p hp
    rw [alloc_obj] at hob
    by_cases h : i = b.heap.next
    · rw [if_pos h] at hob hi
      cases hob
      cases hi
      rw [hl] at hp
      exact mono _ _ (hb.parent p hp)
    · rw [if_neg h] at hi hob
      exact mono _ _ (ho.link i k ob hi hob p hp)
  · intro i k hi _
    rw [alloc_obj, if_neg (Nat.ne_of_lt (ho.lt i k hi))]

theorem append_obj {h : Heap} {x c i : Id} {o : Obj} (ho : (h.append x c).obj i = some o) :
    h.obj i = some o ∨ i = x ∧ ∃ n as cs p, h.obj x = some (.elem n as cs p) ∧ o = .elem n as (cs ++ [c]) p := by
  unfold Heap.append at ho
  split at ho
  · rename_i n as cs p hx
    rw [set_obj] at ho
    by_cases hi : i = x
    · rw [if_pos hi] at ho
      cases ho
      exact .inr ⟨hi, n, as, cs, p, hx, rfl⟩
    · rw [if_neg hi] at ho; exact .inl ho
  · exact .inl ho

theorem append_other {h : Heap} {x c i : Id} (hi : i ≠ x) : (h.append x c).obj i = h.obj i := by
  unfold Heap.append
  split
  · rw [set_obj, if_neg hi]
  · rfl

theorem owned_append {owner j} {h : Heap} (ho : Owned owner h) {x c : Id} (hx : owner x = some j)
    (hc : owner c = some j) : Owned owner (h.append x c) := by
  refine ⟨fun i k hi => by rw [append_next]; exact ho.lt i k hi, ?_, ?_⟩
  · intro i k o hi hob d hd
    rcases append_obj hob with h1 | ⟨rfl, n, as, cs, p, h1, rfl⟩
    · exact ho.kids i k o hi h1 d hd
    · rcases List.mem_append.1 hd with hd | hd
      · exact ho.kids i k _ hi h1 d hd
      · rw [List.mem_singleton.1 hd, hc, ← hx, hi]
  · intro i k o hi hob p hp
    rcases append_obj hob with h1 | ⟨rfl, n, as, cs, q, h1, rfl⟩
    · exact ho.link i k o hi h1 p hp
    · exact ho.link i k _ hi h1 p hp

theorem ownStep_same {owner j b b'} (ho : Owned owner b.heap) (hh : b'.heap = b.heap) (hb : OwnB owner j b') :
    OwnStep owner owner j b b' :=
  ⟨fun _ _ h => h, hh ▸ ho, hb, fun i _ _ _ => by rw [hh], by rw [hh]; exact Nat.le_refl _⟩

theorem op_ownStep {owner j b} (ho : Owned owner b.heap) (hb : OwnB owner j b) (o : Op) :
    ∃ owner', OwnStep owner owner' j b (o.exec b) := by
  cases o with
  | makeElement n as =>
    obtain ⟨h1, h2, h3, h4⟩ := ownStep_alloc ho hb (.elem n as [] b.parent) rfl rfl
    exact ⟨_, h1, h2, ⟨fun i hi => h1 i j (hb.root i hi), fun i hi => h1 i j (hb.parent i hi),
      fun i hi => by cases hi; exact h4, fun i hi => h1 i j (hb.txt i hi)⟩, h3, Nat.le_succ _⟩
  | makeText s =>
    obtain ⟨h1, h2, h3, h4⟩ := ownStep_alloc ho hb (.text s b.parent) rfl rfl
    exact ⟨_, h1, h2, ⟨fun i hi => h1 i j (hb.root i hi), fun i hi => h1 i j (hb.parent i hi),
      fun i hi => h1 i j (hb.new i hi), fun i hi => by cases hi; exact h4⟩, h3, Nat.le_succ _⟩
  | linkElement =>
    refine ⟨owner, ?_⟩
    cases hp : b.parent with
    | none => simp only [Op.exec, hp]; exact ownStep_same ho rfl hb
    | some p =>
      cases hc : b.newElement with
      | none => simp only [Op.exec, hp, hc]; exact ownStep_same ho rfl hb
      | some c =>
        simp only [Op.exec, hp, hc]
        refine ⟨fun _ _ h => h, owned_append ho (hb.parent p hp) (hb.new c hc), ⟨hb.root, ?_, ?_, hb.txt⟩, ?_, ?_⟩
        · intro i hi; exact hb.parent i (hp.trans hi)
        · intro i hi; exact hb.new i (hc.trans hi)
        · intro i k hi hk
          refine append_other ?_
          rintro rfl
          rw [hb.parent i hp] at hi
          exact hk (Option.some.inj hi).symm
        · show _ ≤ (b.heap.append p c).next; rw [append_next]; exact Nat.le_refl _
  | linkText =>
    refine ⟨owner, ?_⟩
    cases hp : b.parent with
    | none => simp only [Op.exec, hp]; exact ownStep_same ho rfl hb
    | some p =>
      cases hc : b.newText with
      | none => simp only [Op.exec, hp, hc]; exact ownStep_same ho rfl hb
      | some c =>
        simp only [Op.exec, hp, hc]
        refine ⟨fun _ _ h => h, owned_append ho (hb.parent p hp) (hb.txt c hc), ⟨hb.root, ?_, hb.new, ?_⟩, ?_, ?_⟩
        · intro i hi; exact hb.parent i (hp.trans hi)
        · intro i hi; exact hb.txt i (hc.trans hi)
        · intro i k hi hk
          refine append_other ?_
          rintro rfl
          rw [hb.parent i hp] at hi
          exact hk (Option.some.inj hi).symm
        · show _ ≤ (b.heap.append p c).next; rw [append_next]; exact Nat.le_refl _
  | moveDown => exact ⟨owner, ownStep_same ho rfl ⟨hb.root, hb.new, hb.new, hb.txt⟩⟩
  | setRoot =>
    refine ⟨owner, ?_⟩
    simp only [Op.exec]
    split
    · exact ownStep_same ho rfl ⟨hb.new, hb.parent, hb.new, hb.txt⟩
    · exact ownStep_same ho rfl hb
  | moveUp =>
    refine ⟨owner, ?_⟩
    cases hp : b.parent with
    | none => simp only [Op.exec, hp]; exact ownStep_same ho rfl hb
    | some p =>
      simp only [Op.exec, hp]
      refine ownStep_same ho rfl ⟨hb.root, ?_, hb.new, hb.txt⟩
      intro i hi
      simp only [Heap.xmlParent, Heap.deref] at hi
      cases hob : b.heap.obj p with
      | none => rw [hob] at hi; cases hi
      | some o =>
        rw [hob] at hi
        simp only [Option.bind_some] at hi
        cases hl : o.link with
        | none => rw [hl] at hi; cases hi
        | some q =>
          rw [hl] at hi
          simp only at hi
          split at hi
          · exact ho.link p j o (hb.parent p hp) hob i (hl.trans hi)
          · cases hi

theorem callOp_ownStep {owner j b} (ho : Owned owner b.heap) (hb : OwnB owner j b) (o : CallOp) :
    ∃ owner', OwnStep owner owner' j b (o.exec b) := by
  cases o with
  | clearRoot => exact ⟨owner, ownStep_same ho rfl ⟨nofun, hb.parent, hb.new, hb.txt⟩⟩
  | clearParent => exact ⟨owner, ownStep_same ho rfl ⟨hb.root, nofun, hb.new, hb.txt⟩⟩
  | newHandler => exact ⟨owner, ownStep_same ho rfl ⟨hb.root, hb.parent, nofun, nofun⟩⟩
  | handle o => exact op_ownStep ho hb o
  | finish r => exact ⟨owner, ownStep_same ho rfl ⟨hb.root, hb.parent, nofun, nofun⟩⟩

/-! ### how far a call has got -/

/-- The outcome of the parser as the outcome of the call that returns `root`. -/
def SendRes.parseRes (root : Option Id) : SendRes → ParseRes
  | .returned => .returned root
  | .raised e => .raised e
  | .stopIteration => .stopIteration
  | .never => .never

/-- `c` is a call for `doc` that is `b` to itself and has got somewhere. -/
inductive Phase (doc : Str) (b : Builder) (c : ParseCall) : Prop
  | starting (n : Nat) : n < 3 → c.todo = (parseOps doc).drop n → c.result = none →
      (0 < n → b.root = none) → (1 < n → b.parent = none) → Phase doc b c
  | running (dn rest : List Op) (b0 : Builder) : dn ++ rest = (drive doc).1.flatMap Event.ops →
      c.todo = rest.map .handle ++ [.finish (drive doc).2] → c.result = none → Empty b0 →
      RunsWith Disturbed dn b0 b → Phase doc b c
  | ended (root : Option Id) (t : Option Node) : c.todo = [] → c.result = some ((drive doc).2.parseRes root) →
      Described (drive doc).1 t → ((drive doc).2 = .returned → IsTop b.heap root t) → Phase doc b c

theorem phase_step {doc b c o rest} (hp : Phase doc b c) (ht : c.todo = o :: rest) {ne nt} :
    Phase doc (o.exec b) { c with newElement := ne, newText := nt, todo := rest, result := o.outcome b } := by
  cases hp with
  | starting n hn h1 h2 hr hpar =>
    rw [ht] at h1
    match n, hn with
    | 0, _ =>
      simp only [parseOps, List.drop_zero, List.cons_append, List.nil_append] at h1
      injection h1 with h1 h3
      subst h1
      exact .starting 1 (by decide) h3 rfl (fun _ => rfl) (fun h => absurd h (by decide))
    | 1, _ =>
      simp only [parseOps, List.drop_succ_cons, List.drop_zero, List.cons_append, List.nil_append] at h1
      injection h1 with h1 h3
      subst h1
      exact .starting 2 (by decide) h3 rfl (fun _ => hr (by decide)) (fun _ => rfl)
    | 2, _ =>
      simp only [parseOps, List.drop_succ_cons, List.drop_zero, List.cons_append, List.nil_append] at h1
      injection h1 with h1 h3
      subst h1
      exact .running [] _ (CallOp.newHandler.exec b) rfl h3 rfl ⟨hr (by decide), hpar (by decide)⟩ .done
  | running dn rst b0 h1 h2 h3 h4 h5 =>
    rw [ht] at h2
    cases rst with
    | nil =>
      simp only [List.map_nil, List.nil_append] at h2
      injection h2 with h2 h6
      subst h2 h6
      rw [List.append_nil] at h1
      subst h1
      obtain ⟨t, hd, htr⟩ := events_tree_with harmless_disturbed (drive doc).1 (drive_wellNested doc)
      refine .ended b.root t rfl ?_ hd (fun _ => htr b0 b h4 h5)
      show CallOp.outcome b (.finish (drive doc).2) = _
      cases (drive doc).2 <;> rfl
    | cons x xs =>
      simp only [List.map_cons, List.cons_append] at h2
      injection h2 with h2 h6
      subst h2 h6
      exact .running (dn ++ [x]) xs b0 (by simpa using h1) rfl rfl h4 (runsWith_snoc h5 x)
  | ended root t h1 => rw [ht] at h1; cases h1

theorem phase_disturb {doc b c h'} (hp : Phase doc b c)
    (hd : c.result = none → Disturbed b.roots b.heap h')
    (hd' : ∀ root, c.result = some (.returned root) → Disturbed root.toList b.heap h') :
    Phase doc { b with heap := h' } c := by
  cases hp with
  | starting n hn h1 h2 hr hpar => exact .starting n hn h1 h2 hr hpar
  | running dn rst b0 h1 h2 h3 h4 h5 => exact .running dn rst b0 h1 h2 h3 h4 (runsWith_disturb h5 (hd h3))
  | ended root t h1 h2 h3 h4 =>
    exact .ended root t h1 h2 h3 (fun hs => isTop_disturbed (h4 hs) (hd' root (by rw [h2, hs]; rfl)))

/-! ### all calls together -/

theorem wstep_eq {w : World} {k : Nat} {c : ParseCall} {o rest} (hk : w.calls[k]? = some c) (ht : c.todo = o :: rest) :
    w.step k =
      { w with
        heap := (o.exec (w.view c)).heap
        objs := fun j => if j = c.self then ⟨(o.exec (w.view c)).root, (o.exec (w.view c)).parent⟩ else w.objs j
        calls := w.calls.set k { c with newElement := (o.exec (w.view c)).newElement, newText := (o.exec (w.view c)).newText, todo := rest, result := o.outcome (w.view c) } } := by
  simp only [World.step, hk, ht]

theorem wstep_done {w : World} {k : Nat} {c : ParseCall} (hk : w.calls[k]? = some c) (ht : c.todo = []) : w.step k = w := by
  simp only [World.step, hk, ht]

theorem wstep_none {w : World} {k : Nat} (hk : w.calls[k]? = none) : w.step k = w := by
  simp only [World.step, hk]

theorem lt_of_get {α} {l : List α} {k : Nat} {c : α} (h : l[k]? = some c) : k < l.length := by
  rw [List.getElem?_eq_some_iff] at h; exact h.1

/-- The call that makes a step. -/
theorem wstep_self {w : World} {k : Nat} {c : ParseCall} {o rest} (hk : w.calls[k]? = some c) (ht : c.todo = o :: rest) :
    ∃ c', (w.step k).calls[k]? = some c' ∧ (w.step k).view c' = o.exec (w.view c) ∧ c'.self = c.self ∧
      c'.todo = rest ∧ c'.result = o.outcome (w.view c) ∧
      c' = { c with newElement := (o.exec (w.view c)).newElement, newText := (o.exec (w.view c)).newText, todo := rest, result := o.outcome (w.view c) } := by
  rw [wstep_eq hk ht]
  refine ⟨_, List.getElem?_set_self (lt_of_get hk), ?_, rfl, rfl, rfl, rfl⟩
  simp only [World.view, if_pos]

/-- The others. -/
theorem wstep_other {w : World} {k j : Nat} (hjk : j ≠ k) : (w.step k).calls[j]? = w.calls[j]? := by
  cases hk : w.calls[k]? with
  | none => rw [wstep_none hk]
  | some c =>
    cases ht : c.todo with
    | nil => rw [wstep_done hk ht]
    | cons o rest => rw [wstep_eq hk ht]; simp only; rw [List.getElem?_set_ne (Ne.symm hjk)]

theorem roots_running {w : World} {k : Nat} {c : ParseCall} (hk : w.calls[k]? = some c) (hr : c.result = none) :
    ∀ i ∈ (w.view c).roots, i ∈ w.roots := by
  intro i hi
  refine List.mem_append.2 (.inr (List.mem_flatMap.2 ⟨c, List.mem_of_getElem? hk, ?_⟩))
  rw [ParseCall.roots, hr]; exact hi

theorem roots_ended {w : World} {k : Nat} {c : ParseCall} {root} (hk : w.calls[k]? = some c)
    (hr : c.result = some (.returned root)) : ∀ i ∈ root.toList, i ∈ w.roots := by
  intro i hi
  refine List.mem_append.2 (.inr (List.mem_flatMap.2 ⟨c, List.mem_of_getElem? hk, ?_⟩))
  rw [ParseCall.roots, hr]; exact hi

/-- What is true of every call of `tree.parse`. -/
structure CallInv (owner : Id → Option Nat) (docs : List Str) (w : World) (k : Nat) (c : ParseCall) : Prop where
  self : c.self = k
  ownB : OwnB owner k (w.view c)
  res : ∀ i, c.result = some (.returned (some i)) → owner i = some k
  phase : ∀ d, docs[k]? = some d → Phase d (w.view c) c

def WorldInv (docs : List Str) (w : World) : Prop :=
  w.calls.length = docs.length ∧
  ∃ owner, Owned owner w.heap ∧ ∀ k c, w.calls[k]? = some c → CallInv owner docs w k c

theorem worldInv_start (h : Heap) (docs : List Str) : WorldInv docs (World.ofTreeParse h docs) := by
  refine ⟨by simp [World.ofTreeParse], fun _ => none, ⟨nofun, nofun, nofun⟩, ?_⟩
  intro k c hk
  simp only [World.ofTreeParse, List.getElem?_mapIdx, Option.map_eq_some_iff] at hk
  obtain ⟨d, hd, rfl⟩ := hk
  refine ⟨rfl, ⟨nofun, nofun, nofun, nofun⟩, nofun, ?_⟩
  intro d' hd'
  rw [hd] at hd'
  cases hd'
  exact .starting 0 (by decide) rfl rfl (fun h => absurd h (by decide)) (fun h => absurd h (by decide))

theorem worldInv_step {docs w w'} (hi : WorldInv docs w) (hs : Step w w') : WorldInv docs w' := by
  obtain ⟨hlen, owner, ho, hc⟩ := hi
  cases hs with
  | @collect h hcol =>
    refine ⟨hlen, owner, ⟨?_, ?_, ?_⟩, ?_⟩
    · intro i k hi; show i < h.next; rw [hcol.1]; exact ho.lt i k hi
    · intro i k o hi hob
      rcases hcol.2 i with h1 | h1
      · exact ho.kids i k o hi (h1 ▸ hob)
      · rw [h1.1] at hob; cases hob
    · intro i k o hi hob
      rcases hcol.2 i with h1 | h1
      · exact ho.link i k o hi (h1 ▸ hob)
      · rw [h1.1] at hob; cases hob
    · intro k c hk
      have hci := hc k c hk
      refine ⟨hci.self, ⟨hci.ownB.root, hci.ownB.parent, hci.ownB.new, hci.ownB.txt⟩, hci.res, ?_⟩
      intro d hd
      refine phase_disturb (b := w.view c) (hci.phase d hd) ?_ ?_
      · intro hr; exact disturbed_mono (disturbed_collected hcol) (roots_running hk hr)
      · intro root hr; exact disturbed_mono (disturbed_collected hcol) (roots_ended hk hr)
  | call k =>
    cases hk : w.calls[k]? with
    | none => rw [wstep_none hk]; exact ⟨hlen, owner, ho, hc⟩
    | some c =>
      cases ht : c.todo with
      | nil => rw [wstep_done hk ht]; exact ⟨hlen, owner, ho, hc⟩
      | cons o rest =>
        have hci := hc k c hk
        obtain ⟨owner', hst⟩ := callOp_ownStep (b := w.view c) ho hci.ownB o
        have hheap : (w.step k).heap = (o.exec (w.view c)).heap := by rw [wstep_eq hk ht]
        refine ⟨?_, owner', by rw [hheap]; exact hst.owned, ?_⟩
        · rw [wstep_eq hk ht]; simpa using hlen
        · intro j c' hj
          by_cases hjk : j = k
          · subst hjk
            obtain ⟨c1, h1, h2, h3, h4, h5, h6⟩ := wstep_self hk ht
            rw [hj] at h1
            cases h1
            refine ⟨h3.trans hci.self, by rw [h2]; exact hst.ownB, ?_, ?_⟩
            · intro i hi
              rw [h5] at hi
              cases o with
              | finish r =>
                cases r with
                | returned =>
                  simp only [CallOp.outcome, Option.some.injEq, ParseRes.returned.injEq] at hi
                  exact hst.mono i _ (hci.ownB.root i hi)
                | raised => cases hi
                | stopIteration => cases hi
                | never => cases hi
              | _ => cases hi
            · intro d hd
              rw [h2, h6]
              exact phase_step (hci.phase d hd) ht
          · rw [wstep_other hjk] at hj
            have hcj := hc j c' hj
            have hview : (w.step k).view c' = { w.view c' with heap := (w.step k).heap } := by
              rw [wstep_eq hk ht]
              simp only [World.view]
              rw [if_neg (by rw [hcj.self, hci.self]; exact hjk)]
            have hdist : ∀ roots : List Id, (∀ i ∈ roots, owner i = some j) →
                Disturbed roots (w.view c').heap (w.step k).heap := by
              intro roots hr
              rw [hheap]
              exact ⟨hst.next, fun i hi => hst.same i j (owned_reachable ho hr i hi) hjk⟩
            refine ⟨hcj.self, ?_, fun i hi => hst.mono i j (hcj.res i hi), ?_⟩
            · rw [hview]
              exact ⟨fun i hi => hst.mono i j (hcj.ownB.root i hi), fun i hi => hst.mono i j (hcj.ownB.parent i hi),
                fun i hi => hst.mono i j (hcj.ownB.new i hi), fun i hi => hst.mono i j (hcj.ownB.txt i hi)⟩
            · intro d hd
              rw [hview]
              refine phase_disturb (hcj.phase d hd) (fun _ => hdist _ (ownB_roots hcj.ownB)) ?_
              intro root hr
              refine hdist _ (fun i hi => ?_)
              rw [Option.mem_toList] at hi
              exact hcj.res i (by rw [hr, hi])

theorem worldInv_steps {docs w w'} (hi : WorldInv docs w) (hs : Steps w w') : WorldInv docs w' := by
  induction hs with
  | refl => exact hi
  | tail _ h ih => exact worldInv_step ih h

/-- A call that has ended has ended as a call alone would. -/
theorem phase_endsAs {d b0 c r} (hp : Phase d b0 c) (hr : c.result = some r) {b r0 b'} (hq : TreeParse b d r0 b') :
    EndsAs b0.heap r b'.heap r0 := by
  cases hp with
  | starting n hn h1 h2 => rw [hr] at h2; cases h2
  | running dn rst b0 h1 h2 h3 => rw [hr] at h3; cases h3
  | ended root t h1 h2 h3 h4 =>
    rw [hr] at h2
    cases h2
    obtain ⟨t', ht', hall⟩ := treeParse_result d
    obtain ⟨a1, a2⟩ := hall b r0 b' hq
    rw [described_unique h3 ht'] at h4
    cases hs : (drive d).2 with
    | returned =>
      rw [hs] at a2
      exact .inl ⟨root, b'.root, t', rfl, a2, isTop_isTree (h4 hs), a1⟩
    | raised e => rw [hs] at a2; exact .inr ⟨nofun, a2.symm⟩
    | stopIteration => rw [hs] at a2; exact .inr ⟨nofun, a2.symm⟩
    | never => rw [hs] at a2; exact .inr ⟨nofun, a2.symm⟩

/-- A call that is not disturbed by other calls. -/
theorem alone_phase {w w' : World} {k s d} (h0 : w.calls[k]? = some (ParseCall.new s d)) (ha : Alone k w w') :
    ∃ c, w'.calls[k]? = some c ∧ Phase d (w'.view c) c ∧ c.self = s := by
  induction ha with
  | refl => exact ⟨_, h0, .starting 0 (by decide) rfl rfl (fun h => absurd h (by decide)) (fun h => absurd h (by decide)), rfl⟩
  | @call w1 _ ih =>
    obtain ⟨c, h1, h2, h3⟩ := ih
    cases ht : c.todo with
    | nil => rw [wstep_done h1 ht]; exact ⟨c, h1, h2, h3⟩
    | cons o rest =>
      obtain ⟨c', a1, a2, a3, a4, a5, a6⟩ := wstep_self h1 ht
      refine ⟨c', a1, ?_, a3.trans h3⟩
      rw [a2, a6]
      exact phase_step h2 ht
  | @collect w1 h _ hcol ih =>
    obtain ⟨c, h1, h2, h3⟩ := ih
    refine ⟨c, h1, ?_, h3⟩
    refine phase_disturb (b := w1.view c) h2 ?_ ?_
    · intro hr; exact disturbed_mono (disturbed_collected hcol) (roots_running h1 hr)
    · intro root hr; exact disturbed_mono (disturbed_collected hcol) (roots_ended h1 hr)

/-- `n` steps of call `k`. -/
def World.stepN (w : World) (k : Nat) : Nat → World
  | 0 => w
  | n + 1 => (w.stepN k n).step k

theorem stepN_alone (w : World) (k n : Nat) : Alone k w (w.stepN k n) := by
  induction n with
  | zero => exact .refl
  | succ n ih => exact .call ih

theorem steps_trans {w w1 w2 : World} (h1 : Steps w w1) (h2 : Steps w1 w2) : Steps w w2 := by
  induction h2 with
  | refl => exact h1
  | tail _ h ih => exact .tail ih h

theorem alone_steps {k} {w w' : World} (h : Alone k w w') : Steps w w' := by
  induction h with
  | refl => exact .refl
  | call _ ih => exact .tail ih (.call k)
  | collect _ hc ih => exact .tail ih (.collect hc)

theorem stepN_self {w : World} {k : Nat} {c : ParseCall} (hk : w.calls[k]? = some c) (n : Nat) :
    ∃ c', (w.stepN k n).calls[k]? = some c' ∧ c'.self = c.self ∧ c'.todo = c.todo.drop n := by
  induction n with
  | zero => exact ⟨c, hk, rfl, rfl⟩
  | succ n ih =>
    obtain ⟨c', h1, h2, h3⟩ := ih
    cases ht : c'.todo with
    | nil =>
      refine ⟨c', by rw [World.stepN, wstep_done h1 ht]; exact h1, h2, ?_⟩
      rw [ht, ← List.drop_drop, ← h3, ht]; rfl
    | cons o rest =>
      obtain ⟨c1, a1, _, a3, a4, _⟩ := wstep_self h1 ht
      refine ⟨c1, a1, a3.trans h2, ?_⟩
      rw [a4, ← List.drop_drop, ← h3, ht]; rfl

theorem stepN_other {w : World} {k j : Nat} (hjk : j ≠ k) (n : Nat) : (w.stepN k n).calls[j]? = w.calls[j]? := by
  induction n with
  | zero => rfl
  | succ n ih => rw [World.stepN, wstep_other hjk, ih]

end Amara
