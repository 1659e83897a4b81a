import Verif.Spec.SenderMem
import Verif.Spec.TreeIter
import Verif.Lemmas.Builder
/-
Lemmas about the sender in memory.
-/
namespace Amara

/-! ### trees that were sent -/

/-- A finished tree below `bound`. -/
def SBelow (h : Heap) (bound : Nat) (i : Id) : Node → Prop
  | .elem n as ts => ∃ cs, i < bound ∧ h.obj i = some (.elem n as cs none) ∧ cs.Nodup ∧ RepBs h i bound i cs ts
  | .text _ => False

/-- All that were sent. -/
def SKept (h : Heap) (bound : Nat) : List (Id × Heap) → List Node → Prop
  | [], [] => True
  | p :: ps, x :: xs => SBelow h bound p.1 x ∧ SKept h bound ps xs
  | _, _ => False

theorem sbelow_rep {h bound i t} (hb : SBelow h bound i t) : Rep h none i t := by
  cases t with
  | text s => exact hb.elim
  | elem n as ts =>
    obtain ⟨cs, _, ho, hnd, hc⟩ := hb
    exact repTop_rep ⟨cs, bound, ho, hnd, hc⟩

theorem below_frame {h h' : Heap} {b b' i t} (hb : SBelow h b i t) (hle : b ≤ b') (he : ∀ k, k < b → h'.obj k = h.obj k) :
    SBelow h' b' i t := by
  cases t with
  | text s => exact hb.elim
  | elem n as ts =>
    obtain ⟨cs, hi, ho, hnd, hc⟩ := hb
    exact ⟨cs, Nat.lt_of_lt_of_le hi hle, by rw [he i hi, ho], hnd, repB_frame.2 ts h h' i b b' i cs hc hle fun k _ hk => he k hk⟩

theorem below_collect {roots h h' b i t} (hb : SBelow h b i t) (hc : Disturbed roots h h') (hr : Reachable h roots i) :
    SBelow h' b i t := by
  cases t with
  | text s => exact hb.elim
  | elem n as ts =>
    obtain ⟨cs, hi, ho, hnd, hcs⟩ := hb
    refine ⟨cs, hi, by rw [collected_same hc hr, ho], hnd, repB_collect.2 ts h h' i b i cs hcs hc fun c hm => ?_⟩
    exact .child hr (by simp [Heap.children, ho, Obj.kids, hm])

theorem kept_frame {h h' : Heap} {b b'} (hle : b ≤ b') (he : ∀ k, k < b → h'.obj k = h.obj k) :
    ∀ {ps xs}, SKept h b ps xs → SKept h' b' ps xs
  | [], [], _ => trivial
  | _ :: _, _ :: _, hk => ⟨below_frame hk.1 hle he, kept_frame hle he hk.2⟩
  | [], _ :: _, hk => hk.elim
  | _ :: _, [], hk => hk.elim

theorem kept_collect {roots : List Id} {h h' : Heap} {b} (hc : Disturbed roots h h') :
    ∀ {ps xs}, SKept h b ps xs → (∀ p ∈ ps, Reachable h roots p.1) → SKept h' b ps xs
  | [], [], _, _ => trivial
  | p :: _, _ :: _, hk, hr => ⟨below_collect hk.1 hc (hr p (by simp)), kept_collect hc hk.2 fun q hq => hr q (by simp [hq])⟩
  | [], _ :: _, hk, _ => hk.elim
  | _ :: _, [], hk, _ => hk.elim

theorem kept_snoc {h : Heap} {b i x hh} : ∀ {ps xs}, SKept h b ps xs → SBelow h b i x → SKept h b (ps ++ [(i, hh)]) (xs ++ [x])
  | [], [], _, hb => ⟨hb, trivial⟩
  | _ :: _, _ :: _, hk, hb => ⟨hk.1, kept_snoc hk.2 hb⟩
  | [], _ :: _, hk, _ => hk.elim
  | _ :: _, [], hk, _ => hk.elim

theorem allRep_snoc {f : Id × Heap → Heap} {p x} : ∀ {ps xs}, AllRep f ps xs → Rep (f p) none p.1 x →
    AllRep f (ps ++ [p]) (xs ++ [x])
  | [], [], _, hb => ⟨hb, trivial⟩
  | _ :: _, _ :: _, hk, hb => ⟨hk.1, allRep_snoc hk.2 hb⟩
  | [], _ :: _, hk, _ => hk.elim
  | _ :: _, [], hk, _ => hk.elim

theorem kept_rep {h : Heap} {b} : ∀ {ps xs}, SKept h b ps xs → AllRep (fun _ => h) ps xs
  | [], [], _ => trivial
  | _ :: _, _ :: _, hk => ⟨sbelow_rep hk.1, kept_rep hk.2⟩
  | [], _ :: _, hk => hk.elim
  | _ :: _, [], hk => hk.elim

/-! ### the states the sender goes through -/

theorem spine_root_le : ∀ {fs : List Frame} {h hi r op i}, Spine h hi r fs op i → r ≤ i := by
  intro fs
  induction fs with
  | nil => intro h hi r op i hs; exact hs.elim
  | cons f fs ih =>
    intro h hi r op i hs
    obtain ⟨n, as, ts⟩ := f
    rw [spine_cases] at hs
    obtain ⟨-, -, -, -, -, -, ⟨-, rfl, -⟩ | ⟨-, j, -, hj, hs⟩⟩ := hs
    · exact Nat.le_refl _
    · exact Nat.le_trans (ih hs) (Nat.le_of_lt hj)

/-- What was sent: right at the time, and, if the sink keeps it, still there. -/
def SRecord (keep : Bool) (bound : Nat) (s : SMem) (xs : List Node) : Prop :=
  AllRep (fun p => p.2) s.sent xs ∧ (keep = true → SKept s.mem.heap bound s.sent xs)

def SIdle (keep : Bool) (xs : List Node) (s : SMem) : Prop :=
  s.mem.parent = none ∧ SRecord keep s.mem.heap.next s xs

def First (keep : Bool) (xs : List Node) (n : Str) (as : Attrs) (s : SMem) : Prop :=
  s.mem.parent = none ∧ ∃ k, s.mem.newElement = some k ∧ k < s.mem.heap.next ∧
    s.mem.heap.obj k = some (.elem n as [] none) ∧ SRecord keep k s xs

def FirstDown (keep : Bool) (xs : List Node) (n : Str) (as : Attrs) (s : SMem) : Prop :=
  ∃ k, s.mem.parent = some k ∧ s.mem.newElement = some k ∧ k < s.mem.heap.next ∧
    s.mem.heap.obj k = some (.elem n as [] none) ∧ SRecord keep k s xs

/-- A state of the tree builder, and what was sent is older than the subtree being built. -/
def During (P : Builder → Prop) (keep : Bool) (xs : List Node) (s : SMem) : Prop :=
  P s.mem ∧ ∃ r, s.mem.root = some r ∧ SRecord keep r s xs

/-- What happens elsewhere cannot be noticed. -/
def SStable (keep : Bool) (P : SMem → Prop) : Prop :=
  ∀ s h, P s → Disturbed (s.roots keep) s.mem.heap h → P { s with mem := { s.mem with heap := h } }

theorem reachable_mono {h : Heap} {r r' : List Id} (hs : ∀ i ∈ r, i ∈ r') {i} (hi : Reachable h r i) : Reachable h r' i := by
  induction hi with
  | root hm => exact .root (hs _ hm)
  | child _ hc ih => exact .child ih hc

theorem disturbed_less {r r' : List Id} {h h' : Heap} (hs : ∀ i ∈ r, i ∈ r') (hd : Disturbed r' h h') : Disturbed r h h' :=
  ⟨hd.1, fun i hi => hd.2 i (reachable_mono hs hi)⟩

theorem disturbed_own {keep : Bool} {s : SMem} {h : Heap} (hd : Disturbed (s.roots keep) s.mem.heap h) :
    Disturbed s.mem.roots s.mem.heap h :=
  disturbed_less (fun i hi => by simp [SMem.roots, hi]) hd

theorem record_stable {keep : Bool} {bound bound' : Nat} {s : SMem} {xs : List Node} {h : Heap} (hr : SRecord keep bound s xs)
    (hb : bound ≤ bound') (hd : Disturbed (s.roots keep) s.mem.heap h) :
    SRecord keep bound' { s with mem := { s.mem with heap := h } } xs := by
  refine ⟨hr.1, fun hk => ?_⟩
  refine kept_frame hb (fun _ _ => rfl) (kept_collect hd (hr.2 hk) fun p hp => .root ?_)
  simp only [SMem.roots, hk, if_true, List.mem_append, List.mem_map]
  exact .inr ⟨p, hp, rfl⟩

theorem sstable_idle (keep xs) : SStable keep (SIdle keep xs) := by
  rintro s h ⟨h1, h2⟩ hd
  exact ⟨h1, record_stable h2 hd.1 hd⟩

theorem sstable_first (keep xs n as) : SStable keep (First keep xs n as) := by
  rintro s h ⟨h1, k, h2, h3, h4, h5⟩ hd
  refine ⟨h1, k, h2, Nat.lt_of_lt_of_le h3 hd.1, ?_, record_stable h5 (Nat.le_refl _) hd⟩
  show h.obj k = _
  rw [collected_same (disturbed_own hd) (mem_roots_new h2), h4]

theorem sstable_firstDown (keep xs n as) : SStable keep (FirstDown keep xs n as) := by
  rintro s h ⟨k, h1, h2, h3, h4, h5⟩ hd
  refine ⟨k, h1, h2, Nat.lt_of_lt_of_le h3 hd.1, ?_, record_stable h5 (Nat.le_refl _) hd⟩
  show h.obj k = _
  rw [collected_same (disturbed_own hd) (mem_roots_new h2), h4]

theorem sstable_during {P : Builder → Prop} (hP : Stable P) (keep xs) : SStable keep (During P keep xs) := by
  rintro s h ⟨h1, r, h2, h3⟩ hd
  exact ⟨hP _ _ h1 (disturbed_own hd), r, h2, record_stable h3 (Nat.le_refl _) hd⟩

variable {D : List Id → Heap → Heap → Prop}

theorem sruns_op (hD : Harmless D) {keep : Bool} {P : SMem → Prop} (hP : SStable keep P) {ops' s s'}
    (h : SRuns D keep ops' s s') : ∀ {o ops}, ops' = o :: ops → P s → ∃ s₁, P s₁ ∧ SRuns D keep ops (o.exec s₁) s' := by
  induction h with
  | done => intro o ops h; cases h
  | other hd _ ih => intro o ops h hb; exact ih h (hP _ _ hb (hD _ _ _ hd))
  | op hr _ => intro o ops h hb; cases h; exact ⟨_, hb, hr⟩

theorem sruns_end (hD : Harmless D) {keep : Bool} {P : SMem → Prop} (hP : SStable keep P) {ops' s s'}
    (h : SRuns D keep ops' s s') : ops' = [] → P s → P s' := by
  induction h with
  | done => intro _ hb; exact hb
  | other hd _ ih => intro h hb; exact ih h (hP _ _ hb (hD _ _ _ hd))
  | op => intro h; cases h

/-! ### the assignments -/

theorem record_heap {keep : Bool} {b b' : Nat} {s : SMem} {xs : List Node} {m : Builder} (hr : SRecord keep b s xs) (hb : b ≤ b')
    (he : ∀ k, k < b → m.heap.obj k = s.mem.heap.obj k) : SRecord keep b' { s with mem := m } xs :=
  ⟨hr.1, fun hk => kept_frame hb he (hr.2 hk)⟩

theorem sdo_first {keep xs n as} {s : SMem} (h : SIdle keep xs s) : First keep xs n as ((SOp.make n as).exec s) := by
  obtain ⟨h1, h2⟩ := h
  refine ⟨h1, s.mem.heap.next, rfl, Nat.lt_succ_self _, ?_, record_heap h2 (Nat.le_refl _) fun k hk => ?_⟩
  · simp [SOp.exec, Op.exec, alloc_obj, h1]
  · simp [Op.exec, alloc_obj, Nat.ne_of_lt hk]

theorem sdo_firstLink {keep xs n as} {s : SMem} (h : First keep xs n as s) : First keep xs n as (SOp.link.exec s) := by
  have h2 := h.1
  have : SOp.link.exec s = s := by simp [SOp.exec, Op.exec, h2]
  rw [this]
  exact h

theorem sdo_firstDown {keep xs n as} {s : SMem} (h : First keep xs n as s) : FirstDown keep xs n as (SOp.down.exec s) := by
  obtain ⟨h1, k, h2, h3, h4, h5⟩ := h
  exact ⟨k, h2, h2, h3, h4, record_heap h5 (Nat.le_refl _) fun _ _ => rfl⟩

theorem sdo_setRoot {keep xs n as} {s : SMem} (h : FirstDown keep xs n as s) :
    During (Chain [(n, as, [])]) keep xs (SOp.setRoot.exec s) := by
  obtain ⟨k, h1, h2, h3, h4, h5⟩ := h
  refine ⟨⟨k, k, h2, h1, ?_⟩, k, h2, record_heap h5 (Nat.le_refl _) fun _ _ => rfl⟩
  rw [spine_cases]
  exact ⟨h3, [], none, by simpa [SOp.exec] using h4, by simp, rfl, .inl ⟨rfl, rfl, rfl⟩⟩

theorem sdo_make {keep xs n as fs} {s : SMem} (h : During (Chain fs) keep xs s) :
    During (Made fs n as) keep xs ((SOp.make n as).exec s) := by
  obtain ⟨h1, r, h2, h3⟩ := h
  obtain ⟨r', i, e1, e2, e3⟩ := h1
  rw [h2] at e1
  cases e1
  have hr : r < s.mem.heap.next := Nat.lt_of_le_of_lt (spine_root_le e3) (spine_lt e3)
  refine ⟨do_make ⟨r, i, h2, e2, e3⟩, r, h2, record_heap h3 (Nat.le_refl _) fun k hk => ?_⟩
  simp only [Op.exec, alloc_obj]
  rw [if_neg (Nat.ne_of_lt (Nat.lt_trans hk hr))]

theorem sdo_link {keep xs n as fs} {s : SMem} (h : During (Made fs n as) keep xs s) :
    During (Linked fs n as) keep xs (SOp.link.exec s) := by
  obtain ⟨h1, r, h2, h3⟩ := h
  have h4 := do_link h1
  obtain ⟨r', i, k, e1, e2, e3, e4, e5, -⟩ := h1
  rw [h2] at e1
  cases e1
  have hr := spine_root_le e5
  have he : Op.exec s.mem .linkElement = { s.mem with heap := s.mem.heap.append i k } := by simp [Op.exec, e2, e3]
  refine ⟨h4, r, ?_, record_heap h3 (Nat.le_refl _) fun j hj => ?_⟩
  · simp only [SOp.exec, he, h2]
  · rw [he]
    exact append_obj_ne _ (Nat.ne_of_lt (Nat.lt_of_lt_of_le hj hr))

theorem sdo_down {keep xs n as fs} {s : SMem} (h : During (Linked fs n as) keep xs s) :
    During (Chain ((n, as, []) :: fs)) keep xs (SOp.down.exec s) := by
  obtain ⟨h1, r, h2, h3⟩ := h
  exact ⟨do_down h1, r, h2, record_heap h3 (Nat.le_refl _) fun _ _ => rfl⟩

theorem sdo_makeText {keep xs t fs} {s : SMem} (h : During (Chain fs) keep xs s) :
    During (MadeText fs t) keep xs ((SOp.makeText t).exec s) := by
  obtain ⟨h1, r, h2, h3⟩ := h
  obtain ⟨r', i, e1, e2, e3⟩ := h1
  rw [h2] at e1
  cases e1
  have hr : r < s.mem.heap.next := Nat.lt_of_le_of_lt (spine_root_le e3) (spine_lt e3)
  refine ⟨do_makeText ⟨r, i, h2, e2, e3⟩, r, h2, record_heap h3 (Nat.le_refl _) fun k hk => ?_⟩
  simp only [Op.exec, alloc_obj]
  rw [if_neg (Nat.ne_of_lt (Nat.lt_trans hk hr))]

theorem sdo_linkText {keep xs t n as ts fs} {s : SMem} (h : During (MadeText ((n, as, ts) :: fs) t) keep xs s) :
    During (Chain ((n, as, ts ++ [.text t]) :: fs)) keep xs (SOp.linkText.exec s) := by
  obtain ⟨h1, r, h2, h3⟩ := h
  have h4 := do_linkText h1
  obtain ⟨r', i, k, e1, e2, e3, e4, e5, -⟩ := h1
  rw [h2] at e1
  cases e1
  have hr := spine_root_le e5
  have he : Op.exec s.mem .linkText = { s.mem with heap := s.mem.heap.append i k } := by simp [Op.exec, e2, e3]
  refine ⟨h4, r, ?_, record_heap h3 (Nat.le_refl _) fun j hj => ?_⟩
  · simp only [SOp.exec, he, h2]
  · rw [he]
    exact append_obj_ne _ (Nat.ne_of_lt (Nat.lt_of_lt_of_le hj hr))

theorem moveUp_fields (b : Builder) : (Op.exec b .moveUp).heap = b.heap ∧ (Op.exec b .moveUp).root = b.root := by
  simp only [Op.exec]
  cases b.parent <;> exact ⟨rfl, rfl⟩

theorem sdo_up {keep xs n as ts m bs us fs} {s : SMem} (h : During (Chain ((n, as, ts) :: (m, bs, us) :: fs)) keep xs s) :
    During (Chain ((m, bs, us ++ [.elem n as ts]) :: fs)) keep xs (SOp.up.exec s) := by
  obtain ⟨h1, r, h2, h3⟩ := h
  refine ⟨do_up h1, r, by rw [← h2]; exact (moveUp_fields _).2, record_heap h3 (Nat.le_refl _) fun k _ => ?_⟩
  rw [(moveUp_fields _).1]

/-- The subtree is sent. -/
def SSent (n : Str) (as : Attrs) (ts : List Node) (keep : Bool) (xs : List Node) (s : SMem) : Prop :=
  Chain [(n, as, ts)] s.mem ∧ SRecord keep s.mem.heap.next s (xs ++ [.elem n as ts])

theorem sstable_sent (n as ts keep xs) : SStable keep (SSent n as ts keep xs) := by
  rintro s h ⟨h1, h2⟩ hd
  exact ⟨stable_chain _ _ _ h1 (disturbed_own hd), record_stable h2 hd.1 hd⟩

theorem sdo_send {keep xs n as ts} {s : SMem} (h : During (Chain [(n, as, ts)]) keep xs s) :
    SSent n as ts keep xs (SOp.send.exec s) := by
  obtain ⟨h1, r, h2, h3⟩ := h
  obtain ⟨r', i, e1, e2, e3⟩ := id h1
  rw [h2] at e1
  cases e1
  have hr : r < s.mem.heap.next := Nat.lt_of_le_of_lt (spine_root_le e3) (spine_lt e3)
  have hb : SBelow s.mem.heap s.mem.heap.next i (.elem n as ts) := by
    rw [spine_cases] at e3
    obtain ⟨k2, cs, p, k3, k4, k5, ⟨_, rfl, rfl⟩ | ⟨k6, _⟩⟩ := e3
    · simp only [Option.toList_none, List.append_nil] at k3 k4
      exact ⟨cs, k2, k3, k4, k5⟩
    · exact absurd rfl k6
  have he : SOp.send.exec s = { s with sent := s.sent ++ [(i, s.mem.heap)] } := by simp [SOp.exec, e2]
  rw [he]
  exact ⟨h1, allRep_snoc h3.1 (sbelow_rep hb), fun hk => kept_snoc (kept_frame (Nat.le_of_lt hr) (fun _ _ => rfl) (h3.2 hk)) hb⟩

theorem sdo_upLast {keep xs n as ts} {s : SMem} (h : SSent n as ts keep xs s) :
    SIdle keep (xs ++ [.elem n as ts]) (SOp.up.exec s) ∧ Finished (.elem n as ts) (SOp.up.exec s).mem := by
  obtain ⟨h1, h2⟩ := h
  have h3 := do_upLast h1
  obtain ⟨r, -, e, -⟩ := id h3
  refine ⟨⟨e, record_heap h2 ?_ fun k _ => ?_⟩, h3⟩
  · show _ ≤ (Op.exec s.mem .moveUp).heap.next
    rw [(moveUp_fields _).1]
    exact Nat.le_refl _
  · rw [(moveUp_fields _).1]


/-! ### the local variables -/

def NewText (s : SMem) : Prop :=
  ∀ k ∈ s.mem.newText, k < s.mem.heap.next ∧ ∃ t p, s.mem.heap.obj k = some (.text t p)

/-- Between events: `new_element` belongs to the tree of `_roots[0]`, `new_text` is a text. -/
def SLocals (s : SMem) : Prop :=
  (∀ k ∈ s.mem.newElement, Reachable s.mem.heap s.mem.root.toList k) ∧ NewText s

theorem reach_disturbed {roots : List Id} {h h' : Heap} (hd : Disturbed roots h h') {i} (hi : Reachable h roots i) :
    Reachable h' roots i := by
  induction hi with
  | root hm => exact .root hm
  | @child i c hr hc ih =>
    refine .child ih ?_
    simp only [Heap.children, collected_same hd hr] at hc ⊢
    exact hc

theorem sstable_newText (keep) : SStable keep NewText := by
  intro s h hn hd k hk
  obtain ⟨hlt, t, p, ho⟩ := hn k hk
  exact ⟨Nat.lt_of_lt_of_le hlt hd.1, t, p, by show h.obj k = _; rw [collected_same (disturbed_own hd) (mem_roots_text hk), ho]⟩

theorem sstable_locals (keep) : SStable keep SLocals := by
  intro s h hn hd
  refine ⟨fun k hk => ?_, sstable_newText keep s h hn.2 hd⟩
  refine reach_disturbed (disturbed_less (fun i hi => ?_) (disturbed_own hd)) (hn.1 k hk)
  simp [Builder.roots, hi]

theorem sstable_and {keep} {P Q : SMem → Prop} (hP : SStable keep P) (hQ : SStable keep Q) :
    SStable keep (fun s => P s ∧ Q s) := fun s h hp hd => ⟨hP s h hp.1 hd, hQ s h hp.2 hd⟩

/-- Text objects stay, whatever is assigned. -/
theorem text_alloc {h : Heap} {o : Obj} {k : Id} (hk : ∃ t p, h.obj k = some (.text t p)) (hlt : k < h.next) :
    ∃ t p, (h.alloc o).obj k = some (.text t p) := by
  rw [alloc_obj, if_neg (Nat.ne_of_lt hlt)]
  exact hk

theorem text_append {h : Heap} {i c k : Id} (hk : ∃ t p, h.obj k = some (.text t p)) :
    ∃ t p, (h.append i c).obj k = some (.text t p) := by
  unfold Heap.append
  split
  · rename_i n as cs q ho
    rw [set_obj]
    by_cases e : k = i
    · subst e
      obtain ⟨t, p, h1⟩ := hk
      rw [ho] at h1
      cases h1
    · rw [if_neg e]
      exact hk
  · exact hk

theorem reach_append {h : Heap} {roots i c} {j} (hj : Reachable h roots j) : Reachable (h.append i c) roots j := by
  induction hj with
  | root hm => exact .root hm
  | @child a b _ hc ih =>
    refine .child ih ?_
    unfold Heap.append
    split
    · rename_i n as cs q ho
      simp only [Heap.children, set_obj] at hc ⊢
      by_cases e : a = i
      · subst e
        simp only [ho, Option.map_some, Obj.kids, Option.getD_some] at hc
        simp [Obj.kids, hc]
      · rw [if_neg e]
        exact hc
    · exact hc


/-! ### the objects of a tree -/

/-- A set of objects that contains the children of its elements (but `op`). -/
def ClosedBut (h : Heap) (op : Option Id) (ids : List Id) : Prop :=
  ∀ j ∈ ids, ∀ c ∈ h.children j, c ∈ ids ∨ c ∈ op

theorem repB_ids :
    (∀ (t : Node) (h : Heap) (lo hi : Nat) (p : Option Id) (i : Id), RepB h lo hi p i t →
      ∃ ids : List Id, ids.length = t.count ∧ i ∈ ids ∧ (∀ j ∈ ids, j < hi) ∧ ClosedBut h none ids) ∧
    (∀ (ts : List Node) (h : Heap) (lo hi : Nat) (par : Id) (cs : List Id), RepBs h lo hi par cs ts →
      ∃ ids : List Id, ids.length = Node.countList ts ∧ (∀ c ∈ cs, c ∈ ids) ∧ (∀ j ∈ ids, j < hi) ∧ ClosedBut h none ids) := by
  apply Node.induct
  · intro n as ts ih h lo hi p i hr
    simp only [RepB] at hr
    obtain ⟨_, hi', cs, ho, _, hc⟩ := hr
    obtain ⟨ids, h1, h2, h3, h4⟩ := ih h i hi i cs hc
    refine ⟨i :: ids, by simp [Node.count, h1], by simp, ?_, ?_⟩
    · intro j hj
      rcases List.mem_cons.1 hj with rfl | hj
      · exact hi'
      · exact h3 j hj
    · intro j hj c hc'
      rcases List.mem_cons.1 hj with rfl | hj
      · simp only [Heap.children, ho, Option.map_some, Obj.kids, Option.getD_some] at hc'
        exact .inl (by simp [h2 c hc'])
      · rcases h4 j hj c hc' with h | h
        · exact .inl (by simp [h])
        · exact .inr h
  · intro s h lo hi p i hr
    simp only [RepB] at hr
    refine ⟨[i], rfl, by simp, by simpa using hr.2.1, ?_⟩
    intro j hj c hc
    rw [List.mem_singleton.1 hj] at hc
    simp [Heap.children, hr.2.2, Obj.kids] at hc
  · intro h lo hi par cs hr
    simp only [RepBs] at hr
    subst hr
    exact ⟨[], rfl, by simp, by simp, fun j hj => by cases hj⟩
  · intro x xs ihx ihxs h lo hi par cs hr
    simp only [RepBs] at hr
    obtain ⟨c, r, rfl, hx, hxs⟩ := hr
    obtain ⟨i1, a1, a2, a3, a4⟩ := ihx h lo hi _ c hx
    obtain ⟨i2, b1, b2, b3, b4⟩ := ihxs h lo hi par r hxs
    refine ⟨i1 ++ i2, by simp [Node.countList, a1, b1], ?_, ?_, ?_⟩
    · intro d hd
      rcases List.mem_cons.1 hd with rfl | hd
      · simp [a2]
      · simp [b2 d hd]
    · intro j hj
      rcases List.mem_append.1 hj with hj | hj
      · exact a3 j hj
      · exact b3 j hj
    · intro j hj d hd
      rcases List.mem_append.1 hj with hj | hj
      · rcases a4 j hj d hd with h | h
        · exact .inl (by simp [h])
        · exact .inr h
      · rcases b4 j hj d hd with h | h
        · exact .inl (by simp [h])
        · exact .inr h

theorem spine_ids : ∀ {fs : List Frame} {h hi r op i}, Spine h hi r fs op i →
    ∃ ids : List Id, ids.length = openCount fs ∧ r ∈ ids ∧ i ∈ ids ∧ (∀ j ∈ ids, j < hi) ∧ ClosedBut h op ids := by
  intro fs
  induction fs with
  | nil => intro h hi r op i hs; exact hs.elim
  | cons f fs ih =>
    intro h hi r op i hs
    obtain ⟨n, as, ts⟩ := f
    rw [spine_cases] at hs
    obtain ⟨h1, cs, p, h2, h3, h4, h5⟩ := hs
    obtain ⟨is, a1, a2, a3, a4⟩ := repB_ids.2 ts h i hi i cs h4
    have own : ∀ c ∈ h.children i, c ∈ is ∨ c ∈ op := by
      intro c hc
      simp only [Heap.children, h2, Option.map_some, Obj.kids, Option.getD_some, List.mem_append] at hc
      rcases hc with hc | hc
      · exact .inl (a2 c hc)
      · exact .inr (Option.mem_toList.1 hc)
    have base : ∀ j ∈ is, ∀ c ∈ h.children j, c ∈ is := by
      intro j hj c hc
      rcases a4 j hj c hc with h | h
      · exact h
      · cases h
    rcases h5 with ⟨rfl, rfl, -⟩ | ⟨-, j, -, hj, hs⟩
    · refine ⟨i :: is, by simp [openCount, a1], by simp, by simp, ?_, ?_⟩
      · intro k hk
        rcases List.mem_cons.1 hk with rfl | hk
        · exact h1
        · exact a3 k hk
      · intro k hk c hc
        rcases List.mem_cons.1 hk with rfl | hk
        · rcases own c hc with h | h
          · exact .inl (by simp [h])
          · exact .inr h
        · exact .inl (by simp [base k hk c hc])
    · obtain ⟨ids, b1, b2, b3, b4, b5⟩ := ih hs
      refine ⟨i :: (is ++ ids), by simp [openCount, a1, b1]; omega, by simp [b2], by simp, ?_, ?_⟩
      · intro k hk
        rcases List.mem_cons.1 hk with rfl | hk
        · exact h1
        · rcases List.mem_append.1 hk with hk | hk
          · exact a3 k hk
          · exact Nat.lt_trans (b4 k hk) h1
      · intro k hk c hc
        rcases List.mem_cons.1 hk with rfl | hk
        · rcases own c hc with h | h
          · exact .inl (by simp [h])
          · exact .inr h
        · rcases List.mem_append.1 hk with hk | hk
          · exact .inl (by simp [base k hk c hc])
          · rcases b5 k hk c hc with h | h
            · exact .inl (by simp [h])
            · cases h
              exact .inl (by simp)

theorem closed_reach {h : Heap} {roots ids : List Id} (hc : ClosedBut h none ids) (hr : ∀ i ∈ roots, i ∈ ids) {j}
    (hj : Reachable h roots j) : j ∈ ids := by
  induction hj with
  | root hm => exact hr _ hm
  | child _ hm ih =>
    rcases hc _ ih _ hm with h | h
    · exact h
    · cases h

/-- Everything reachable in the tree being built, and how much it is. -/
theorem chain_ids {fs : List Frame} {b : Builder} (hc : Chain fs b) : ∃ ids : List Id, ids.length = openCount fs ∧
    (∀ i ∈ b.root.toList ++ b.parent.toList, i ∈ ids) ∧ (∀ j ∈ ids, j < b.heap.next) ∧ ClosedBut b.heap none ids := by
  obtain ⟨r, i, h1, h2, h3⟩ := hc
  obtain ⟨ids, a1, a2, a3, a4, a5⟩ := spine_ids h3
  exact ⟨ids, a1, by simp [h1, h2, a2, a3], a4, a5⟩

theorem finished_ids {t : Node} {b : Builder} (hf : Finished t b) : ∃ ids : List Id, ids.length = t.count ∧
    (∀ i ∈ b.root.toList, i ∈ ids) ∧ ClosedBut b.heap none ids := by
  obtain ⟨r, h1, h2, h3⟩ := hf
  cases t with
  | text s => exact h3.elim
  | elem n as ts =>
    obtain ⟨cs, hi, ho, -, hc⟩ := h3
    obtain ⟨is, a1, a2, a3, a4⟩ := repB_ids.2 ts _ r hi r cs hc
    refine ⟨r :: is, by simp [Node.count, a1], by simp [h1], ?_⟩
    intro j hj c hc'
    rcases List.mem_cons.1 hj with rfl | hj
    · simp only [Heap.children, ho, Option.map_some, Obj.kids, Option.getD_some] at hc'
      exact .inl (by simp [a2 c hc'])
    · rcases a4 j hj c hc' with h | h
      · exact .inl (by simp [h])
      · cases h

/-- The bound, from a closed set with the root and `new_element` in the tree of the root. -/
theorem atMost_of {s : SMem} {ids : List Id} (hl : SLocals s) (hr : ∀ i ∈ s.mem.root.toList, i ∈ ids)
    (hp : ∀ i ∈ s.mem.parent.toList, i ∈ ids) (hc : ClosedBut s.mem.heap none ids) :
    AtMost s.mem.heap s.mem.roots (ids.length + 1) := by
  have hn : ∀ i ∈ s.mem.newElement.toList, i ∈ ids := fun i hi =>
    closed_reach hc hr (hl.1 i (Option.mem_toList.1 hi))
  refine ⟨s.mem.newText.toList ++ ids, ?_, fun j hj => closed_reach ?_ ?_ hj⟩
  · cases s.mem.newText <;> simp <;> omega
  · intro j hj c hc'
    rcases List.mem_append.1 hj with hj | hj
    · obtain ⟨-, t, p, ho⟩ := hl.2 j (Option.mem_toList.1 hj)
      simp [Heap.children, ho, Obj.kids] at hc'
    · rcases hc j hj c hc' with h | h
      · exact .inl (by simp [h])
      · exact .inr h
  · intro i hi
    simp only [Builder.roots, List.mem_append] at hi ⊢
    rcases hi with ((hi | hi) | hi) | hi
    · exact .inr (hr i hi)
    · exact .inr (hp i hi)
    · exact .inr (hn i hi)
    · exact .inl hi

theorem reach_alloc {h : Heap} {o : Obj} {roots ids : List Id} (hr : ∀ i ∈ roots, i ∈ ids) (hlt : ∀ j ∈ ids, j < h.next)
    (hc : ClosedBut h none ids) {j} (hj : Reachable h roots j) : Reachable (h.alloc o) roots j := by
  induction hj with
  | root hm => exact .root hm
  | @child a b ha hb ih =>
    refine .child ih ?_
    have := hlt a (closed_reach hc hr ha)
    simp only [Heap.children, alloc_obj, if_neg (Nat.ne_of_lt this)] at hb ⊢
    exact hb


/-! ### one event -/

/-- Between subtrees: nothing yet, or the last subtree that was sent. -/
def SRest (xs : List Node) (s : SMem) : Prop :=
  SLocals s ∧ (xs = [] ∧ s.mem.roots = [] ∨ ∃ ys x, xs = ys ++ [x] ∧ Finished x s.mem)

def SInv (keep : Bool) (xs : List Node) (b : Building) (s : SMem) : Prop :=
  b.base = none ∧ b.depth = b.open_.length ∧ SLocals s ∧
    (b.open_ = [] ∧ SIdle keep xs s ∧ SRest xs s ∨ b.open_ ≠ [] ∧ During (Chain b.open_) keep xs s)

theorem sstable_rest (keep xs) : SStable keep (SRest xs) := by
  rintro s h ⟨h1, h2⟩ hd
  refine ⟨sstable_locals keep s h h1 hd, ?_⟩
  rcases h2 with ⟨h2, h3⟩ | ⟨ys, x, h2, h3⟩
  · exact .inl ⟨h2, h3⟩
  · exact .inr ⟨ys, x, h2, stable_finished x _ _ h3 (disturbed_own hd)⟩

theorem sstable_inv (keep xs b) : SStable keep (SInv keep xs b) := by
  rintro s h ⟨h1, h2, h3, h4⟩ hd
  refine ⟨h1, h2, sstable_locals keep s h h3 hd, ?_⟩
  rcases h4 with ⟨h4, h5, h6⟩ | ⟨h4, h5⟩
  · exact .inl ⟨h4, sstable_idle keep xs s h h5 hd, sstable_rest keep xs s h h6 hd⟩
  · exact .inr ⟨h4, sstable_during (stable_chain _) keep xs s h h5 hd⟩

theorem newText_make {n as} {s : SMem} (h : NewText s) : NewText ((SOp.make n as).exec s) := fun k hk =>
  ⟨Nat.lt_succ_of_lt (h k hk).1, text_alloc (h k hk).2 (h k hk).1⟩

theorem newText_link {s : SMem} (h : NewText s) : NewText (SOp.link.exec s) := by
  simp only [SOp.exec, Op.exec]
  split
  · intro k hk
    refine ⟨?_, text_append (h k hk).2⟩
    show k < (Heap.append _ _ _).next
    rw [append_next]
    exact (h k hk).1
  · exact h

theorem locals_setRoot {s : SMem} (h : NewText s) : SLocals (SOp.setRoot.exec s) :=
  ⟨fun k hk => .root (by
    show k ∈ s.mem.newElement.toList
    exact Option.mem_toList.2 hk), h⟩

theorem locals_linked {fs n as keep xs} {s : SMem} (hl : During (Linked fs n as) keep xs s) (h : NewText s) : SLocals s := by
  obtain ⟨⟨r, i, k, h1, h2, h3, h4, h5, h6, h7⟩, -⟩ := hl
  refine ⟨fun j hj => ?_, h⟩
  rw [h3] at hj
  cases hj
  exact (spine_reach h6 (.root (by simp [h1]))).2 _ rfl

theorem locals_makeText {fs t keep xs} {s : SMem} (hc : During (Chain fs) keep xs s) (h : SLocals s) :
    SLocals ((SOp.makeText t).exec s) := by
  obtain ⟨ids, -, h2, h3, h4⟩ := chain_ids hc.1
  refine ⟨fun k hk => reach_alloc (fun i hi => h2 i (List.mem_append_left _ hi)) h3 h4 (h.1 k hk), fun k hk => ?_⟩
  cases hk
  exact ⟨Nat.lt_succ_self _, t, s.mem.parent, by simp [SOp.exec, Op.exec, alloc_obj]⟩

theorem locals_linkText {s : SMem} (h : SLocals s) : SLocals (SOp.linkText.exec s) := by
  simp only [SOp.exec, Op.exec]
  split
  · refine ⟨fun k hk => reach_append (h.1 k hk), fun k hk => ?_⟩
    refine ⟨?_, text_append (h.2 k hk).2⟩
    show k < (Heap.append _ _ _).next
    rw [append_next]
    exact (h.2 k hk).1
  · exact h

theorem locals_up {s : SMem} (h : SLocals s) : SLocals (SOp.up.exec s) := by
  simp only [SOp.exec, Op.exec]
  split <;> exact h

theorem locals_send {s : SMem} (h : SLocals s) : SLocals (SOp.send.exec s) := by
  simp only [SOp.exec]
  split <;> exact h

theorem sruns_first (hD : Harmless D) {keep xs n as s s'} (hs : SIdle keep xs s) (ht : NewText s)
    (hr : SRuns D keep [.make n as, .link, .down, .setRoot] s s') :
    During (Chain [(n, as, [])]) keep xs s' ∧ SLocals s' := by
  have t := sstable_newText keep
  obtain ⟨s1, ⟨h1, t1⟩, hr⟩ := sruns_op hD (sstable_and (sstable_idle keep xs) t) hr rfl ⟨hs, ht⟩
  obtain ⟨s2, ⟨h2, t2⟩, hr⟩ := sruns_op hD (sstable_and (sstable_first keep xs n as) t) hr rfl
    ⟨sdo_first h1, newText_make t1⟩
  obtain ⟨s3, ⟨h3, t3⟩, hr⟩ := sruns_op hD (sstable_and (sstable_first keep xs n as) t) hr rfl
    ⟨sdo_firstLink h2, newText_link t2⟩
  obtain ⟨s4, ⟨h4, t4⟩, hr⟩ := sruns_op hD (sstable_and (sstable_firstDown keep xs n as) t) hr rfl
    ⟨sdo_firstDown h3, t3⟩
  exact sruns_end hD (sstable_and (sstable_during (stable_chain _) keep xs) (sstable_locals keep)) hr rfl
    ⟨sdo_setRoot h4, locals_setRoot t4⟩

theorem sruns_start (hD : Harmless D) {keep xs n as fs s s'} (hs : During (Chain fs) keep xs s) (ht : NewText s)
    (hr : SRuns D keep [.make n as, .link, .down] s s') :
    During (Chain ((n, as, []) :: fs)) keep xs s' ∧ SLocals s' := by
  have t := sstable_newText keep
  obtain ⟨s1, ⟨h1, t1⟩, hr⟩ := sruns_op hD (sstable_and (sstable_during (stable_chain _) keep xs) t) hr rfl ⟨hs, ht⟩
  obtain ⟨s2, ⟨h2, t2⟩, hr⟩ := sruns_op hD (sstable_and (sstable_during (stable_made _ n as) keep xs) t) hr rfl
    ⟨sdo_make h1, newText_make t1⟩
  obtain ⟨s3, ⟨h3, t3⟩, hr⟩ := sruns_op hD (sstable_and (sstable_during (stable_linked _ n as) keep xs) t) hr rfl
    ⟨sdo_link h2, newText_link t2⟩
  have hl := locals_linked h3 t3
  exact sruns_end hD (sstable_and (sstable_during (stable_chain _) keep xs) (sstable_locals keep)) hr rfl
    ⟨sdo_down h3, hl⟩

theorem sruns_text (hD : Harmless D) {keep xs t n as ts fs s s'} (hs : During (Chain ((n, as, ts) :: fs)) keep xs s)
    (hl : SLocals s) (hr : SRuns D keep [.makeText t, .linkText] s s') :
    During (Chain ((n, as, ts ++ [.text t]) :: fs)) keep xs s' ∧ SLocals s' := by
  have l := sstable_locals keep
  obtain ⟨s1, ⟨h1, l1⟩, hr⟩ := sruns_op hD (sstable_and (sstable_during (stable_chain _) keep xs) l) hr rfl ⟨hs, hl⟩
  obtain ⟨s2, ⟨h2, l2⟩, hr⟩ := sruns_op hD (sstable_and (sstable_during (stable_madeText _ t) keep xs) l) hr rfl
    ⟨sdo_makeText h1, locals_makeText h1 l1⟩
  exact sruns_end hD (sstable_and (sstable_during (stable_chain _) keep xs) l) hr rfl ⟨sdo_linkText h2, locals_linkText l2⟩

theorem sruns_up (hD : Harmless D) {keep xs n as ts m bs us fs s s'}
    (hs : During (Chain ((n, as, ts) :: (m, bs, us) :: fs)) keep xs s) (hl : SLocals s) (hr : SRuns D keep [.up] s s') :
    During (Chain ((m, bs, us ++ [.elem n as ts]) :: fs)) keep xs s' ∧ SLocals s' := by
  have l := sstable_locals keep
  obtain ⟨s1, ⟨h1, l1⟩, hr⟩ := sruns_op hD (sstable_and (sstable_during (stable_chain _) keep xs) l) hr rfl ⟨hs, hl⟩
  exact sruns_end hD (sstable_and (sstable_during (stable_chain _) keep xs) l) hr rfl ⟨sdo_up h1, locals_up l1⟩

theorem sruns_last (hD : Harmless D) {keep xs n as ts s s'} (hs : During (Chain [(n, as, ts)]) keep xs s) (hl : SLocals s)
    (hr : SRuns D keep [.send, .up] s s') :
    SIdle keep (xs ++ [.elem n as ts]) s' ∧ SRest (xs ++ [.elem n as ts]) s' := by
  have l := sstable_locals keep
  obtain ⟨s1, ⟨h1, l1⟩, hr⟩ := sruns_op hD (sstable_and (sstable_during (stable_chain _) keep xs) l) hr rfl ⟨hs, hl⟩
  obtain ⟨s2, ⟨h2, l2⟩, hr⟩ := sruns_op hD (sstable_and (sstable_sent n as ts keep xs) l) hr rfl ⟨sdo_send h1, locals_send l1⟩
  have h3 := sdo_upLast h2
  exact sruns_end hD (sstable_and (sstable_idle keep _) (sstable_rest keep _)) hr rfl
    ⟨h3.1, locals_up l2, .inr ⟨xs, _, rfl, h3.2⟩⟩

/-- One event, in memory and without. -/
theorem sender_event (hD : Harmless D) {keep : Bool} {st : List (Stage Event)} {xs : List Node} {b : Building} {s : SMem}
    (stack : List Event) (ev : Event) (hi : SInv keep xs b s) :
    match handleOne st 0 none stack b ev with
    | (o, none) => o = [] ∧ senderOps st (stack, b.depth) ev = none
    | (o, some (stack', b')) => ∃ ops, senderOps st (stack, b.depth) ev = some (ops, (stack', b'.depth)) ∧
        ∀ s', SRuns D keep ops s s' → SInv keep (xs ++ sentTo 0 o) b' s' := by
  have hst := hi
  obtain ⟨hb, hd, hl, hcase⟩ := hi
  have same : ∀ s', SRuns D keep [] s s' → SInv keep (xs ++ sentTo 0 []) b s' := by
    intro s' hr
    simpa [sentTo] using sruns_end hD (sstable_inv keep xs b) hr rfl hst
  cases ev with
  | start n as anc =>
    simp only [handleOne, senderOps]
    rcases hcase with ⟨ho, h1, h2⟩ | ⟨ho, h1⟩
    · have hz : b.depth = 0 := by rw [hd, ho]; rfl
      simp only [hz, Nat.lt_irrefl, gt_iff_lt, if_false]
      cases hm : matchState st (stack ++ [.start n as anc]) with
      | none => exact ⟨rfl, rfl⟩
      | some v =>
        cases v with
        | false => exact ⟨[], by simp [hz], same⟩
        | true =>
          refine ⟨[.make n as, .link, .down, .setRoot], by simp [Building.push, hz], fun s' hr => ?_⟩
          have := sruns_first hD h1 hl.2 hr
          simp only [hb, Option.map_none, Option.toList_none, sentTo, List.filterMap_nil, List.append_nil]
          refine ⟨hb, by simp [Building.push, hd], this.2, .inr ⟨by simp [Building.push], ?_⟩⟩
          simpa [Building.push, ho] using this.1
    · have hz : b.depth > 0 := by rw [hd]; exact List.length_pos_iff.2 ho
      simp only [hz, if_true]
      refine ⟨_, rfl, fun s' hr => ?_⟩
      have := sruns_start hD h1 hl.2 hr
      simp only [sentTo, List.filterMap_nil, List.append_nil]
      exact ⟨hb, by simp [Building.push, hd], this.2, .inr ⟨by simp [Building.push], this.1⟩⟩
  | chars t =>
    simp only [handleOne, senderOps]
    rcases hcase with ⟨ho, h1, h2⟩ | ⟨ho, h1⟩
    · have hz : b.depth = 0 := by rw [hd, ho]; rfl
      simp only [hz, Nat.lt_irrefl, gt_iff_lt, if_false]
      exact ⟨[], by simp [hz], same⟩
    · have hz : b.depth > 0 := by rw [hd]; exact List.length_pos_iff.2 ho
      simp only [hz, if_true]
      refine ⟨_, rfl, fun s' hr => ?_⟩
      cases he : b.open_ with
      | nil => exact absurd he ho
      | cons f fs =>
        obtain ⟨n, as, ts⟩ := f
        rw [he] at h1
        have := sruns_text hD h1 hl hr
        simp only [sentTo, List.filterMap_nil, List.append_nil, addChild]
        exact ⟨hb, by rw [hd, he]; simp, this.2, .inr ⟨by simp, this.1⟩⟩
  | stop n anc =>
    simp only [handleOne, senderOps]
    by_cases hs : stack = []
    · simp [hs]
    · simp only [hs, if_false]
      rcases hcase with ⟨ho, h1, h2⟩ | ⟨ho, h1⟩
      · have hz : b.depth = 0 := by rw [hd, ho]; rfl
        simp only [hz]
        exact ⟨[], by simp [hz], same⟩
      · cases he : b.open_ with
        | nil => exact absurd he ho
        | cons f fs =>
          obtain ⟨m, as, ts⟩ := f
          rw [he] at h1 hd
          cases fs with
          | nil =>
            have hz : b.depth = 1 := hd
            simp only [hz, if_true]
            refine ⟨[.send, .up], by simp, fun s' hr => ?_⟩
            have := sruns_last hD h1 hl hr
            simp only [sentTo, List.filterMap_cons, if_true, List.filterMap_nil]
            exact ⟨by simp [hb], rfl, this.2.1, .inl ⟨rfl, this.1, this.2⟩⟩
          | cons g fs =>
            obtain ⟨m', as', ts'⟩ := g
            have hz : b.depth = fs.length + 1 + 1 := hd
            simp only [hz, Nat.succ_ne_zero, if_false]
            refine ⟨[.up], by simp, fun s' hr => ?_⟩
            have := sruns_up hD h1 hl hr
            simp only [sentTo, List.filterMap_nil, List.append_nil, addChild]
            exact ⟨hb, by simp, this.2, .inr ⟨by simp, this.1⟩⟩

theorem handle_single (st : List (Stage Event)) (stack : List Event) (b : Building) (mv : Nat → Option Id) (ev : Event) :
    (Sender.mk stack [(st, b)]).handle mv ev = match handleOne st 0 (mv 0) stack b ev with
      | (o, none) => (o, none)
      | (o, some (stack', b')) => (o, some ⟨stack', [(st, b')]⟩) := by
  simp only [Sender.handle, handlePats]
  generalize handleOne st 0 (mv 0) stack b ev = r
  obtain ⟨o, _ | ⟨stack', b'⟩⟩ := r <;> simp

/-- All events. -/
theorem sender_events (hD : Harmless D) {keep : Bool} {st : List (Stage Event)} : ∀ (evs : List Event) {xs : List Node}
    {b : Building} {s s' : SMem} {stack : List Event} {r}, SInv keep xs b s → SenderRun D keep st (stack, b.depth) evs s s' r →
    ∃ os fin, (Sender.mk stack [(st, b)]).run (quiet evs) = (os, fin) ∧
      ((r = none ∧ fin = none ∧ ∃ b', SInv keep (xs ++ (os.map (sentTo 0)).flatten) b' s') ∨
        ∃ stack' b', r = some (stack', b'.depth) ∧ fin = some ⟨stack', [(st, b')]⟩ ∧
          SInv keep (xs ++ (os.map (sentTo 0)).flatten) b' s') := by
  intro evs
  induction evs with
  | nil =>
    intro xs b s s' stack r hi hr
    cases hr with
    | done hr =>
      refine ⟨[], _, rfl, .inr ⟨stack, b, rfl, rfl, ?_⟩⟩
      simpa using sruns_end hD (sstable_inv keep xs b) hr rfl hi
  | cons ev evs ih =>
    intro xs b s s' stack r hi hr
    have hev := sender_event (st := st) hD stack ev hi
    have hh := handle_single st stack b (fun _ => none) ev
    simp only [quiet, List.map_cons, Sender.run]
    generalize handleOne st 0 none stack b ev = x at hev hh
    obtain ⟨o, _ | ⟨stack', b'⟩⟩ := x
    · obtain ⟨ho, hn⟩ := hev
      rw [hh]
      cases hr with
      | event he => rw [hn] at he; cases he
      | raise he =>
        refine ⟨_, _, rfl, .inl ⟨rfl, rfl, b, ?_⟩⟩
        simpa [ho, sentTo] using hi
    · obtain ⟨ops, hops, hrun⟩ := hev
      rw [hh]
      cases hr with
      | raise he => rw [hops] at he; cases he
      | event he hr1 hr2 =>
        rw [hops] at he
        cases he
        obtain ⟨os, fin, e1, e2⟩ := ih (hrun _ hr1) hr2
        simp only [quiet] at e1
        refine ⟨o :: os, fin, by simp [e1], ?_⟩
        simpa [List.append_assoc] using e2

theorem newSender_one (p : List (Stage Event)) : newSender [p] = ⟨[], [(p, .idle)]⟩ := by
  simp [newSender, prepPatterns]

theorem inv_new (keep : Bool) (h : Heap) : SInv keep [] .idle (SMem.new h) := by
  have hl : SLocals (SMem.new h) := by
    refine ⟨fun k hk => ?_, fun k hk => ?_⟩ <;> cases hk
  refine ⟨rfl, rfl, hl, .inl ⟨rfl, ⟨rfl, trivial, fun _ => trivial⟩, hl, .inl ⟨rfl, rfl⟩⟩⟩

theorem inv_record {keep xs b s} (h : SInv keep xs b s) : AllRep (fun p => p.2) s.sent xs ∧
    (keep = true → AllRep (fun _ => s.mem.heap) s.sent xs) := by
  obtain ⟨-, -, -, ⟨-, ⟨-, h1, h2⟩, -⟩ | ⟨-, -, r, -, h1, h2⟩⟩ := h
  · exact ⟨h1, fun hk => kept_rep (h2 hk)⟩
  · exact ⟨h1, fun hk => kept_rep (h2 hk)⟩

theorem inv_atMost {keep xs b s} (h : SInv keep xs b s) :
    (b.open_ ≠ [] ∧ AtMost s.mem.heap s.mem.roots (openCount b.open_ + 1)) ∨
    (b.open_ = [] ∧ xs = [] ∧ s.mem.roots = []) ∨
    (b.open_ = [] ∧ ∃ ys x, xs = ys ++ [x] ∧ AtMost s.mem.heap s.mem.roots (x.count + 1)) := by
  obtain ⟨-, -, hl, ⟨h1, h2, -, h3⟩ | ⟨h1, h2⟩⟩ := h
  · rcases h3 with ⟨h3, h4⟩ | ⟨ys, x, h3, h4⟩
    · exact .inr (.inl ⟨h1, h3, h4⟩)
    · obtain ⟨ids, a1, a2, a3⟩ := finished_ids h4
      refine .inr (.inr ⟨h1, ys, x, h3, ?_⟩)
      rw [← a1]
      exact atMost_of hl a2 (by simp [h2.1]) a3
  · obtain ⟨ids, a1, a2, -, a3⟩ := chain_ids h2.1
    refine .inl ⟨h1, ?_⟩
    rw [← a1]
    exact atMost_of hl (fun i hi => a2 i (by simp [Option.mem_toList.1 hi]))
      (fun i hi => a2 i (by simp [Option.mem_toList.1 hi])) a3

/-- There are executions. -/
theorem sruns_exists (D : List Id → Heap → Heap → Prop) (keep : Bool) : ∀ (ops : List SOp) (s : SMem), ∃ s', SRuns D keep ops s s'
  | [], s => ⟨s, .done⟩
  | o :: ops, s => by
    obtain ⟨s', h⟩ := sruns_exists D keep ops (o.exec s)
    exact ⟨s', .op h⟩

theorem senderRun_exists (D : List Id → Heap → Heap → Prop) (keep : Bool) (st : List (Stage Event)) :
    ∀ (evs : List Event) (c : SControl) (s : SMem), ∃ s' r, SenderRun D keep st c evs s s' r
  | [], c, s => ⟨s, _, .done .done⟩
  | ev :: evs, c, s => by
    cases h : senderOps st c ev with
    | none => exact ⟨s, none, .raise h⟩
    | some x =>
      obtain ⟨ops, c'⟩ := x
      obtain ⟨s₁, h1⟩ := sruns_exists D keep ops s
      obtain ⟨s', r, h2⟩ := senderRun_exists D keep st evs c' s₁
      exact ⟨s', r, .event h h1 h2⟩

/-! ### an open subtree is no bigger than what is sent of it -/

theorem count_pos (x : Node) : 1 ≤ x.count := by cases x <;> simp [Node.count]

theorem countList_append : ∀ (xs ys : List Node), Node.countList (xs ++ ys) = Node.countList xs + Node.countList ys
  | [], ys => by simp [Node.countList]
  | x :: xs, ys => by simp only [List.cons_append, Node.countList, countList_append xs ys]; omega

theorem openCount_addChild (x : Node) : ∀ (fs : List OpenElem), fs ≠ [] → openCount (addChild x fs) = openCount fs + x.count
  | [], h => absurd rfl h
  | (n, as, ts) :: r, _ => by simp only [addChild, openCount, countList_append, Node.countList]; omega

theorem open_le_sent {st : List (Stage Event)} : ∀ (evs : List Event) {b : Building} {stack : List Event} {os stack' b'},
    b.depth = b.open_.length → b.open_ ≠ [] →
    (Sender.mk stack [(st, b)]).run (quiet evs) = (os, some ⟨stack', [(st, b')]⟩) → b'.depth = 0 →
    ∃ x ∈ (os.map (sentTo 0)).flatten, openCount b.open_ ≤ x.count := by
  intro evs
  induction evs with
  | nil =>
    intro b stack os stack' b' hd ho hr hz
    simp only [quiet, List.map_nil, Sender.run, Prod.mk.injEq, Option.some.injEq, Sender.mk.injEq, List.cons.injEq, true_and,
      and_true] at hr
    rw [← hr.2.2, hd] at hz
    exact absurd (List.length_eq_zero_iff.1 hz) ho
  | cons ev evs ih =>
    intro b stack os stack' b' hd ho hr hz
    have hpos : b.depth > 0 := by rw [hd]; exact List.length_pos_iff.2 ho
    obtain ⟨⟨m, as, ts⟩, fs, he⟩ : ∃ f fs, b.open_ = f :: fs := by
      cases h : b.open_ with
      | nil => exact absurd h ho
      | cons f fs => exact ⟨f, fs, rfl⟩
    have hh := handle_single st stack b (fun _ => none) ev
    have cont : ∀ {stack₁ b₁ o}, handleOne st 0 none stack b ev = (o, some (stack₁, b₁)) → b₁.depth = b₁.open_.length →
        b₁.open_ ≠ [] → openCount b.open_ ≤ openCount b₁.open_ →
        ∃ x ∈ (os.map (sentTo 0)).flatten, openCount b.open_ ≤ x.count := by
      intro stack₁ b₁ o e h1 h2 h3
      rw [e] at hh
      simp only [quiet, List.map_cons, Sender.run, hh, Prod.mk.injEq] at hr
      obtain ⟨hr1, hr2⟩ := hr
      obtain ⟨x, hx, hle⟩ := ih h1 h2 (Prod.ext rfl hr2) hz
      refine ⟨x, ?_, Nat.le_trans h3 hle⟩
      rw [← hr1]
      simp only [List.map_cons, List.flatten_cons, List.mem_append]
      exact .inr hx
    cases ev with
    | start n as' anc =>
      refine cont (by simp only [handleOne, hpos, if_true]; rfl) (by simp [Building.push, hd]) (by simp [Building.push]) ?_
      simp only [Building.push, openCount, Node.countList]
      omega
    | chars t =>
      refine cont (by simp only [handleOne, hpos, if_true]; rfl) (by simp [addChild, he, hd]) (by simp [addChild, he]) ?_
      rw [openCount_addChild _ _ ho]
      omega
    | stop n anc =>
      by_cases hs : stack = []
      · simp only [handleOne, hs, if_true] at hh
        simp [quiet, Sender.run, hh, hs] at hr
      · cases fs with
        | nil =>
          have hz1 : b.depth = 0 + 1 := by rw [hd, he]; rfl
          simp only [handleOne, hs, if_false, hz1, he, if_true] at hh
          simp only [quiet, List.map_cons, Sender.run, hh, Prod.mk.injEq] at hr
          refine ⟨.elem m as ts, ?_, by simp [he, openCount, Node.count]⟩
          rw [← hr.1]
          simp [sentTo]
        | cons g fs =>
          have hz1 : b.depth = (fs.length + 1) + 1 := by rw [hd, he]; rfl
          have e : handleOne st 0 none stack b (.stop n anc) = ([], some (stack.dropLast,
              { b with depth := fs.length + 1, open_ := addChild (.elem m as ts) (g :: fs) })) := by
            simp only [handleOne, hs, if_false, hz1, he, Nat.succ_ne_zero]
          refine cont e (by obtain ⟨g1, g2, g3⟩ := g; simp [addChild]) (by obtain ⟨g1, g2, g3⟩ := g; simp [addChild]) ?_
          simp only
          rw [openCount_addChild _ _ (by simp), he]
          simp only [openCount, Node.count]
          omega

end Amara
