import Verif.Spec.Heap
import Verif.Lemmas.Final
/-
Helper lemmas: the tree builder keeps the chain of open elements in memory, whatever the collector
does.
-/
namespace Amara

mutual
  /-- As `Rep`, with the identities of the tree strictly between `lo` and `hi` and increasing
  downwards, and the stored link equal to the parent. -/
  def RepB (h : Heap) (lo hi : Nat) (p : Option Id) (i : Id) : Node → Prop
    | .elem n as ts => lo < i ∧ i < hi ∧ ∃ cs, h.obj i = some (.elem n as cs p) ∧ cs.Nodup ∧
        RepBs h i hi i cs ts
    | .text s => lo < i ∧ i < hi ∧ h.obj i = some (.text s p)
  def RepBs (h : Heap) (lo hi : Nat) (par : Id) (cs : List Id) : List Node → Prop
    | [] => cs = []
    | t :: ts => ∃ c r, cs = c :: r ∧ RepB h lo hi (some par) c t ∧ RepBs h lo hi par r ts
end

theorem repB_rep :
    (∀ (t : Node) (h : Heap) (lo hi : Nat) (p : Option Id) (i : Id), RepB h lo hi p i t →
      (∀ q ∈ p, (h.obj q).isSome = true) → Rep h p i t) ∧
    (∀ (ts : List Node) (h : Heap) (lo hi : Nat) (par : Id) (cs : List Id), RepBs h lo hi par cs ts →
      (h.obj par).isSome = true → RepList h par cs ts) := by
  apply Node.induct
  · intro n as ts ih h lo hi p i hr hp
    simp only [RepB] at hr
    obtain ⟨_, _, cs, ho, hnd, hc⟩ := hr
    refine ⟨cs, p, ho, ?_, hnd, ih h i hi i cs hc (by simp [ho])⟩
    simp only [Heap.xmlParent, ho, Option.bind_some, Obj.link, Heap.deref]
    cases p with
    | none => rfl
    | some q => simp [hp q rfl]
  · intro s h lo hi p i hr hp
    simp only [RepB] at hr
    refine ⟨p, hr.2.2, ?_⟩
    simp only [Heap.xmlParent, hr.2.2, Option.bind_some, Obj.link, Heap.deref]
    cases p with
    | none => rfl
    | some q => simp [hp q rfl]
  · intro h lo hi par cs hr _; simpa [RepBs, RepList] using hr
  · intro x xs ihx ihxs h lo hi par cs hr hp
    simp only [RepBs] at hr
    obtain ⟨c, r, rfl, h1, h2⟩ := hr
    exact ⟨c, r, rfl, ihx h lo hi _ c h1 (by simpa using hp), ihxs h lo hi par r h2 hp⟩

theorem repB_frame :
    (∀ (t : Node) (h h' : Heap) (lo hi hi' : Nat) (p : Option Id) (i : Id), RepB h lo hi p i t → hi ≤ hi' →
      (∀ k, lo < k → k < hi → h'.obj k = h.obj k) → RepB h' lo hi' p i t) ∧
    (∀ (ts : List Node) (h h' : Heap) (lo hi hi' : Nat) (par : Id) (cs : List Id),
      RepBs h lo hi par cs ts → hi ≤ hi' →
      (∀ k, lo < k → k < hi → h'.obj k = h.obj k) → RepBs h' lo hi' par cs ts) := by
  apply Node.induct
  · intro n as ts ih h h' lo hi hi' p i hr hh he
    simp only [RepB] at hr ⊢
    obtain ⟨h1, h2, cs, ho, hnd, hc⟩ := hr
    exact ⟨h1, Nat.lt_of_lt_of_le h2 hh, cs, by rw [he i h1 h2, ho], hnd,
      ih h h' i hi hi' i cs hc hh (fun k hk hk' => he k (Nat.lt_trans h1 hk) hk')⟩
  · intro s h h' lo hi hi' p i hr hh he
    simp only [RepB] at hr ⊢
    exact ⟨hr.1, Nat.lt_of_lt_of_le hr.2.1 hh, by rw [he i hr.1 hr.2.1, hr.2.2]⟩
  · intro h h' lo hi hi' par cs hr _ _; simpa [RepBs] using hr
  · intro x xs ihx ihxs h h' lo hi hi' par cs hr hh he
    simp only [RepBs] at hr ⊢
    obtain ⟨c, r, rfl, h1, h2⟩ := hr
    exact ⟨c, r, rfl, ihx h h' lo hi hi' _ c h1 hh he, ihxs h h' lo hi hi' par r h2 hh he⟩

/-- What the builder cannot notice: everything it can reach stays the same. -/
def Disturbed (roots : List Id) (h h' : Heap) : Prop :=
  h.next ≤ h'.next ∧ ∀ i, Reachable h roots i → h'.obj i = h.obj i

theorem disturbed_collected {roots : List Id} {h h' : Heap} (hc : Collected roots h h') : Disturbed roots h h' := by
  refine ⟨Nat.le_of_eq hc.1.symm, fun i hr => ?_⟩
  rcases hc.2 i with h | h
  · exact h
  · exact absurd hr h.2

/-- A reachable tree is not touched. -/
theorem repB_collect {roots : List Id} :
    (∀ (t : Node) (h h' : Heap) (lo hi : Nat) (p : Option Id) (i : Id), RepB h lo hi p i t →
      Disturbed roots h h' → Reachable h roots i → RepB h' lo hi p i t) ∧
    (∀ (ts : List Node) (h h' : Heap) (lo hi : Nat) (par : Id) (cs : List Id),
      RepBs h lo hi par cs ts → Disturbed roots h h' → (∀ c ∈ cs, Reachable h roots c) →
      RepBs h' lo hi par cs ts) := by
  have same : ∀ {h h' : Heap} {i : Id}, Disturbed roots h h' → Reachable h roots i →
      h'.obj i = h.obj i := fun hc hr => hc.2 _ hr
  apply Node.induct
  · intro n as ts ih h h' lo hi p i hr hc hre
    simp only [RepB] at hr ⊢
    obtain ⟨h1, h2, cs, ho, hnd, hcs⟩ := hr
    refine ⟨h1, h2, cs, by rw [same hc hre, ho], hnd, ih h h' i hi i cs hcs hc ?_⟩
    intro c hm
    exact .child hre (by simpa [Heap.children, ho, Obj.kids] using hm)
  · intro s h h' lo hi p i hr hc hre
    simp only [RepB] at hr ⊢
    exact ⟨hr.1, hr.2.1, by rw [same hc hre, hr.2.2]⟩
  · intro h h' lo hi par cs hr _ _; simpa [RepBs] using hr
  · intro x xs ihx ihxs h h' lo hi par cs hr hc hre
    simp only [RepBs] at hr ⊢
    obtain ⟨c, r, rfl, h1, h2⟩ := hr
    exact ⟨c, r, rfl, ihx h h' lo hi _ c h1 hc (hre c (by simp)),
      ihxs h h' lo hi par r h2 hc (fun d hd => hre d (by simp [hd]))⟩

theorem collected_same {roots : List Id} {h h' : Heap} {i : Id} (hc : Disturbed roots h h')
    (hr : Reachable h roots i) : h'.obj i = h.obj i := hc.2 _ hr

theorem repBs_snoc {h : Heap} {lo hi par c t} : ∀ {ts cs}, RepBs h lo hi par cs ts →
    RepB h lo hi (some par) c t → RepBs h lo hi par (cs ++ [c]) (ts ++ [t]) := by
  intro ts
  induction ts with
  | nil =>
    intro cs h1 h2
    simp only [RepBs] at h1
    subst h1
    exact ⟨c, [], rfl, h2, rfl⟩
  | cons x xs ih =>
    intro cs h1 h2
    simp only [RepBs] at h1
    obtain ⟨d, r, rfl, h3, h4⟩ := h1
    exact ⟨d, r ++ [c], rfl, h3, ih h4 h2⟩

theorem repBs_lt {h : Heap} {lo hi par} : ∀ {ts cs}, RepBs h lo hi par cs ts →
    ∀ c ∈ cs, lo < c ∧ c < hi := by
  intro ts
  induction ts with
  | nil => intro cs h1 c hc; simp only [RepBs] at h1; subst h1; cases hc
  | cons x xs ih =>
    intro cs h1 c hc
    simp only [RepBs] at h1
    obtain ⟨d, r, rfl, h3, h4⟩ := h1
    rcases List.mem_cons.1 hc with rfl | hc
    · cases x <;> (simp only [RepB] at h3; exact ⟨h3.1, h3.2.1⟩)
    · exact ih h4 c hc

/-- The chain of open elements: `fs` are the open elements, innermost first, `i` is the innermost,
`op` a child of `i` listed last and not described by `fs`, `r` the outermost. -/
def Spine (h : Heap) (hi : Nat) (r : Id) : List Frame → Option Id → Id → Prop
  | [], _, _ => False
  | [(n, as, ts)], op, i => i = r ∧ i < hi ∧ ∃ cs, h.obj i = some (.elem n as (cs ++ op.toList) none) ∧
      (cs ++ op.toList).Nodup ∧ RepBs h i hi i cs ts
  | (n, as, ts) :: f :: fs, op, i => i < hi ∧ ∃ cs j,
      h.obj i = some (.elem n as (cs ++ op.toList) (some j)) ∧ j < i ∧
      (cs ++ op.toList).Nodup ∧ RepBs h i hi i cs ts ∧ Spine h i r (f :: fs) (some i) j

theorem spine_cases {h hi r n as ts fs op i} : Spine h hi r ((n, as, ts) :: fs) op i ↔
    i < hi ∧ ∃ cs p, h.obj i = some (.elem n as (cs ++ op.toList) p) ∧ (cs ++ op.toList).Nodup ∧
      RepBs h i hi i cs ts ∧
      ((fs = [] ∧ i = r ∧ p = none) ∨ (fs ≠ [] ∧ ∃ j, p = some j ∧ j < i ∧ Spine h i r fs (some i) j)) := by
  cases fs with
  | nil =>
    simp only [Spine]
    constructor
    · rintro ⟨h1, h2, cs, h3, h4, h5⟩
      exact ⟨h2, cs, none, h3, h4, h5, .inl ⟨trivial, h1, rfl⟩⟩
    · rintro ⟨h2, cs, p, h3, h4, h5, ⟨_, h1, rfl⟩ | ⟨h, _⟩⟩
      · exact ⟨h1, h2, cs, h3, h4, h5⟩
      · exact absurd rfl h
  | cons f fs =>
    simp only [Spine]
    constructor
    · rintro ⟨h2, cs, j, h3, h6, h4, h5, h7⟩
      exact ⟨h2, cs, some j, h3, h4, h5, .inr ⟨by simp, j, rfl, h6, h7⟩⟩
    · rintro ⟨h2, cs, p, h3, h4, h5, ⟨h, _⟩ | ⟨_, j, rfl, h6, h7⟩⟩
      · cases h
      · exact ⟨h2, cs, j, h3, h6, h4, h5, h7⟩

theorem spine_ne {h hi r fs op i} (hs : Spine h hi r fs op i) : fs ≠ [] := by
  rintro rfl; exact hs

theorem spine_frame : ∀ {fs : List Frame} {h h' : Heap} {hi hi' r op i}, Spine h hi r fs op i → hi ≤ hi' →
    (∀ k, k < hi → h'.obj k = h.obj k) → Spine h' hi' r fs op i := by
  intro fs
  induction fs with
  | nil => intro h h' hi hi' r op i hs; exact hs.elim
  | cons f fs ih =>
    intro h h' hi hi' r op i hs hh he
    obtain ⟨n, as, ts⟩ := f
    rw [spine_cases] at hs ⊢
    obtain ⟨h2, cs, p, h3, h4, h5, h6⟩ := hs
    refine ⟨Nat.lt_of_lt_of_le h2 hh, cs, p, by rw [he i h2, h3], h4,
      repB_frame.2 ts h h' i hi hi' i cs h5 hh (fun k _ hk => he k hk), ?_⟩
    rcases h6 with h6 | ⟨hf, j, hp, hj, hs⟩
    · exact .inl h6
    · exact .inr ⟨hf, j, hp, hj, ih hs (Nat.le_refl _) (fun k hk => he k (Nat.lt_trans hk h2))⟩

/-- Every element of the chain is reachable from the outermost, and `op` as well. -/
theorem spine_reach {roots : List Id} : ∀ {fs : List Frame} {h : Heap} {hi r op i},
    Spine h hi r fs op i → Reachable h roots r → Reachable h roots i ∧ ∀ c ∈ op, Reachable h roots c := by
  intro fs
  induction fs with
  | nil => intro h hi r op i hs; exact hs.elim
  | cons f fs ih =>
    intro h hi r op i hs hr
    obtain ⟨n, as, ts⟩ := f
    rw [spine_cases] at hs
    obtain ⟨h2, cs, p, h3, h4, h5, h6⟩ := hs
    have hi : Reachable h roots i := by
      rcases h6 with ⟨_, rfl, _⟩ | ⟨hf, j, hp, hj, hs⟩
      · exact hr
      · exact (ih hs hr).2 i rfl
    refine ⟨hi, ?_⟩
    intro c hc
    exact .child hi (by simp [Heap.children, h3, Obj.kids, Option.mem_def.1 hc])

theorem spine_collect {roots : List Id} : ∀ {fs : List Frame} {h h' : Heap} {hi r op i},
    Spine h hi r fs op i → Disturbed roots h h' → Reachable h roots r → Spine h' hi r fs op i := by
  intro fs
  induction fs with
  | nil => intro h h' hi r op i hs; exact hs.elim
  | cons f fs ih =>
    intro h h' hi r op i hs hc hr
    obtain ⟨n, as, ts⟩ := f
    have hri := (spine_reach hs hr).1
    rw [spine_cases] at hs ⊢
    obtain ⟨h2, cs, p, h3, h4, h5, h6⟩ := hs
    refine ⟨h2, cs, p, by rw [collected_same hc hri, h3], h4, repB_collect.2 ts h h' i hi i cs h5 hc ?_, ?_⟩
    · intro c hm
      exact .child hri (by simp [Heap.children, h3, Obj.kids, hm])
    · rcases h6 with h6 | ⟨hf, j, hp, hj, hs⟩
      · exact .inl h6
      · exact .inr ⟨hf, j, hp, hj, ih hs hc hr⟩

theorem alloc_obj (h : Heap) (o : Obj) (k : Id) :
    (h.alloc o).obj k = if k = h.next then some o else h.obj k := rfl

theorem set_obj (h : Heap) (i : Id) (o : Obj) (k : Id) :
    (h.set i o).obj k = if k = i then some o else h.obj k := rfl

/-- Appending a new child to the innermost element. -/
theorem spine_append {fs h hi r i k} (hs : Spine h hi r fs none i) (hk : hi ≤ k) :
    Spine (h.append i k) hi r fs (some k) i := by
  obtain ⟨⟨n, as, ts⟩, fs, rfl⟩ : ∃ f fs', fs = f :: fs' := by
    cases fs; exact hs.elim; exact ⟨_, _, rfl⟩
  rw [spine_cases] at hs ⊢
  obtain ⟨h2, cs, p, h3, h4, h5, h6⟩ := hs
  simp only [Option.toList_none, List.append_nil] at h3 h4
  have happ : h.append i k = h.set i (.elem n as (cs ++ [k]) p) := by simp [Heap.append, h3]
  rw [happ]
  refine ⟨h2, cs, p, by simp [set_obj], ?_, ?_, ?_⟩
  · simp only [Option.toList_some]
    rw [List.nodup_append]
    refine ⟨h4, by simp, ?_⟩
    intro a ha b hb
    rw [List.mem_singleton.1 hb]
    exact Nat.ne_of_lt (Nat.lt_of_lt_of_le (repBs_lt h5 a ha).2 hk)
  · refine repB_frame.2 ts h _ i hi hi i cs h5 (Nat.le_refl _) (fun m hm _ => ?_)
    rw [set_obj, if_neg (Nat.ne_of_gt hm)]
  · rcases h6 with h6 | ⟨hf, j, hp, hj, hs⟩
    · exact .inl h6
    · refine .inr ⟨hf, j, hp, hj, spine_frame hs (Nat.le_refl _) (fun m hm => ?_)⟩
      rw [set_obj, if_neg (Nat.ne_of_lt hm)]

/-- The root of a finished tree. -/
def RepTop (h : Heap) (r : Id) : Node → Prop
  | .elem n as ts => ∃ cs hi, h.obj r = some (.elem n as cs none) ∧ cs.Nodup ∧ RepBs h r hi r cs ts
  | .text _ => False

theorem repTop_rep {h : Heap} {r : Id} {t : Node} (hr : RepTop h r t) : Rep h none r t := by
  cases t with
  | text => exact hr.elim
  | elem n as ts =>
    obtain ⟨cs, hi, ho, hnd, hc⟩ := hr
    exact ⟨cs, none, ho, by simp [Heap.xmlParent, ho, Obj.link, Heap.deref], hnd,
      repB_rep.2 ts h r hi r cs hc (by simp [ho])⟩

/-! ### the states the builder goes through -/

def Empty (b : Builder) : Prop := b.root = none ∧ b.parent = none

def MadeFirst (n : Str) (as : Attrs) (b : Builder) : Prop :=
  b.root = none ∧ b.parent = none ∧ ∃ k, b.newElement = some k ∧ k < b.heap.next ∧
    b.heap.obj k = some (.elem n as [] none)

def DownFirst (n : Str) (as : Attrs) (b : Builder) : Prop :=
  b.root = none ∧ ∃ k, b.parent = some k ∧ b.newElement = some k ∧ k < b.heap.next ∧
    b.heap.obj k = some (.elem n as [] none)

def Chain (fs : List Frame) (b : Builder) : Prop :=
  ∃ r i, b.root = some r ∧ b.parent = some i ∧ Spine b.heap b.heap.next r fs none i

def Made (fs : List Frame) (n : Str) (as : Attrs) (b : Builder) : Prop :=
  ∃ r i k, b.root = some r ∧ b.parent = some i ∧ b.newElement = some k ∧ k < b.heap.next ∧
    Spine b.heap k r fs none i ∧ b.heap.obj k = some (.elem n as [] (some i))

def Linked (fs : List Frame) (n : Str) (as : Attrs) (b : Builder) : Prop :=
  ∃ r i k, b.root = some r ∧ b.parent = some i ∧ b.newElement = some k ∧ k < b.heap.next ∧ i < k ∧
    Spine b.heap k r fs (some k) i ∧ b.heap.obj k = some (.elem n as [] (some i))

def MadeText (fs : List Frame) (s : Str) (b : Builder) : Prop :=
  ∃ r i k, b.root = some r ∧ b.parent = some i ∧ b.newText = some k ∧ k < b.heap.next ∧
    Spine b.heap k r fs none i ∧ b.heap.obj k = some (.text s (some i))

def Finished (t : Node) (b : Builder) : Prop :=
  ∃ r, b.root = some r ∧ b.parent = none ∧ RepTop b.heap r t

/-- What happens elsewhere cannot be noticed. -/
def Stable (P : Builder → Prop) : Prop :=
  ∀ b h, P b → Disturbed b.roots b.heap h → P { b with heap := h }

theorem mem_roots_root {b : Builder} {i} (h : b.root = some i) : Reachable b.heap b.roots i :=
  .root (by simp [Builder.roots, h])
theorem mem_roots_new {b : Builder} {i} (h : b.newElement = some i) : Reachable b.heap b.roots i :=
  .root (by simp [Builder.roots, h])
theorem mem_roots_text {b : Builder} {i} (h : b.newText = some i) : Reachable b.heap b.roots i :=
  .root (by simp [Builder.roots, h])

theorem stable_empty : Stable Empty := fun _ _ h _ => h

theorem stable_madeFirst (n as) : Stable (MadeFirst n as) := by
  rintro b h ⟨h1, h2, k, h3, h4, h5⟩ hc
  exact ⟨h1, h2, k, h3, Nat.lt_of_lt_of_le h4 hc.1, by
    show h.obj k = _
    rw [collected_same hc (mem_roots_new h3), h5]⟩

theorem stable_downFirst (n as) : Stable (DownFirst n as) := by
  rintro b h ⟨h1, k, h2, h3, h4, h5⟩ hc
  exact ⟨h1, k, h2, h3, Nat.lt_of_lt_of_le h4 hc.1, by
    show h.obj k = _
    rw [collected_same hc (mem_roots_new h3), h5]⟩

theorem stable_chain (fs) : Stable (Chain fs) := by
  rintro b h ⟨r, i, h1, h2, h3⟩ hc
  refine ⟨r, i, h1, h2, ?_⟩
  exact spine_frame (spine_collect h3 hc (mem_roots_root h1)) hc.1 fun _ _ => rfl

theorem stable_made (fs n as) : Stable (Made fs n as) := by
  rintro b h ⟨r, i, k, h1, h2, h3, h4, h5, h6⟩ hc
  refine ⟨r, i, k, h1, h2, h3, Nat.lt_of_lt_of_le h4 hc.1, spine_collect h5 hc (mem_roots_root h1), ?_⟩
  show h.obj k = _
  rw [collected_same hc (mem_roots_new h3), h6]

theorem stable_linked (fs n as) : Stable (Linked fs n as) := by
  rintro b h ⟨r, i, k, h1, h2, h3, h4, hlt, h5, h6⟩ hc
  refine ⟨r, i, k, h1, h2, h3, Nat.lt_of_lt_of_le h4 hc.1, hlt, spine_collect h5 hc (mem_roots_root h1), ?_⟩
  show h.obj k = _
  rw [collected_same hc (mem_roots_new h3), h6]

theorem stable_madeText (fs s) : Stable (MadeText fs s) := by
  rintro b h ⟨r, i, k, h1, h2, h3, h4, h5, h6⟩ hc
  refine ⟨r, i, k, h1, h2, h3, Nat.lt_of_lt_of_le h4 hc.1, spine_collect h5 hc (mem_roots_root h1), ?_⟩
  show h.obj k = _
  rw [collected_same hc (mem_roots_text h3), h6]

theorem stable_finished (t) : Stable (Finished t) := by
  rintro b h ⟨r, h1, h2, h3⟩ hc
  refine ⟨r, h1, h2, ?_⟩
  have hr := mem_roots_root h1
  cases t with
  | text => exact h3.elim
  | elem n as ts =>
    obtain ⟨cs, hi, ho, hnd, hcs⟩ := h3
    refine ⟨cs, hi, by show h.obj r = _; rw [collected_same hc hr, ho], hnd, repB_collect.2 ts _ h r hi r cs hcs hc ?_⟩
    intro c hm
    exact .child hr (by simp [Heap.children, ho, Obj.kids, hm])

/-! ### the assignments -/

variable {D : List Id → Heap → Heap → Prop}

/-- Nothing of what happens can be noticed. -/
def Harmless (D : List Id → Heap → Heap → Prop) : Prop := ∀ roots h h', D roots h h' → Disturbed roots h h'

theorem harmless_collected : Harmless Collected := fun _ _ _ => disturbed_collected

theorem harmless_disturbed : Harmless Disturbed := fun _ _ _ h => h

theorem runs_op (hD : Harmless D) {P : Builder → Prop} (hP : Stable P) {ops' b b'} (h : RunsWith D ops' b b') :
    ∀ {o ops}, ops' = o :: ops → P b → ∃ b1, P b1 ∧ RunsWith D ops (o.exec b1) b' := by
  induction h with
  | done => intro o ops h; cases h
  | collect hc _ ih => intro o ops h hb; exact ih h (hP _ _ hb (hD _ _ _ hc))
  | op hr _ => intro o ops h hb; cases h; exact ⟨_, hb, hr⟩

theorem runs_end (hD : Harmless D) {P : Builder → Prop} (hP : Stable P) {ops' b b'} (h : RunsWith D ops' b b') :
    ops' = [] → P b → P b' := by
  induction h with
  | done => intro _ hb; exact hb
  | collect hc _ ih => intro h hb; exact ih h (hP _ _ hb (hD _ _ _ hc))
  | op => intro h; cases h

theorem do_makeFirst {b n as} (h : Empty b) : MadeFirst n as (Op.exec b (.makeElement n as)) := by
  obtain ⟨h1, h2⟩ := h
  refine ⟨h1, h2, b.heap.next, rfl, ?_, ?_⟩
  · exact Nat.lt_succ_self _
  · simp [Op.exec, alloc_obj, h2]

theorem do_linkFirst {b n as} (h : MadeFirst n as b) : MadeFirst n as (Op.exec b .linkElement) := by
  have h2 := h.2.1
  simpa [Op.exec, h2] using h

theorem do_downFirst {b n as} (h : MadeFirst n as b) : DownFirst n as (Op.exec b .moveDown) := by
  obtain ⟨h1, h2, k, h3, h4, h5⟩ := h
  exact ⟨h1, k, h3, h3, h4, h5⟩

theorem do_setRoot {b n as} (h : DownFirst n as b) : Chain [(n, as, [])] (Op.exec b .setRoot) := by
  obtain ⟨h1, k, h2, h3, h4, h5⟩ := h
  refine ⟨k, k, by simp [Op.exec, h1, h3], by simp [Op.exec, h1, h2], ?_⟩
  rw [spine_cases]
  refine ⟨by simpa [Op.exec, h1] using h4, [], none, by simp [Op.exec, h1, h5], by simp, rfl, .inl ⟨rfl, rfl, rfl⟩⟩

theorem do_make {fs b n as} (h : Chain fs b) : Made fs n as (Op.exec b (.makeElement n as)) := by
  obtain ⟨r, i, h1, h2, h3⟩ := h
  refine ⟨r, i, b.heap.next, h1, h2, rfl, Nat.lt_succ_self _, ?_, by simp [Op.exec, alloc_obj, h2]⟩
  refine spine_frame h3 (Nat.le_refl _) (fun k hk => ?_)
  simp [Op.exec, alloc_obj, Nat.ne_of_lt hk]

theorem spine_lt {h hi r fs op i} (hs : Spine h hi r fs op i) : i < hi := by
  obtain ⟨⟨n, as, ts⟩, fs, rfl⟩ : ∃ f fs', fs = f :: fs' := by
    cases fs; exact hs.elim; exact ⟨_, _, rfl⟩
  exact (spine_cases.1 hs).1

theorem append_next (h : Heap) (x c : Id) : (h.append x c).next = h.next := by
  unfold Heap.append; split <;> rfl

theorem append_obj_ne (h : Heap) {x c k : Id} (hk : k ≠ x) : (h.append x c).obj k = h.obj k := by
  unfold Heap.append
  split
  · rw [set_obj, if_neg hk]
  · rfl

theorem do_link {fs b n as} (h : Made fs n as b) : Linked fs n as (Op.exec b .linkElement) := by
  obtain ⟨r, i, k, h1, h2, h3, h4, h5, h6⟩ := h
  have hik := spine_lt h5
  have he : Op.exec b .linkElement = { b with heap := b.heap.append i k } := by simp [Op.exec, h2, h3]
  rw [he]
  refine ⟨r, i, k, h1, h2, h3, by simpa [append_next] using h4, hik, spine_append h5 (Nat.le_refl _), ?_⟩
  show (b.heap.append i k).obj k = _
  rw [append_obj_ne _ (Nat.ne_of_gt hik), h6]

theorem do_down {fs b n as} (h : Linked fs n as b) : Chain ((n, as, []) :: fs) (Op.exec b .moveDown) := by
  obtain ⟨r, i, k, h1, h2, h3, h4, hlt, h5, h6⟩ := h
  refine ⟨r, k, h1, h3, ?_⟩
  rw [spine_cases]
  exact ⟨h4, [], some i, by simpa [Op.exec] using h6, by simp, rfl, .inr ⟨spine_ne h5, i, rfl, hlt, h5⟩⟩

theorem do_setRootAgain {fs b} (h : Chain fs b) : Chain fs (Op.exec b .setRoot) := by
  obtain ⟨r, i, h1, h2, h3⟩ := h
  have he : Op.exec b .setRoot = b := by simp [Op.exec, h1]
  rw [he]
  exact ⟨r, i, h1, h2, h3⟩

theorem do_makeText {fs b s} (h : Chain fs b) : MadeText fs s (Op.exec b (.makeText s)) := by
  obtain ⟨r, i, h1, h2, h3⟩ := h
  refine ⟨r, i, b.heap.next, h1, h2, rfl, Nat.lt_succ_self _, ?_, by simp [Op.exec, alloc_obj, h2]⟩
  refine spine_frame h3 (Nat.le_refl _) (fun k hk => ?_)
  simp [Op.exec, alloc_obj, Nat.ne_of_lt hk]

/-- The last listed child becomes part of what the chain describes. -/
theorem spine_absorb {h hi hi' r n as ts fs i k t} (hs : Spine h hi r ((n, as, ts) :: fs) (some k) i)
    (hh : hi ≤ hi') (hk : RepB h i hi' (some i) k t) :
    Spine h hi' r ((n, as, ts ++ [t]) :: fs) none i := by
  rw [spine_cases] at hs ⊢
  obtain ⟨h2, cs, p, h3, h4, h5, h6⟩ := hs
  refine ⟨Nat.lt_of_lt_of_le h2 hh, cs ++ [k], p, by simpa using h3, by simpa using h4, ?_, h6⟩
  exact repBs_snoc (repB_frame.2 ts h h i hi hi' i cs h5 hh (fun _ _ _ => rfl)) hk

theorem do_linkText {n as ts fs b s} (h : MadeText ((n, as, ts) :: fs) s b) :
    Chain ((n, as, ts ++ [.text s]) :: fs) (Op.exec b .linkText) := by
  obtain ⟨r, i, k, h1, h2, h3, h4, h5, h6⟩ := h
  have hik := spine_lt h5
  have he : Op.exec b .linkText = { b with heap := b.heap.append i k } := by simp [Op.exec, h2, h3]
  rw [he]
  refine ⟨r, i, h1, h2, ?_⟩
  show Spine (b.heap.append i k) (b.heap.append i k).next r _ none i
  rw [append_next]
  refine spine_absorb (spine_append h5 (Nat.le_refl _)) (Nat.le_of_lt h4) ⟨hik, h4, ?_⟩
  rw [append_obj_ne _ (Nat.ne_of_gt hik), h6]

theorem do_up {n as ts m bs us fs b} (h : Chain ((n, as, ts) :: (m, bs, us) :: fs) b) :
    Chain ((m, bs, us ++ [.elem n as ts]) :: fs) (Op.exec b .moveUp) := by
  obtain ⟨r, i, h1, h2, h3⟩ := h
  rw [spine_cases] at h3
  obtain ⟨k2, cs, p, k3, k4, k5, ⟨k6, _⟩ | ⟨_, j, rfl, hj, hs⟩⟩ := h3
  · cases k6
  · simp only [Option.toList_none, List.append_nil] at k3 k4
    have hj' : (b.heap.obj j).isSome = true := by
      rw [spine_cases] at hs
      obtain ⟨_, cs', p', e, _⟩ := hs
      simp [e]
    have he : Op.exec b .moveUp = { b with parent := some j } := by
      simp [Op.exec, h2, Heap.xmlParent, k3, Obj.link, Heap.deref, hj']
    rw [he]
    exact ⟨r, j, h1, rfl, spine_absorb hs (Nat.le_of_lt k2) ⟨hj, k2, cs, k3, k4, k5⟩⟩

theorem do_upLast {n as ts b} (h : Chain [(n, as, ts)] b) :
    Finished (.elem n as ts) (Op.exec b .moveUp) := by
  obtain ⟨r, i, h1, h2, h3⟩ := h
  rw [spine_cases] at h3
  obtain ⟨k2, cs, p, k3, k4, k5, ⟨_, rfl, rfl⟩ | ⟨k6, _⟩⟩ := h3
  · simp only [Option.toList_none, List.append_nil] at k3 k4
    have he : Op.exec b .moveUp = { b with parent := none } := by
      simp [Op.exec, h2, Heap.xmlParent, k3, Obj.link, Heap.deref]
    rw [he]
    exact ⟨i, h1, rfl, cs, b.heap.next, k3, k4, k5⟩
  · exact absurd rfl k6

/-! ### whole streams -/

/-- Where the builder is after the events of a well-nested stream. -/
def At (evs : List Event) (b : Builder) : Prop :=
  match track evs with
  | .before => Empty b
  | .inside _ => ∃ fs, fs ≠ [] ∧ evs = frameEvents fs ∧ Chain fs b
  | .after => ∃ n as ts, evs = Node.events [] (.elem n as ts) ∧ Finished (.elem n as ts) b
  | .bad => True

theorem track_snoc (evs : List Event) (x : Event) : track (evs ++ [x]) = (track evs).next x := by
  simp [track, List.foldl_append]

theorem frameEvents_names : ∀ {fs fs' : List Frame}, frameEvents fs = frameEvents fs' →
    track (frameEvents fs) = track (frameEvents fs') := by
  intro fs fs' h; rw [h]

/-- The open elements a reader sees are those of the chain. -/
theorem track_frameEvents : ∀ (fs : List Frame), fs ≠ [] → track (frameEvents fs) = .inside (frameNames fs) := by
  have hev : (∀ (x : Node) (o : List Str), o ≠ [] →
      (Node.events o.reverse x).foldl Track.next (.inside o) = .inside o) ∧
      (∀ (xs : List Node) (o : List Str), o ≠ [] →
      (Node.eventsList o.reverse xs).foldl Track.next (.inside o) = .inside o) := by
    apply Node.induct
    · intro n as cs ih o ho
      have ih := ih (n :: o) (by simp)
      simp only [List.reverse_cons] at ih
      simp only [Node.events, List.foldl_cons, Track.next, if_true, List.foldl_append, ih,
        List.foldl_nil, and_self]
      rw [if_neg ho]
    · intro s o _; cases o <;> rfl
    · intro o _; rfl
    · intro x xs ihx ihxs o ho
      simp only [Node.eventsList, List.foldl_append, ihx o ho, ihxs o ho]
  intro fs
  induction fs with
  | nil => intro h; exact absurd rfl h
  | cons f fs ih =>
    intro _
    obtain ⟨n, as, ts⟩ := f
    have hl := hev.2 ts (n :: frameNames fs) (by simp)
    simp only [List.reverse_cons] at hl
    simp only [frameEvents, track, List.foldl_append, List.foldl_cons]
    cases fs with
    | nil =>
      simp only [frameEvents, List.foldl_nil, frameNames, List.map_nil, List.reverse_nil, Track.next,
        if_true, List.nil_append]
      simpa [frameNames] using hl
    | cons g fs =>
      have := ih (by simp)
      simp only [track] at this
      rw [this]
      simp only [Track.next, if_true]
      simpa [frameNames] using hl

theorem do_event (hD : Harmless D) {evs : List Event} {x : Event} {ops b b'} (hw : track (evs ++ [x]) ≠ .bad)
    (h : At evs b) (hr : RunsWith D (x.ops ++ ops) b b') :
    ∃ b1, At (evs ++ [x]) b1 ∧ RunsWith D ops b1 b' := by
  have ht := track_snoc evs x
  simp only [At] at h ⊢
  cases htr : track evs with
  | bad =>
    rw [htr] at ht
    rw [ht] at hw
    cases x <;> exact absurd rfl hw
  | after =>
    rw [htr] at ht
    rw [ht] at hw
    cases x <;> exact absurd rfl hw
  | before =>
    rw [htr] at h ht
    simp only at h
    have hnil : evs = [] := by
      have := track_frames evs
      rw [htr] at this
      exact this
    subst hnil
    cases x with
    | stop n anc => rw [ht] at hw; exact absurd rfl hw
    | chars s => rw [ht] at hw; exact absurd rfl hw
    | start n as anc =>
      simp only [Track.next] at ht
      by_cases ha : anc = []
      · subst ha
        simp only [if_true] at ht
        simp only [Event.ops, List.cons_append, List.nil_append] at hr
        obtain ⟨b1, h1, r1⟩ := runs_op hD stable_empty hr rfl h
        obtain ⟨b2, h2, r2⟩ := runs_op hD (stable_madeFirst n as) r1 rfl (do_makeFirst h1)
        obtain ⟨b3, h3, r3⟩ := runs_op hD (stable_madeFirst n as) r2 rfl (do_linkFirst h2)
        obtain ⟨b4, h4, r4⟩ := runs_op hD (stable_downFirst n as) r3 rfl (do_downFirst h3)
        refine ⟨_, ?_, r4⟩
        rw [ht]
        exact ⟨[(n, as, [])], by simp, by simp [frameEvents, frameNames, Node.eventsList], do_setRoot h4⟩
      · rw [if_neg ha] at ht; rw [ht] at hw; exact absurd rfl hw
  | inside o =>
    rw [htr] at h ht
    simp only at h
    obtain ⟨fs, hfs, rfl, hch⟩ := h
    have hn := track_frameEvents fs hfs
    rw [htr] at hn
    cases hn
    obtain ⟨⟨m, a, cs⟩, fs, rfl⟩ : ∃ f fs', fs = f :: fs' := by
      cases fs; exact absurd rfl hfs; exact ⟨_, _, rfl⟩
    cases x with
    | start n as anc =>
      simp only [Track.next] at ht
      by_cases ha : anc = (frameNames ((m, a, cs) :: fs)).reverse
      · simp only [ha, if_true] at ht
        simp only [Event.ops, List.cons_append, List.nil_append] at hr
        obtain ⟨b1, h1, r1⟩ := runs_op hD (stable_chain _) hr rfl hch
        obtain ⟨b2, h2, r2⟩ := runs_op hD (stable_made _ n as) r1 rfl (do_make h1)
        obtain ⟨b3, h3, r3⟩ := runs_op hD (stable_linked _ n as) r2 rfl (do_link h2)
        obtain ⟨b4, h4, r4⟩ := runs_op hD (stable_chain _) r3 rfl (do_down h3)
        refine ⟨_, ?_, r4⟩
        rw [ha, ht]
        exact ⟨(n, as, []) :: (m, a, cs) :: fs, by simp,
          by simp [frameEvents, frameNames, Node.eventsList], do_setRootAgain h4⟩
      · rw [if_neg ha] at ht; rw [ht] at hw; exact absurd rfl hw
    | chars s =>
      simp only [Event.ops, List.cons_append, List.nil_append] at hr
      obtain ⟨b1, h1, r1⟩ := runs_op hD (stable_chain _) hr rfl hch
      obtain ⟨b2, h2, r2⟩ := runs_op hD (stable_madeText _ s) r1 rfl (do_makeText h1)
      refine ⟨_, ?_, r2⟩
      rw [ht]
      simp only [frameNames, List.map_cons, Track.next]
      exact ⟨(m, a, cs ++ [.text s]) :: fs, by simp,
        by simp [frameEvents, Node.eventsList, eventsList_append, Node.events], do_linkText h2⟩
    | stop n anc =>
      simp only [frameNames, List.map_cons, Track.next] at ht
      by_cases ha : n = m ∧ anc = (List.map (·.1) fs).reverse
      · rw [if_pos ha] at ht
        obtain ⟨rfl, rfl⟩ := ha
        simp only [Event.ops, List.cons_append, List.nil_append] at hr
        obtain ⟨b1, h1, r1⟩ := runs_op hD (stable_chain _) hr rfl hch
        refine ⟨_, ?_, r1⟩
        cases fs with
        | nil =>
          simp only [List.map_nil, if_true] at ht
          simp only [List.map_nil]
          rw [ht]
          exact ⟨n, a, cs, by simp [frameEvents, frameNames, Node.events], do_upLast h1⟩
        | cons f fs =>
          obtain ⟨m', a', cs'⟩ := f
          rw [if_neg (by simp)] at ht
          rw [ht]
          exact ⟨(m', a', cs' ++ [.elem n a cs]) :: fs, by simp,
            by simp [frameEvents, frameNames, Node.eventsList, eventsList_append, Node.events], do_up h1⟩
      · rw [if_neg ha] at ht; rw [ht] at hw; exact absurd rfl hw

theorem track_bad (r : List Event) : r.foldl Track.next .bad = .bad := by
  induction r with
  | nil => rfl
  | cons x r ih => cases x <;> exact ih

theorem wellNested_prefix {a b : List Event} (h : WellNested (a ++ b)) : WellNested a := by
  intro hb
  apply h
  simp only [track] at hb ⊢
  rw [List.foldl_append, hb, track_bad]

theorem do_events (hD : Harmless D) : ∀ (r evs : List Event) {b b' : Builder}, WellNested (evs ++ r) → At evs b →
    RunsWith D (r.flatMap Event.ops) b b' → At (evs ++ r) b' := by
  intro r
  induction r with
  | nil =>
    intro evs b b' _ h hr
    simp only [List.append_nil]
    refine runs_end hD ?_ hr rfl h
    intro b h hb hc
    simp only [At] at hb ⊢
    cases ht : track evs with
    | bad => trivial
    | before => rw [ht] at hb; exact stable_empty b h hb hc
    | inside o =>
      rw [ht] at hb
      obtain ⟨fs, h1, h2, h3⟩ := hb
      exact ⟨fs, h1, h2, stable_chain fs b h h3 hc⟩
    | after =>
      rw [ht] at hb
      obtain ⟨n, as, ts, h1, h2⟩ := hb
      exact ⟨n, as, ts, h1, stable_finished _ b h h2 hc⟩
  | cons x r ih =>
    intro evs b b' hw h hr
    have hw' : WellNested ((evs ++ [x]) ++ r) := by simpa using hw
    simp only [List.flatMap_cons] at hr
    obtain ⟨b1, h1, r1⟩ := do_event hD (wellNested_prefix hw') h hr
    have := ih (evs ++ [x]) hw' h1 r1
    simpa using this

/-! ### reading off the tree -/

/-- The tree of the chain, all elements closed. -/
def closeFrames : List Frame → Option Node
  | [] => none
  | [(n, as, ts)] => some (.elem n as ts)
  | (n, as, ts) :: (m, bs, us) :: fs => closeFrames ((m, bs, us ++ [.elem n as ts]) :: fs)
termination_by fs => fs.length

/-- The end events missing. -/
def missingStops : List Frame → List Event
  | [] => []
  | (n, _, _) :: fs => .stop n (frameNames fs).reverse :: missingStops fs

theorem closeFrames_spec : ∀ (fs : List Frame), fs ≠ [] → ∃ n as ts,
    closeFrames fs = some (.elem n as ts) ∧
    frameEvents fs ++ missingStops fs = Node.events [] (.elem n as ts) := by
  have H : ∀ (k : Nat) (fs : List Frame), fs.length = k → fs ≠ [] → ∃ n as ts,
      closeFrames fs = some (.elem n as ts) ∧
      frameEvents fs ++ missingStops fs = Node.events [] (.elem n as ts) := by
    intro k
    induction k with
    | zero => intro fs h h'; cases fs; exact absurd rfl h'; cases h
    | succ k ih =>
      intro fs hl hne
      match fs, hl, hne with
      | [(n, as, ts)], _, _ =>
        exact ⟨n, as, ts, by simp [closeFrames], by simp [frameEvents, frameNames, missingStops, Node.events]⟩
      | (n, as, ts) :: (m, bs, us) :: fs, hl, _ =>
        obtain ⟨n', as', ts', h1, h2⟩ := ih ((m, bs, us ++ [.elem n as ts]) :: fs)
          (by simpa using hl) (by simp)
        refine ⟨n', as', ts', by rw [closeFrames]; exact h1, ?_⟩
        rw [← h2]
        simp [frameEvents, frameNames, missingStops, Node.eventsList, eventsList_append, Node.events]
  intro fs h
  exact H _ fs rfl h

/-- The chain in memory is that tree. -/
theorem chain_closes : ∀ (k : Nat) (fs : List Frame) (h : Heap) (hi r i : Nat), fs.length = k →
    Spine h hi r fs none i → ∃ n as ts, closeFrames fs = some (.elem n as ts) ∧ RepTop h r (.elem n as ts) := by
  intro k
  induction k with
  | zero => intro fs h hi r i hl hs; exact absurd (List.length_eq_zero_iff.1 hl) (spine_ne hs)
  | succ k ih =>
    intro fs h hi r i hl hs
    match fs, hl, hs with
    | [(n, as, ts)], _, hs =>
      rw [spine_cases] at hs
      obtain ⟨k2, cs, p, k3, k4, k5, ⟨_, rfl, rfl⟩ | ⟨k6, _⟩⟩ := hs
      · simp only [Option.toList_none, List.append_nil] at k3 k4
        exact ⟨n, as, ts, by simp [closeFrames], cs, hi, k3, k4, k5⟩
      · exact absurd rfl k6
    | (n, as, ts) :: (m, bs, us) :: fs, hl, hs =>
      rw [spine_cases] at hs
      obtain ⟨k2, cs, p, k3, k4, k5, ⟨k6, _⟩ | ⟨_, j, rfl, hj, hs⟩⟩ := hs
      · cases k6
      · simp only [Option.toList_none, List.append_nil] at k3 k4
        have hk : RepB h j hi (some j) i (.elem n as ts) := ⟨hj, k2, cs, k3, k4, k5⟩
        have := ih ((m, bs, us ++ [.elem n as ts]) :: fs) h hi r j (by simpa using hl)
          (spine_absorb hs (Nat.le_of_lt k2) hk)
        rw [closeFrames]
        exact this

/-- A reader that builds values. -/
inductive VState where
  | before
  | inside (fs : List Frame)
  | after (t : Node)
  | bad

def VState.next : VState → Event → VState
  | .before, .start n as _ => .inside [(n, as, [])]
  | .inside fs, .start n as _ => .inside ((n, as, []) :: fs)
  | .inside ((n, as, ts) :: fs), .chars s => .inside ((n, as, ts ++ [.text s]) :: fs)
  | .inside [(n, as, ts)], .stop _ _ => .after (.elem n as ts)
  | .inside ((n, as, ts) :: (m, bs, us) :: fs), .stop _ _ => .inside ((m, bs, us ++ [.elem n as ts]) :: fs)
  | _, _ => .bad

def vfold (v : VState) (evs : List Event) : VState := evs.foldl VState.next v

theorem vfold_append (v evs evs') : vfold v (evs ++ evs') = vfold (vfold v evs) evs' := by
  simp [vfold, List.foldl_append]

theorem vfold_events :
    (∀ (x : Node) anc n as ts fs, vfold (.inside ((n, as, ts) :: fs)) (Node.events anc x) =
      .inside ((n, as, ts ++ [x]) :: fs)) ∧
    (∀ (xs : List Node) anc n as ts fs, vfold (.inside ((n, as, ts) :: fs)) (Node.eventsList anc xs) =
      .inside ((n, as, ts ++ xs) :: fs)) := by
  apply Node.induct
  · intro m bs cs ih anc n as ts fs
    have := ih (anc ++ [m]) m bs [] ((n, as, ts) :: fs)
    simp only [vfold, List.nil_append] at this
    simp only [Node.events, vfold, List.foldl_cons, VState.next, List.foldl_append, this, List.foldl_nil]
  · intro s anc n as ts fs; rfl
  · intro anc n as ts fs; simp [Node.eventsList, vfold]
  · intro x xs ihx ihxs anc n as ts fs
    rw [Node.eventsList, vfold_append, ihx, ihxs]; simp

theorem vfold_doc (n as ts) : vfold .before (Node.events [] (.elem n as ts)) = .after (.elem n as ts) := by
  have := vfold_events.2 ts ([] ++ [n]) n as [] []
  simp only [vfold, List.nil_append] at this
  simp only [Node.events, vfold, List.foldl_cons, VState.next, List.foldl_append, List.nil_append, this,
    List.foldl_nil]

theorem vfold_frames : ∀ (fs : List Frame), fs ≠ [] → vfold .before (frameEvents fs) = .inside fs := by
  intro fs
  induction fs with
  | nil => intro h; exact absurd rfl h
  | cons f fs ih =>
    intro _
    obtain ⟨n, as, ts⟩ := f
    rw [frameEvents, vfold_append]
    have hl := vfold_events.2 ts ((frameNames fs).reverse ++ [n]) n as [] fs
    simp only [vfold, List.nil_append] at hl ⊢
    cases fs with
    | nil => simpa [frameEvents, VState.next, frameNames] using hl
    | cons g fs =>
      have := ih (by simp)
      simp only [vfold] at this
      rw [this]
      simpa [VState.next] using hl

theorem vfold_bad (r : List Event) : vfold .bad r = .bad := by
  induction r with
  | nil => rfl
  | cons x r ih => cases x <;> exact ih

theorem vfold_after (t) (r : List Event) (t') (h : vfold (.after t) r = .after t') : t = t' := by
  cases r with
  | nil => cases h; rfl
  | cons x r =>
    have : vfold (.after t) (x :: r) = .bad := by cases x <;> exact vfold_bad r
    rw [this] at h; cases h

theorem vfold_stops : ∀ (miss : List Event) (fs : List Frame) (t : Node),
    (∀ ev ∈ miss, ev.isStop = true) → vfold (.inside fs) miss = .after t → closeFrames fs = some t := by
  intro miss
  induction miss with
  | nil => intro fs t _ h; cases h
  | cons x miss ih =>
    intro fs t hm h
    have hx := hm x (by simp)
    cases x with
    | start => cases hx
    | chars => cases hx
    | stop n anc =>
      match fs with
      | [] => 
        have : vfold (.inside []) (.stop n anc :: miss) = .bad := vfold_bad miss
        rw [this] at h; cases h
      | [(n, as, ts)] =>
        simp only [closeFrames]
        exact congrArg some (vfold_after _ _ _ h)
      | (n, as, ts) :: (m, bs, us) :: fs =>
        rw [closeFrames]
        exact ih _ _ (fun ev hev => hm ev (by simp [hev])) h

/-- The tree described by the events is unique. -/
theorem described_unique {evs t t'} (h : Described evs t) (h' : Described evs t') : t = t' := by
  cases t with
  | none =>
    cases t' with
    | none => rfl
    | some t' => exact absurd h h'.2.1
  | some t =>
    cases t' with
    | none => exact absurd h' h.2.1
    | some t' =>
      obtain ⟨h1, h2, miss, h3, h4⟩ := h
      obtain ⟨h1', h2', miss', h3', h4'⟩ := h'
      obtain ⟨n, as, ts, rfl⟩ : ∃ n as ts, t = .elem n as ts := by
        cases t; exact ⟨_, _, _, rfl⟩; cases h1
      obtain ⟨n', as', ts', rfl⟩ : ∃ n as ts, t' = .elem n as ts := by
        cases t'; exact ⟨_, _, _, rfl⟩; cases h1'
      have e := vfold_doc n as ts
      have e' := vfold_doc n' as' ts'
      rw [← h4, vfold_append] at e
      rw [← h4', vfold_append] at e'
      congr 1
      cases hv : vfold .before evs with
      | before =>
        exfalso
        cases evs with
        | nil => exact h2 rfl
        | cons x evs =>
          have nb : ∀ (r : List Event) v, v ≠ .before → vfold v r ≠ .before := by
            intro r
            induction r with
            | nil => intro v hv h; exact hv h
            | cons y r ih =>
              intro v hv
              exact ih _ (by cases v <;> cases y <;> simp [VState.next] <;> (repeat' split) <;> simp_all)
          refine nb evs (VState.next .before x) ?_ hv
          cases x <;> simp [VState.next]
      | inside fs =>
        rw [hv] at e e'
        have a := vfold_stops _ _ _ h3 e
        have b := vfold_stops _ _ _ h3' e'
        rw [a] at b
        exact (Option.some.inj b)
      | after x =>
        rw [hv] at e e'
        rw [← vfold_after _ _ _ e, vfold_after _ _ _ e']
      | bad => rw [hv, vfold_bad] at e; cases e

/-- The events determine the element. -/
theorem events_injective {e e' : Node} (h : e.isText = false) (h' : e'.isText = false)
    (he : e.events [] = e'.events []) : e = e' := by
  have h1 : Described (e.events []) (some e) :=
    ⟨h, (by cases e with | elem => simp [Node.events] | text => cases h), [], by simp, by simp⟩
  have h2 : Described (e.events []) (some e') :=
    ⟨h', (by cases e with | elem => simp [Node.events] | text => cases h), [], by simp, by simp [he]⟩
  exact Option.some.inj (described_unique h1 h2)

/-- As `IsTree`, with no link stored at the top. -/
def IsTop (h : Heap) (root : Option Id) : Option Node → Prop
  | none => root = none
  | some t => ∃ i, root = some i ∧ RepTop h i t

theorem isTop_isTree {h root t} (ht : IsTop h root t) : IsTree h root t := by
  cases t with
  | none => exact ht
  | some t => obtain ⟨i, h1, h2⟩ := ht; exact ⟨i, h1, repTop_rep h2⟩

theorem isTop_disturbed {h h' : Heap} {root t} (ht : IsTop h root t) (hd : Disturbed root.toList h h') :
    IsTop h' root t := by
  cases t with
  | none => exact ht
  | some t =>
    obtain ⟨i, rfl, h2⟩ := ht
    refine ⟨i, rfl, ?_⟩
    cases t with
    | text => exact h2.elim
    | elem n as ts =>
      obtain ⟨cs, hi, ho, hnd, hc⟩ := h2
      have hri : Reachable h (some i).toList i := .root (by simp)
      refine ⟨cs, hi, by rw [hd.2 i hri, ho], hnd, repB_collect.2 ts h h' i hi i cs hc hd ?_⟩
      intro c hm
      exact .child hri (by simpa [Heap.children, ho, Obj.kids] using hm)

/-- For every well-nested stream there is one tree (or none) that every execution builds. -/
theorem events_tree_with (hD : Harmless D) (evs : List Event) (hw : WellNested evs) :
    ∃ t, Described evs t ∧ ∀ b b', Empty b → RunsWith D (evs.flatMap Event.ops) b b' → IsTop b'.heap b'.root t := by
  -- every execution builds a tree described by the events; that tree is unique
  have H : ∀ b b', Empty b → RunsWith D (evs.flatMap Event.ops) b b' →
      ∃ t, Described evs t ∧ IsTop b'.heap b'.root t := by
    intro b b' he hr
    have hAt : At evs b' := do_events hD evs [] hw (show At [] b from he) hr
    simp only [At] at hAt
    cases ht : track evs with
    | bad => exact absurd ht hw
    | before =>
      rw [ht] at hAt
      have hti := track_frames evs
      rw [ht] at hti
      exact ⟨none, hti, hAt.1⟩
    | after =>
      rw [ht] at hAt
      obtain ⟨n, as, ts, rfl, r, h1, h2, h3⟩ := hAt
      exact ⟨some (.elem n as ts), ⟨rfl, by simp [Node.events], [], by simp, by simp⟩, r, h1, h3⟩
    | inside o =>
      rw [ht] at hAt
      obtain ⟨fs, hfs, rfl, r, i, h1, h2, h3⟩ := hAt
      obtain ⟨n, as, ts, hc, hT⟩ := chain_closes _ fs _ _ _ _ rfl h3
      obtain ⟨n', as', ts', hc', he'⟩ := closeFrames_spec fs hfs
      rw [hc] at hc'
      cases hc'
      refine ⟨some (.elem n as ts), ⟨rfl, ?_, missingStops fs, ?_, he'⟩, r, h1, hT⟩
      · cases fs with
        | nil => exact absurd rfl hfs
        | cons f fs => obtain ⟨a, b, c⟩ := f; simp [frameEvents]
      · intro ev hev
        have : ∀ (fs : List Frame), ∀ ev ∈ missingStops fs, ev.isStop = true := by
          intro fs
          induction fs with
          | nil => intro ev hev; cases hev
          | cons f fs ih =>
            obtain ⟨a, b, c⟩ := f
            intro ev hev
            rcases List.mem_cons.1 hev with rfl | hev
            · rfl
            · exact ih ev hev
        exact this fs ev hev
  -- an execution without the collector exists, so the tree is the same for all
  have hex : ∀ (ops : List Op) (b : Builder), ∃ b', RunsWith D ops b b' := by
    intro ops
    induction ops with
    | nil => intro b; exact ⟨b, .done⟩
    | cons o ops ih => intro b; obtain ⟨b', h⟩ := ih (o.exec b); exact ⟨b', .op h⟩
  let b0 : Builder := ⟨⟨0, fun _ => none⟩, none, none, none, none⟩
  obtain ⟨b1, hb1⟩ := hex (evs.flatMap Event.ops) b0
  obtain ⟨t, ht, _⟩ := H b0 b1 ⟨rfl, rfl⟩ hb1
  refine ⟨t, ht, fun b b' he hr => ?_⟩
  obtain ⟨t', ht', h2⟩ := H b b' he hr
  rw [described_unique ht ht']
  exact h2


theorem events_tree (evs : List Event) (hw : WellNested evs) :
    ∃ t, Described evs t ∧ ∀ b b', Empty b → Runs (evs.flatMap Event.ops) b b' → IsTree b'.heap b'.root t := by
  obtain ⟨t, h1, h2⟩ := events_tree_with harmless_collected evs hw
  exact ⟨t, h1, fun b b' he hr => isTop_isTree (h2 b b' he hr)⟩

end Amara
