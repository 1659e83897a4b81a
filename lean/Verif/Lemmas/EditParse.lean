import Verif.Lemmas.EditOps
import Verif.Props.Expat
import Verif.Props.Gen
import Verif.Lemmas.SenderMem
/-
Lemmas for C140: parsing and collecting while the program holds trees.
-/
namespace Amara

theorem runsWith_mono {D D' : List Id → Heap → Heap → Prop} (hD : ∀ r h h', D r h h' → D' r h h') {ops : List Op} {b b' : Builder}
    (hr : RunsWith D ops b b') : RunsWith D' ops b b' := by
  induction hr with
  | done => exact .done
  | collect hc _ ih => exact .collect (hD _ _ _ hc) ih
  | op _ ih => exact .op ih

theorem collected_fewer {r r' : List Id} (hs : ∀ i ∈ r, i ∈ r') {h h' : Heap} (hc : Collected r' h h') : Collected r h h' :=
  ⟨hc.1, fun i => (hc.2 i).imp id fun ⟨h1, h2⟩ => ⟨h1, fun h3 => h2 (reachable_mono hs h3)⟩⟩

theorem parseHolding_parse {held : List Id} {b b' : Builder} {doc : Str} {r : ParseRes} (hp : ParseHolding held b doc r b') :
    TreeParse b doc r b' :=
  ⟨runsWith_mono (fun _ _ _ hc => collected_fewer (fun _ hi => List.mem_append_left _ hi) hc) hp.1, hp.2⟩

/-- What a parse keeps of the objects held when it started. -/
structure KeepsHeld (h0 : Heap) (held : List Id) (b : Builder) : Prop where
  next : h0.next ≤ b.heap.next
  same : ∀ k, Reachable h0 held k → k < h0.next → b.heap.obj k = h0.obj k
  dead : ∀ k, k < h0.next → h0.obj k = none → b.heap.obj k = none
  root : ∀ p, b.root = some p → h0.next ≤ p
  par : ∀ p, b.parent = some p → h0.next ≤ p
  new : ∀ p, b.newElement = some p → h0.next ≤ p
  txt : ∀ p, b.newText = some p → h0.next ≤ p
  links : ∀ k o p, h0.next ≤ k → b.heap.obj k = some o → o.link = some p → h0.next ≤ p

theorem keepsHeld_collect {h0 : Heap} {held : List Id} (hlt : ∀ k, Reachable h0 held k → k < h0.next) {b : Builder} {h : Heap}
    (hk : KeepsHeld h0 held b) (hc : Collected (b.roots ++ held) b.heap h) : KeepsHeld h0 held { b with heap := h } := by
  have hof : ∀ {k o}, h.obj k = some o → b.heap.obj k = some o := by
    intro k o ho
    rcases hc.2 k with h1 | h1
    · rw [← h1, ho]
    · rw [h1.1] at ho; cases ho
  have hre : ∀ k, Reachable h0 held k → Reachable b.heap (b.roots ++ held) k := by
    intro k hr
    induction hr with
    | root hm => exact .root (List.mem_append_right _ hm)
    | child hr hm ih =>
      refine .child ih ?_
      simp only [Heap.children, hk.same _ hr (hlt _ hr)]; exact hm
  exact {
    next := by show h0.next ≤ h.next; rw [hc.1]; exact hk.next
    same := fun k hr h1 => by
      show h.obj k = _
      rcases hc.2 k with h2 | ⟨_, h2⟩
      · rw [h2, hk.same k hr h1]
      · exact absurd (hre k hr) h2
    dead := fun k h1 h2 => by
      show h.obj k = none
      rcases hc.2 k with h3 | h3
      · rw [h3, hk.dead k h1 h2]
      · exact h3.1
    root := hk.root, par := hk.par, new := hk.new, txt := hk.txt
    links := fun k o p h1 h2 h3 => hk.links k o p h1 (hof h2) h3 }

theorem keepsHeld_alloc {h0 : Heap} {held : List Id} {b : Builder}
    (hk : KeepsHeld h0 held b) (o : Obj) (ho : ∀ p, o.link = some p → h0.next ≤ p) :
    KeepsHeld h0 held { b with heap := b.heap.alloc o } := {
    next := Nat.le_succ_of_le hk.next
    same := fun k hr h1 => by
      have : k ≠ b.heap.next := Nat.ne_of_lt (Nat.lt_of_lt_of_le h1 hk.next)
      show (b.heap.alloc o).obj k = _
      rw [alloc_obj, if_neg this, hk.same k hr h1]
    dead := fun k h1 h2 => by
      have : k ≠ b.heap.next := Nat.ne_of_lt (Nat.lt_of_lt_of_le h1 hk.next)
      show (b.heap.alloc o).obj k = _
      rw [alloc_obj, if_neg this, hk.dead k h1 h2]
    root := hk.root, par := hk.par, new := hk.new, txt := hk.txt
    links := fun k o' p h1 h2 h3 => by
      replace h2 : (b.heap.alloc o).obj k = some o' := h2
      rw [alloc_obj] at h2
      by_cases hn : k = b.heap.next
      · rw [if_pos hn] at h2; cases h2; exact ho p h3
      · rw [if_neg hn] at h2; exact hk.links k o' p h1 h2 h3 }

theorem keepsHeld_append {h0 : Heap} {held : List Id} {b : Builder}
    (hk : KeepsHeld h0 held b) {x : Id} (hx : h0.next ≤ x) (c : Id) :
    KeepsHeld h0 held { b with heap := b.heap.append x c } := {
    next := by show h0.next ≤ (b.heap.append x c).next; rw [append_next]; exact hk.next
    same := fun k hr h1 => by
      have : k ≠ x := Nat.ne_of_lt (Nat.lt_of_lt_of_le h1 hx)
      show (b.heap.append x c).obj k = _
      rw [append_obj_ne _ this, hk.same k hr h1]
    dead := fun k h1 h2 => by
      have : k ≠ x := Nat.ne_of_lt (Nat.lt_of_lt_of_le h1 hx)
      show (b.heap.append x c).obj k = _
      rw [append_obj_ne _ this, hk.dead k h1 h2]
    root := hk.root, par := hk.par, new := hk.new, txt := hk.txt
    links := fun k o p h1 h2 h3 => by
      replace h2 : (b.heap.append x c).obj k = some o := h2
      by_cases hn : k = x
      · subst hn
        cases hb : b.heap.obj k with
        | none => simp [Heap.append, hb] at h2
        | some ob =>
          cases ob with
          | text s q => simp only [Heap.append, hb] at h2; cases h2; exact hk.links k _ p h1 hb h3
          | elem n as cs q =>
            simp only [Heap.append, hb, set_obj, if_true, Option.some.injEq] at h2
            subst h2
            exact hk.links k (.elem n as cs q) p h1 hb h3
      · rw [append_obj_ne _ hn] at h2; exact hk.links k o p h1 h2 h3 }

theorem keepsHeld_op {h0 : Heap} {held : List Id} {b : Builder} (hk : KeepsHeld h0 held b) (o : Op) :
    KeepsHeld h0 held (o.exec b) := by
  cases o with
  | makeElement n as =>
    have := keepsHeld_alloc hk (.elem n as [] b.parent) (fun p hp => hk.par p hp)
    refine { this with new := fun p hp => ?_ }
    replace hp : some b.heap.next = some p := hp
    cases hp; exact hk.next
  | makeText s =>
    have := keepsHeld_alloc hk (.text s b.parent) (fun p hp => hk.par p hp)
    refine { this with txt := fun p hp => ?_ }
    replace hp : some b.heap.next = some p := hp
    cases hp; exact hk.next
  | linkElement =>
    simp only [Op.exec]
    cases hp : b.parent with
    | none => exact hk
    | some p =>
      cases hn : b.newElement with
      | none => exact hk
      | some c => have := keepsHeld_append hk (hk.par p hp) c; simpa [hp, hn] using this
  | linkText =>
    simp only [Op.exec]
    cases hp : b.parent with
    | none => exact hk
    | some p =>
      cases hn : b.newText with
      | none => exact hk
      | some c => have := keepsHeld_append hk (hk.par p hp) c; simpa [hp, hn] using this
  | moveDown => exact { hk with par := hk.new }
  | setRoot =>
    simp only [Op.exec]
    split
    · exact { hk with root := hk.new }
    · exact hk
  | moveUp =>
    simp only [Op.exec]
    cases hp : b.parent with
    | none => exact hk
    | some p =>
      refine { hk with par := ?_ }
      intro q hq
      simp only [Heap.xmlParent] at hq
      cases ho : b.heap.obj p with
      | none => rw [ho] at hq; simp [Heap.deref] at hq
      | some o =>
        rw [ho] at hq
        simp only [Option.bind_some] at hq
        cases hl : o.link with
        | none => rw [hl] at hq; simp [Heap.deref] at hq
        | some q' =>
          rw [hl] at hq
          simp only [Heap.deref] at hq
          by_cases hs : (b.heap.obj q').isSome
          · rw [if_pos hs] at hq; cases hq; exact hk.links p o _ (hk.par p hp) ho hl
          · rw [if_neg hs] at hq; cases hq

theorem keepsHeld_runs {h0 : Heap} {held : List Id} (hlt : ∀ k, Reachable h0 held k → k < h0.next) {ops : List Op}
    {b b' : Builder} (hr : RunsWith (fun roots h h' => Collected (roots ++ held) h h') ops b b') :
    KeepsHeld h0 held b → KeepsHeld h0 held b' := by
  induction hr with
  | done => exact id
  | collect hc _ ih => exact fun hk => ih (keepsHeld_collect hlt hk hc)
  | op _ ih => exact fun hk => ih (keepsHeld_op hk _)

/-- Tops of trees that are held reach what a parse does not touch; only these are needed. -/
theorem parse_keeps {F : Forest} {b b' : Builder} (hF : Holds b.heap F) {held : List Id} (hh : F.HeldBy held)
    {doc : Str} {r : ParseRes} (hp : ParseHolding held b doc r b') : Holds b'.heap F := by
  refine ⟨(wellFormed_runs (parseHolding_parse hp).1 hF.bounded (by simp [Builder.reset]) (by simp [Builder.reset])).1, ?_⟩
  intro d u hd
  have hr := hF.trees d u hd
  have hdh : d ∈ held := hh d (by rw [hd]; simp)
  have hlt : ∀ k, Reachable b.heap [d] k → k < b.heap.next := fun k hk => rep_alive' hF.bounded hr hk
  have hrun : RunsWith (fun roots h h' => Collected (roots ++ [d]) h h') ((drive doc).1.flatMap Event.ops) b.reset b' := by
    refine runsWith_mono (fun r h h' hc => collected_fewer (fun i hi => ?_) hc) hp.1
    rcases List.mem_append.1 hi with h1 | h1
    · exact List.mem_append_left _ h1
    · exact List.mem_append_right _ (List.mem_singleton.1 h1 ▸ hdh)
  have hk0 : KeepsHeld b.heap [d] b.reset := {
    next := Nat.le_refl _, same := fun _ _ _ => rfl, dead := fun _ _ h => h
    root := by simp [Builder.reset], par := by simp [Builder.reset], new := by simp [Builder.reset], txt := by simp [Builder.reset]
    links := fun k o p h3 h4 h5 => absurd (hF.bounded k o h4).1 (Nat.not_lt.2 h3) }
  have hk := keepsHeld_runs hlt hrun hk0
  have hsame : ∀ k, Reachable b.heap [d] k → b'.heap.obj k = b.heap.obj k := fun k h1 => hk.same k h1 (hlt k h1)
  refine (rep_same hsame).1 u d none (reach_self _ _) ?_ hr
  -- the top has no parent: its link is nothing, or to an object that is gone, and a number is not used again
  have hx := rep_parent hr
  simp only [Heap.xmlParent] at hx ⊢
  rw [hsame d (reach_self _ _)]
  cases hl : (b.heap.obj d).bind Obj.link with
  | none => rfl
  | some q =>
    rw [hl] at hx
    simp only [Heap.deref] at hx ⊢
    cases ho : b.heap.obj d with
    | none => rw [ho] at hl; cases hl
    | some o =>
      rw [ho] at hl
      have hq := (hF.bounded d o ho).2 q hl
      cases hoq : b.heap.obj q with
      | none => rw [hk.dead q hq hoq]; rfl
      | some oq => rw [hoq] at hx; cases hx

theorem parse_fresh {b b' : Builder} (hb : Bounded b.heap) {held : List Id} {doc : Str} {i : Id}
    (hp : ParseHolding held b doc (.returned (some i)) b') : b.heap.next ≤ i := by
  have hrun : RunsWith (fun roots h h' => Collected (roots ++ []) h h') ((drive doc).1.flatMap Event.ops) b.reset b' :=
    runsWith_mono (fun r h h' hc => collected_fewer (fun i hi => by
      rw [List.append_nil] at hi; exact List.mem_append_left _ hi) hc) hp.1
  have hlt : ∀ k, Reachable b.heap [] k → k < b.heap.next := by
    intro k hk
    induction hk with
    | root hm => cases hm
    | child hr hm ih => exact absurd hm (by
        clear ih hm
        exfalso
        induction hr with
        | root hm => cases hm
        | child _ _ ih => exact ih)
  have hk := keepsHeld_runs hlt hrun {
    next := Nat.le_refl _, same := fun _ _ _ => rfl, dead := fun _ _ h => h
    root := by simp [Builder.reset], par := by simp [Builder.reset], new := by simp [Builder.reset], txt := by simp [Builder.reset]
    links := fun k o p h3 h4 h5 => absurd (hb k o h4).1 (Nat.not_lt.2 h3) }
  refine hk.root i ?_
  have := hp.2
  cases hd : (drive doc).2 with
  | returned => rw [hd] at this; simpa using this.symm
  | raised e => rw [hd] at this; cases this
  | stopIteration => rw [hd] at this; cases this
  | never => rw [hd] at this; cases this

theorem collect_keeps {F : Forest} {h h' : Heap} (hF : Holds h F) {held : List Id} (hh : F.HeldBy held)
    (hc : Collected held h h') : Holds h' F := by
  refine ⟨fun i o ho => ?_, fun d u hd => ?_⟩
  · rw [hc.1]
    rcases hc.2 i with h1 | ⟨h1, _⟩
    · exact hF.bounded i o (h1 ▸ ho)
    · rw [h1] at ho; cases ho
  · obtain ⟨p', h1, h2, _⟩ := C105_kept_element hc (hh d (by rw [hd]; simp)) (hF.trees d u hd)
    rcases h2 with rfl | rfl <;> exact h1

end Amara
