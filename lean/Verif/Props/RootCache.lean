import Verif.Model.RootCache
import Verif.Spec.RootCache
import Verif.Props.Mutate
/-
C59: the root of a node is the root of the tree it is in.
-/
namespace Amara

/-- A step of a client: a query, i.e. `root_node.get` of some element, or a change of the trees.  An element is only
inserted if no element of its tree was queried before, and only removed if none below it was.  Objects may
disappear but not those wrapped by a cached root node, which refers to them. -/
inductive QStep : Heap × RootCache → Heap × RootCache → Prop
  | query {h c n e r c'} : (h.obj e).isSome → getRootNode h c n e = some (r, c') → QStep (h, c) (h, c')
  | newElement {h c} (n as) : QStep (h, c) ((h.newElement n as).2, c)
  | newText {h c} (s) : QStep (h, c) ((h.newText s).2, c)
  | insertStr {h c e s i h'} : h.xmlInsert e (.str s) i = .ok h' → QStep (h, c) (h', c)
  | insertText {h c e d s p i h'} : h.obj d = some (.text s p) → h.xmlInsert e (.node d) i = .ok h' →
      QStep (h, c) (h', c)
  | insertElement {h c e d i h'} : h.isElem d → h.xmlParent d = none → h.xmlInsert e (.node d) i = .ok h' →
      (∀ x, c x ≠ some d) → QStep (h, c) (h', c)
  | remove {h c e d h'} : h.isElem d → h.xmlRemove e d = .ok h' → (∀ x r, c x = some r → ¬ Up h x d) →
      QStep (h, c) (h', c)
  | release {h c h'} : Released h h' → (∀ x r, c x = some r → (h'.obj r).isSome) → QStep (h, c) (h', c)

/-- Histories. -/
inductive QSteps : Heap × RootCache → Heap × RootCache → Prop
  | refl {s} : QSteps s s
  | tail {s s' s''} : QSteps s s' → QStep s' s'' → QSteps s s''

theorem top_unique {h : Heap} {e r r' : Id} (h1 : Top h e r) (h2 : Top h e r') : r = r' := by
  induction h1 with
  | root hp =>
    cases h2 with
    | root _ => rfl
    | up hp' _ => rw [hp] at hp'; cases hp'
  | up hp _ ih =>
    cases h2 with
    | root hp' => rw [hp] at hp'; cases hp'
    | up hp' h' => rw [hp] at hp'; cases hp'; exact ih h'

theorem top_congr {h h' : Heap} {e r : Id} (ht : Top h e r) (hp : ∀ x, Up h e x → h'.xmlParent x = h.xmlParent x) :
    Top h' e r := by
  induction ht with
  | root hn => exact .root (by rw [hp _ (.refl _), hn])
  | up hn _ ih => exact .up (by rw [hp _ (.refl _), hn]) (ih fun x hx => hp x (.step hn hx))

theorem up_top {h : Heap} {e r : Id} (ht : Top h e r) : Up h e r := by
  induction ht with
  | root _ => exact .refl _
  | up hn _ ih => exact .step hn ih

theorem top_of_up {h : Heap} {e r x : Id} (ht : Top h e r) (hu : Up h e x) : Top h x r := by
  induction hu with
  | refl _ => exact ht
  | step hp _ ih =>
    cases ht with
    | root hn => rw [hn] at hp; cases hp
    | up hp' ht' => rw [hp] at hp'; cases hp'; exact ih ht'

/-- Every cached root is the right one. -/
def CacheRight (h : Heap) (c : RootCache) : Prop := ∀ e r, c e = some r → (h.obj e).isSome ∧ Top h e r

theorem climb_right {h : Heap} {c : RootCache} (hc : CacheRight h c) {r : Id} :
    ∀ (n : Nat) (e p : Id), Top h p r → ∀ v, climb h c n e (some p) = some v → v = .inl r ∨ v = .inr r := by
  intro n
  induction n with
  | zero => intro e p _ v h; cases h
  | succ n ih =>
    intro e p ht v hv
    rw [climb] at hv
    cases hp : h.xmlParent p with
    | none =>
      rw [hp] at hv
      cases hv
      rw [top_unique ht (.root hp)]
      exact .inr rfl
    | some q =>
      rw [hp] at hv
      simp only at hv
      cases ht with
      | root hn => rw [hp] at hn; cases hn
      | up hq ht' =>
        rw [hp] at hq; cases hq
        cases hcq : c q with
        | some r' =>
          rw [hcq] at hv
          cases hv
          rw [top_unique (hc q r' hcq).2 ht']
          exact .inl rfl
        | none =>
          rw [hcq] at hv
          exact ih p q ht' v hv

theorem climb_ends {h : Heap} {c : RootCache} {p r : Id} (ht : Top h p r) :
    ∃ n, ∀ m, n ≤ m → ∀ e, climb h c m e (some p) ≠ none := by
  induction ht with
  | @root p hp =>
    refine ⟨1, fun m hm e => ?_⟩
    cases m with
    | zero => omega
    | succ m => rw [climb, hp]; simp
  | @up p q r hp _ ih =>
    obtain ⟨n, hn⟩ := ih
    refine ⟨n + 1, fun m hm e => ?_⟩
    cases m with
    | zero => omega
    | succ m =>
      rw [climb, hp]
      simp only
      split
      · simp
      · exact hn m (by omega) p

/-- With a right cache, a query returns the top of the tree, and leaves the cache right. -/
theorem get_right {h : Heap} {c c' : RootCache} {n : Nat} {e r r' : Id} (hc : CacheRight h c)
    (he : (h.obj e).isSome) (ht : Top h e r) (hg : getRootNode h c n e = some (r', c')) :
    r' = r ∧ CacheRight h c' := by
  unfold getRootNode at hg
  cases hce : c e with
  | some d =>
    rw [hce] at hg
    cases hg
    exact ⟨top_unique (hc e _ hce).2 ht, hc⟩
  | none =>
    rw [hce] at hg
    simp only at hg
    have hv : ∀ v, climb h c n e (h.xmlParent e) = some v → v = .inl r ∨ v = .inr r := by
      intro v hv
      cases ht with
      | root hn => rw [hn] at hv; rw [climb] at hv; cases hv; exact .inr rfl
      | up hp ht' => rw [hp] at hv; exact climb_right hc n e _ ht' v hv
    cases hk : climb h c n e (h.xmlParent e) with
    | none => rw [hk] at hg; cases hg
    | some v =>
      rw [hk] at hg
      rcases hv v hk with rfl | rfl
      · cases hg; exact ⟨rfl, hc⟩
      · cases hg
        refine ⟨rfl, ?_⟩
        intro x d hx
        by_cases hxe : x = e
        · subst hxe; simp at hx; subst hx; exact ⟨he, ht⟩
        · simp [hxe] at hx; exact hc x d hx

/-- With a right cache a query ends. -/
theorem get_ends {h : Heap} (c : RootCache) {e r : Id} (ht : Top h e r) :
    ∃ n, ∀ m, n ≤ m → getRootNode h c m e ≠ none := by
  obtain ⟨n, hn⟩ : ∃ n, ∀ m, n ≤ m → climb h c m e (h.xmlParent e) ≠ none := by
    cases ht with
    | root hp => exact ⟨0, fun m _ => by rw [hp]; cases m <;> simp [climb]⟩
    | up hp ht' =>
      obtain ⟨n, hn⟩ := climb_ends (c := c) ht'
      exact ⟨n, fun m hm => by rw [hp]; exact hn m hm e⟩
  refine ⟨n, fun m hm => ?_⟩
  unfold getRootNode
  split
  · simp
  · split
    · rename_i h'; exact absurd h' (hn m hm)
    · simp
    · simp

/-- Parent links of objects whose stored link and whose link's target are as before. -/
theorem xmlParent_same {h h' : Heap} {x : Id} {o : Obj} (ho : h.obj x = some o)
    (ho' : ∃ o', h'.obj x = some o' ∧ o'.link = o.link)
    (ht : ∀ i, o.link = some i → (h'.obj i).isSome = (h.obj i).isSome) : h'.xmlParent x = h.xmlParent x := by
  obtain ⟨o', h1, h2⟩ := ho'
  simp only [Heap.xmlParent, ho, h1, Option.bind_some, h2]
  cases hl : o.link with
  | none => rfl
  | some i => simp [Heap.deref, ht i hl]

theorem isSome_up {h : Heap} {e x : Id} (he : (h.obj e).isSome) (hu : Up h e x) : (h.obj x).isSome := by
  induction hu with
  | refl _ => exact he
  | step hp _ ih =>
    obtain ⟨_, _, _, h3⟩ := xmlParent_eq_some.1 hp
    exact ih h3

/-- A change that keeps existing objects and parent links, except perhaps those of `d`, keeps the cache right if no
cached element is below `d`. -/
theorem cacheRight_change {h h' : Heap} {c : RootCache} {d : Id} (hc : CacheRight h c)
    (hsome : ∀ x, (h.obj x).isSome → (h'.obj x).isSome)
    (hp : ∀ x, (h.obj x).isSome → x ≠ d → h'.xmlParent x = h.xmlParent x)
    (hd : ∀ e r, c e = some r → ¬ Up h e d) : CacheRight h' c := by
  intro e r he
  obtain ⟨h1, h2⟩ := hc e r he
  refine ⟨hsome e h1, top_congr h2 fun x hx => hp x (isSome_up h1 hx) ?_⟩
  rintro rfl
  exact hd e r he hx

theorem climb_top {h : Heap} {c : RootCache} (hc : CacheRight h c) :
    ∀ (n : Nat) (e p : Id) v, climb h c n e (some p) = some v → ∃ r, Top h p r := by
  intro n
  induction n with
  | zero => intro e p v h; cases h
  | succ n ih =>
    intro e p v hv
    rw [climb] at hv
    cases hp : h.xmlParent p with
    | none => exact ⟨p, .root hp⟩
    | some q =>
      rw [hp] at hv
      simp only at hv
      cases hcq : c q with
      | some r => exact ⟨r, .up hp (hc q r hcq).2⟩
      | none =>
        rw [hcq] at hv
        obtain ⟨r, hr⟩ := ih p q v hv
        exact ⟨r, .up hp hr⟩

theorem get_top {h : Heap} {c : RootCache} (hc : CacheRight h c) {n : Nat} {e : Id} {v}
    (hg : getRootNode h c n e = some v) : ∃ r, Top h e r := by
  unfold getRootNode at hg
  cases hce : c e with
  | some d => exact ⟨d, (hc e d hce).2⟩
  | none =>
    rw [hce] at hg
    simp only at hg
    cases hp : h.xmlParent e with
    | none => exact ⟨e, .root hp⟩
    | some p =>
      rw [hp] at hg
      cases hk : climb h c n e (some p) with
      | none => rw [hk] at hg; cases hg
      | some v =>
        obtain ⟨r, hr⟩ := climb_top hc n e p v hk
        exact ⟨r, .up hp hr⟩

/-- Making a new object. -/
theorem alloc_parents {h : Heap} (hb : Bounded h) (o : Obj) :
    (∀ x, (h.obj x).isSome → ((h.alloc o).obj x).isSome) ∧
    (∀ x, (h.obj x).isSome → (h.alloc o).xmlParent x = h.xmlParent x) := by
  constructor
  · intro x hx
    rw [Heap.alloc_obj']
    split
    · rfl
    · exact hx
  · intro x hx
    obtain ⟨ox, ho⟩ := Option.isSome_iff_exists.1 hx
    obtain ⟨h1, h2⟩ := hb x ox ho
    refine xmlParent_same ho ⟨ox, ?_, rfl⟩ ?_
    · rw [Heap.alloc_obj', if_neg (Nat.ne_of_lt h1), ho]
    · intro i hi
      rw [Heap.alloc_obj', if_neg (Nat.ne_of_lt (h2 i hi))]

/-- Replacing a child list. -/
theorem setChildren_parents (h : Heap) (e : Id) (cs : List Id) :
    (∀ x, (h.obj x).isSome → ((h.setChildren e cs).obj x).isSome) ∧
    (∀ x, (h.obj x).isSome → (h.setChildren e cs).xmlParent x = h.xmlParent x) := by
  unfold Heap.setChildren
  split
  · rename_i n as cs0 p he
    have hs : ∀ x, ((h.set e (.elem n as cs p)).obj x).isSome = (h.obj x).isSome := by
      intro x
      rw [Heap.set_obj']
      split
      · rename_i hx; rw [hx, he]; rfl
      · rfl
    refine ⟨fun x hx => by rw [hs]; exact hx, fun x hx => ?_⟩
    obtain ⟨ox, ho⟩ := Option.isSome_iff_exists.1 hx
    refine xmlParent_same ho ?_ fun i _ => hs i
    by_cases hxe : x = e
    · subst hxe
      rw [ho] at he; cases he
      exact ⟨.elem n as cs p, by rw [Heap.set_obj', if_pos rfl], rfl⟩
    · exact ⟨ox, by rw [Heap.set_obj', if_neg hxe, ho], rfl⟩
  · exact ⟨fun _ h => h, fun _ _ => rfl⟩

theorem insert_parents {h h' : Heap} {e : Id} {child : Child} {i : Int} (hb : Bounded h)
    (hok : h.xmlInsert e child i = .ok h') :
    (∀ x, (h.obj x).isSome → (h'.obj x).isSome) ∧
    (∀ x, (h.obj x).isSome → (∀ d, child = .node d → h.isElem d → x ≠ d) → h'.xmlParent x = h.xmlParent x) := by
  obtain ⟨n, as, cs, p, c, h1, he, ha, hh⟩ := insert_spec hok
  have txt : ∀ s, h1 = h.alloc (.text s (some e)) →
      (∀ x, (h.obj x).isSome → (h'.obj x).isSome) ∧
      (∀ x, (h.obj x).isSome → h'.xmlParent x = h.xmlParent x) := by
    intro s hs
    obtain ⟨a1, a2⟩ := alloc_parents hb (.text s (some e))
    obtain ⟨s1, s2⟩ := setChildren_parents h1 e
      ((h1.children e).take (insertPos (h1.children e).length i) ++ c :: (h1.children e).drop (insertPos (h1.children e).length i))
    rw [← hh, hs] at s1 s2
    exact ⟨fun x hx => s1 x (a1 x hx), fun x hx => by rw [s2 x (a1 x hx), a2 x hx]⟩
  cases child with
  | str s =>
    simp only [Heap.attach, Option.some.injEq, Prod.mk.injEq] at ha
    obtain ⟨t1, t2⟩ := txt s ha.2.symm
    exact ⟨t1, fun x hx _ => t2 x hx⟩
  | node d =>
    simp only [Heap.attach] at ha
    cases hd : h.obj d with
    | none => rw [hd] at ha; cases ha
    | some o =>
      rw [hd] at ha
      cases o with
      | text s q =>
        simp only [Option.some.injEq, Prod.mk.injEq] at ha
        obtain ⟨t1, t2⟩ := txt s ha.2.symm
        exact ⟨t1, fun x hx _ => t2 x hx⟩
      | elem n' as' cs' q =>
        simp only [Option.some.injEq, Prod.mk.injEq] at ha
        obtain ⟨rfl, hh1⟩ := ha
        have hs : ∀ x, (h1.obj x).isSome = (h.obj x).isSome := by
          intro x
          rw [← hh1, Heap.set_obj']
          split
          · rename_i hx; rw [hx, hd]; rfl
          · rfl
        obtain ⟨s1, s2⟩ := setChildren_parents h1 e
          ((h1.children e).take (insertPos (h1.children e).length i) ++ d :: (h1.children e).drop (insertPos (h1.children e).length i))
        rw [← hh] at s1 s2
        refine ⟨fun x hx => s1 x (by rw [hs]; exact hx), fun x hx hxd => ?_⟩
        rw [s2 x (by rw [hs]; exact hx)]
        obtain ⟨ox, ho⟩ := Option.isSome_iff_exists.1 hx
        have hne : x ≠ d := hxd d rfl ⟨_, _, _, _, hd⟩
        exact xmlParent_same ho ⟨ox, by rw [← hh1, Heap.set_obj', if_neg hne, ho], rfl⟩ fun i _ => hs i

theorem remove_parents {h h' : Heap} {e d : Id} (hd : h.isElem d) (hok : h.xmlRemove e d = .ok h') :
    (∀ x, (h.obj x).isSome → (h'.obj x).isSome) ∧
    (∀ x, (h.obj x).isSome → x ≠ d → h'.xmlParent x = h.xmlParent x) := by
  obtain ⟨n, as, cs, p, n', as', cs', p', he, hd', hmem, hn, hobj⟩ := remove_spec hd hok
  have hs : ∀ x, (h'.obj x).isSome = (h.obj x).isSome := by
    intro x
    rw [hobj]
    split
    · rename_i hx; rw [hx, he]; rfl
    · split
      · rename_i hx; rw [hx, hd']; rfl
      · rfl
  refine ⟨fun x hx => by rw [hs]; exact hx, fun x hx hxd => ?_⟩
  obtain ⟨ox, ho⟩ := Option.isSome_iff_exists.1 hx
  refine xmlParent_same ho ?_ fun i _ => hs i
  by_cases hxe : x = e
  · subst hxe
    rw [ho] at he; cases he
    exact ⟨_, by rw [hobj, if_pos rfl], by simp [Obj.link, Ne.symm hxd]⟩
  · exact ⟨ox, by rw [hobj, if_neg hxe, if_neg hxd, ho], rfl⟩

theorem release_keeps {h h' : Heap} (hi : Inv h) (hr : Released h h') {e r : Id} (ht : Top h e r)
    (he : (h.obj e).isSome) (hroot : (h'.obj r).isSome) : ∀ x, Up h e x → (h'.obj x).isSome := by
  induction ht with
  | @root e hp =>
    intro x hx
    cases hx with
    | refl _ => exact hroot
    | step hp' _ => rw [hp] at hp'; cases hp'
  | @up e p r hp ht ih =>
    have hps : (h.obj p).isSome := isSome_up he (.step hp (.refl p))
    have ih := ih hps hroot
    intro x hx
    cases hx with
    | step hp' hx' => rw [hp] at hp'; cases hp'; exact ih x hx'
    | refl _ =>
      have hp' := ih p (.refl p)
      have hch : e ∈ h.children p := ((hi.consistent p hps).2 e).2 ⟨he, hp⟩
      refine hr.2.2 p e ?_
      rcases hr.2.1 p with h1 | h1
      · simpa [Heap.children, h1] using hch
      · rw [h1] at hp'; cases hp'

theorem release_right {h h' : Heap} (hi : Inv h) (hr : Released h h') {c : RootCache} (hc : CacheRight h c)
    (hk : ∀ x r, c x = some r → (h'.obj r).isSome) : CacheRight h' c := by
  intro e r he
  obtain ⟨h1, h2⟩ := hc e r he
  have hall := release_keeps hi hr h2 h1 (hk e r he)
  have hsame : ∀ x, (h'.obj x).isSome → h'.obj x = h.obj x := by
    intro x hx
    rcases hr.2.1 x with h3 | h3
    · exact h3
    · rw [h3] at hx; cases hx
  refine ⟨hall e (.refl e), top_congr h2 fun x hx => ?_⟩
  have hx' := hall x hx
  obtain ⟨ox, ho⟩ := Option.isSome_iff_exists.1 hx'
  have ho2 : h.obj x = some ox := by rw [← hsame x hx']; exact ho
  refine xmlParent_same ho2 ⟨ox, ho, rfl⟩ fun i hi' => ?_
  cases hp : h.xmlParent x with
  | some p =>
    obtain ⟨o', ho', hl', hps⟩ := xmlParent_eq_some.1 hp
    rw [ho2] at ho'; cases ho'
    rw [hi'] at hl'; cases hl'
    have up : ∀ {a b c}, Up h a b → h.xmlParent b = some c → Up h a c := by
      intro a b c hab hbc
      induction hab with
      | refl _ => exact .step hbc (.refl _)
      | step h4 _ ih => exact .step h4 (ih hbc)
    rw [hall i (up hx hp), hps]
  | none =>
    have : (h.obj i).isSome = false := by
      simp only [Heap.xmlParent, ho2, Option.bind_some, hi', Heap.deref] at hp
      cases h5 : (h.obj i).isSome with
      | false => rfl
      | true => rw [h5] at hp; cases hp
    rw [this]
    cases h6 : h'.obj i with
    | none => rfl
    | some o => rw [← hsame i (by rw [h6]; rfl), h6] at this; cases this

theorem qstep_right {s s' : Heap × RootCache} (hs : QStep s s') (hi : Inv s.1) (hc : CacheRight s.1 s.2) :
    Inv s'.1 ∧ CacheRight s'.1 s'.2 := by
  cases hs with
  | query he hg =>
    obtain ⟨r, hr⟩ := get_top hc hg
    exact ⟨hi, (get_right hc he hr hg).2⟩
  | newElement n as =>
    obtain ⟨a1, a2⟩ := alloc_parents hi.bounded (.elem n as [] none)
    refine ⟨inv_step hi (.newElement _ n as), ?_⟩
    intro e r he
    obtain ⟨h1, h2⟩ := hc e r he
    exact ⟨a1 e h1, top_congr h2 fun x hx => a2 x (isSome_up h1 hx)⟩
  | newText t =>
    obtain ⟨a1, a2⟩ := alloc_parents hi.bounded (.text t none)
    refine ⟨inv_step hi (.newText _ t), ?_⟩
    intro e r he
    obtain ⟨h1, h2⟩ := hc e r he
    exact ⟨a1 e h1, top_congr h2 fun x hx => a2 x (isSome_up h1 hx)⟩
  | insertStr hok =>
    obtain ⟨a1, a2⟩ := insert_parents hi.bounded hok
    refine ⟨inv_step hi (.insertStr hok), ?_⟩
    intro e r he
    obtain ⟨h1, h2⟩ := hc e r he
    exact ⟨a1 e h1, top_congr h2 fun x hx => a2 x (isSome_up h1 hx) (by intro d hd; cases hd)⟩
  | insertText hd hok =>
    obtain ⟨a1, a2⟩ := insert_parents hi.bounded hok
    refine ⟨inv_step hi (.insertText hd hok), ?_⟩
    intro e r he
    obtain ⟨h1, h2⟩ := hc e r he
    refine ⟨a1 e h1, top_congr h2 fun x hx => a2 x (isSome_up h1 hx) ?_⟩
    rintro d' hd' ⟨_, _, _, _, h4⟩
    cases hd'
    rw [hd] at h4; cases h4
  | @insertElement h c e d i h' hel hdet hok hnc =>
    obtain ⟨a1, a2⟩ := insert_parents hi.bounded hok
    refine ⟨inv_step hi (.insertElement hel hdet hok), ?_⟩
    refine cacheRight_change (d := d) hc a1 (fun x hx hxd => a2 x hx ?_) ?_
    · intro d' hd' _; cases hd'; exact hxd
    · intro e' r he' hu
      have := top_of_up (hc e' r he').2 hu
      rw [top_unique this (.root hdet)] at he'
      exact hnc e' he'
  | remove hel hok hnc =>
    obtain ⟨a1, a2⟩ := remove_parents hel hok
    exact ⟨inv_step hi (.remove hel hok), cacheRight_change hc a1 a2 hnc⟩
  | release hr hk => exact ⟨inv_step hi (.release hr), release_right hi hr hc hk⟩

/-- The empty cache. -/
def RootCache.empty : RootCache := fun _ => none

theorem qsteps_right {s : Heap × RootCache} (hs : QSteps (Heap.empty, RootCache.empty) s) :
    Inv s.1 ∧ CacheRight s.1 s.2 := by
  have key : ∀ {a b}, QSteps a b → Inv a.1 ∧ CacheRight a.1 a.2 → Inv b.1 ∧ CacheRight b.1 b.2 := by
    intro a b hab
    induction hab with
    | refl => exact id
    | tail _ h2 ih => exact fun h => qstep_right h2 (ih h).1 (ih h).2
  exact key hs ⟨inv_empty, fun e r h => by cases h⟩

/-- C59: after any history of queries and tree changes in which no element is inserted whose tree was queried before
and none removed that has a queried element below it, the root used for an absolute path at an element is the top
of the tree it is in, and it is found in finitely many steps. -/
theorem C59_right_root_partial {h : Heap} {c : RootCache} (hs : QSteps (Heap.empty, RootCache.empty) (h, c))
    {e r : Id} (he : (h.obj e).isSome) (ht : Top h e r) :
    (∀ n r' c', getRootNode h c n e = some (r', c') → r' = r) ∧
    ∃ n, ∀ m, n ≤ m → getRootNode h c m e ≠ none :=
  ⟨fun _ _ _ hg => (get_right (qsteps_right hs).2 he ht hg).1, get_ends c ht⟩

/-- An element `b` in an element `a`, queried: the root is `a`. -/
example : ∃ h, QSteps (Heap.empty, RootCache.empty) (h, RootCache.empty) ∧ (h.obj 1).isSome ∧ Top h 1 0 ∧
    ∃ c, getRootNode h RootCache.empty 5 1 = some (0, c) := by
  let h0 := (Heap.empty.newElement ['a'] []).2
  let h1 := (h0.newElement ['b'] []).2
  have s2 : QSteps (Heap.empty, RootCache.empty) (h1, RootCache.empty) :=
    .tail (.tail .refl (.newElement ['a'] [])) (.newElement ['b'] [])
  have hi : h1.isElem 1 := ⟨_, _, _, _, rfl⟩
  refine ⟨_, .tail s2 (.insertElement (e := 0) (d := 1) (i := -1) (h' := _) hi (by decide) rfl (by intro x h; cases h)),
    by decide, .up (p := 0) (by decide) (.root (by decide)), _, rfl⟩

/-- C59 as stated is false: query a detached element, insert it, query it again; the second query still uses the old
root.  And after removing a queried element, its old tree is still used. -/
theorem C59_full_statement_is_false :
    (∃ h h' c r', MSteps Heap.empty h ∧ getRootNode h RootCache.empty 5 1 = some (1, c) ∧
      h.xmlAppend 0 (.node 1) = .ok h' ∧ Top h' 1 0 ∧ getRootNode h' c 5 1 = some (r', c) ∧ r' = 1) ∧
    (∃ h h' c r', MSteps Heap.empty h ∧ getRootNode h RootCache.empty 5 1 = some (0, c) ∧
      h.xmlRemove 0 1 = .ok h' ∧ Top h' 1 1 ∧ getRootNode h' c 5 1 = some (r', c) ∧ r' = 0) := by
  let h0 := (Heap.empty.newElement ['a'] []).2
  let h1 := (h0.newElement ['b'] []).2
  have s2 : MSteps Heap.empty h1 := .tail (.tail .refl (.newElement _ ['a'] [])) (.newElement _ ['b'] [])
  have hi : h1.isElem 1 := ⟨_, _, _, _, rfl⟩
  constructor
  · exact ⟨h1, _, _, _, s2, rfl, rfl, .up (p := 0) (by decide) (.root (by decide)), rfl, rfl⟩
  · refine ⟨_, _, _, _, .tail s2 (.insertElement (e := 0) (c := 1) (i := -1) (h' := _) hi (by decide) rfl),
      rfl, rfl, .root (by decide), rfl, rfl⟩

end Amara
