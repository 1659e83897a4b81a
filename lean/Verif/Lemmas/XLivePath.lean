import Verif.Spec.XLivePath
import Verif.Lemmas.XLive
import Verif.Lemmas.Edit
/-
Lemmas for Props/XLivePath.
-/
namespace Amara

/-! ### `next` of a path from `next` of its parts -/

theorem pathNext_fun {h : Heap} {g : PathGen} {r : PathOut} (h1 : PathNext h g r) : ∀ {r'}, PathNext h g r' → r = r' := by
  induction h1 with
  | give hr =>
    intro r' h2
    cases h2 with
    | give hr' => rw [hr] at hr'; cases hr'; rfl
    | finished hr' => rw [hr] at hr'; cases hr'
    | raised hr' => rw [hr] at hr'; cases hr'
    | pass hr' => rw [hr] at hr'; cases hr'
  | finished hr =>
    intro r' h2
    cases h2 with
    | give hr' => rw [hr] at hr'; cases hr'
    | finished hr' => rfl
    | raised hr' => rw [hr] at hr'; cases hr'
    | pass hr' => rw [hr] at hr'; cases hr'
  | raised hr =>
    intro r' h2
    cases h2 with
    | give hr' => rw [hr] at hr'; cases hr'
    | finished hr' => rw [hr] at hr'; cases hr'
    | raised hr' => rfl
    | pass hr' => rw [hr] at hr'; cases hr'
  | pass hr _ ih =>
    intro r' h2
    cases h2 with
    | give hr' => rw [hr] at hr'; cases hr'
    | finished hr' => rw [hr] at hr'; cases hr'
    | raised hr' => rw [hr] at hr'; cases hr'
    | pass hr' h3 => rw [hr] at hr'; cases hr'; exact ih h3

/-- What `next` of a step gives. -/
def AxisOut.toPath (t : Test) : AxisOut → PathOut
  | .finished => .finished
  | .raised => .raised
  | .pass g => .pass (.step t g)
  | .give y g => .give y (.step t g)

theorem next_step {t : Test} {h : Heap} {g : AxisGen} {r : AxisOut} (hn : AxisNext t h g r) :
    PathNext h (.step t g) (r.toPath t) := by
  induction hn with
  | give hr => exact .give (by simp [pathRound, hr])
  | finished hr => exact .finished (by simp [pathRound, hr])
  | raised hr => exact .raised (by simp [pathRound, hr])
  | pass hr _ ih => exact .pass (by simp [pathRound, hr]) ih

theorem next_left_end {h : Heap} {l : PathGen} {r : LivePath} {o : PathOut} (hn : PathNext h l o) (ho : o = .finished) :
    PathNext h (.left l r) .finished := by
  induction hn with
  | give => cases ho
  | finished hr => exact .finished (by simp [pathRound, hr])
  | raised => cases ho
  | pass hr _ ih => exact .pass (by simp [pathRound, hr]) (ih ho)

theorem next_left {h : Heap} {l l' : PathGen} {r : LivePath} {y : Id} {o o' : PathOut} (hn : PathNext h l o)
    (ho : o = .give y l') (h2 : PathNext h (.right l' r (r.start y)) o') : PathNext h (.left l r) o' := by
  induction hn with
  | give hr => cases ho; exact .pass (by simp [pathRound, hr]) h2
  | finished => cases ho
  | raised => cases ho
  | pass hr _ ih => exact .pass (by simp [pathRound, hr]) (ih ho)

theorem next_right_end {h : Heap} {l g : PathGen} {r : LivePath} {o o' : PathOut} (hn : PathNext h g o)
    (ho : o = .finished) (h2 : PathNext h (.left l r) o') : PathNext h (.right l r g) o' := by
  induction hn with
  | give => cases ho
  | finished hr => exact .pass (by simp [pathRound, hr]) h2
  | raised => cases ho
  | pass hr _ ih => exact .pass (by simp [pathRound, hr]) (ih ho)

theorem next_right {h : Heap} {l g g' : PathGen} {r : LivePath} {y : Id} {o : PathOut} (hn : PathNext h g o)
    (ho : o = .give y g') : PathNext h (.right l r g) (.give y (.right l r g')) := by
  induction hn with
  | give hr => cases ho; exact .give (by simp [pathRound, hr])
  | finished => cases ho
  | raised => cases ho
  | pass hr _ ih => exact .pass (by simp [pathRound, hr]) (ih ho)

theorem next_filter_end {h : Heap} {g : PathGen} {p : Nat → Heap → Id → Bool} {k : Nat} {o : PathOut}
    (hn : PathNext h g o) (ho : o = .finished) : PathNext h (.filter g p k) .finished := by
  induction hn with
  | give => cases ho
  | finished hr => exact .finished (by simp [pathRound, hr])
  | raised => cases ho
  | pass hr _ ih => exact .pass (by simp [pathRound, hr]) (ih ho)

theorem next_filter_yes {h : Heap} {g g' : PathGen} {p : Nat → Heap → Id → Bool} {k : Nat} {y : Id} {o : PathOut}
    (hn : PathNext h g o) (ho : o = .give y g') (hp : p (k + 1) h y = true) :
    PathNext h (.filter g p k) (.give y (.filter g' p (k + 1))) := by
  induction hn with
  | give hr => cases ho; exact .give (by simp [pathRound, hr, hp])
  | finished => cases ho
  | raised => cases ho
  | pass hr _ ih => exact .pass (by simp [pathRound, hr]) (ih ho)

theorem next_filter_no {h : Heap} {g g' : PathGen} {p : Nat → Heap → Id → Bool} {k : Nat} {y : Id} {o o' : PathOut}
    (hn : PathNext h g o) (ho : o = .give y g') (hp : p (k + 1) h y = false)
    (h2 : PathNext h (.filter g' p (k + 1)) o') : PathNext h (.filter g p k) o' := by
  induction hn with
  | give hr => cases ho; exact .pass (by simp [pathRound, hr, hp]) h2
  | finished => cases ho
  | raised => cases ho
  | pass hr _ ih => exact .pass (by simp [pathRound, hr]) (ih ho)

/-! ### what a suspended path by the `child` axis has still to give, and the nodes it has still to look at last -/

/-- The number of levels a path goes down. -/
def LivePath.levels : LivePath → Nat
  | .step _ _ => 1
  | .slash l r => l.levels + r.levels
  | .filter l _ => l.levels

theorem levels_pos : ∀ P : LivePath, 0 < P.levels
  | .step _ _ => Nat.one_pos
  | .slash l r => by have := levels_pos l; simp only [LivePath.levels]; omega
  | .filter l _ => levels_pos l

/-- The nodes at the end of the path, before the last test. -/
def LivePath.tried (h : Heap) : LivePath → Id → List Id
  | .step _ _, e => h.children e
  | .slash l r, e => (l.found h e).flatMap (r.tried h)
  | .filter l _, e => l.tried h e

/-- What a suspended path has still to give. -/
def PathGen.rem (h : Heap) : PathGen → List Id
  | .step t (.child x k) => ((h.children x).drop k).filter (t.takes h)
  | .step _ _ => []
  | .left l r => (l.rem h).flatMap (r.found h)
  | .right l r g => g.rem h ++ (l.rem h).flatMap (r.found h)
  | .filter g p k => holding h p k (g.rem h)

/-- The nodes it has still to look at, at the end of the path. -/
def PathGen.toTry (h : Heap) : PathGen → List Id
  | .step _ (.child x k) => (h.children x).drop k
  | .step _ _ => []
  | .left l r => (l.rem h).flatMap (r.tried h)
  | .right l r g => g.toTry h ++ (l.rem h).flatMap (r.tried h)
  | .filter g _ _ => g.toTry h

/-- A generator of this path, somewhere below `e0`, giving nodes `d` levels below. -/
inductive GenOf (h0 : Heap) (e0 : Id) : LivePath → PathGen → Nat → Prop
  | step {t x k n} : Reachable h0 [e0] x → upTimes h0 n x = some e0 →
      GenOf h0 e0 (.step .child t) (.step t (.child x k)) (n + 1)
  | left {l r g n} : GenOf h0 e0 l g n → GenOf h0 e0 (.slash l r) (.left g r) (n + r.levels)
  | right {l r g g' n} : GenOf h0 e0 l g n → GenOf h0 e0 r g' (n + r.levels) →
      GenOf h0 e0 (.slash l r) (.right g r g') (n + r.levels)
  | filter {l p g k n} : GenOf h0 e0 l g n → GenOf h0 e0 (.filter l p) (.filter g p k) n

theorem start_rem {h : Heap} : ∀ (P : LivePath), P.byChildren = true → ∀ e, (P.start e).rem h = P.found h e := by
  intro P
  induction P with
  | step a t =>
    intro hb e
    have ha : a = .child := by simpa [LivePath.byChildren] using hb
    subst ha
    simp [LivePath.start, LiveAxis.start, PathGen.rem, LivePath.found]
  | slash l r ihl _ =>
    intro hb e
    simp only [LivePath.byChildren, Bool.and_eq_true] at hb
    simp only [LivePath.start, PathGen.rem, LivePath.found, ihl hb.1]
  | filter l p ih => intro hb e; simp only [LivePath.start, PathGen.rem, LivePath.found, ih hb]

theorem start_toTry {h : Heap} : ∀ (P : LivePath), P.byChildren = true → ∀ e, (P.start e).toTry h = P.tried h e := by
  intro P
  induction P with
  | step a t =>
    intro hb e
    have ha : a = .child := by simpa [LivePath.byChildren] using hb
    subst ha
    simp [LivePath.start, LiveAxis.start, PathGen.toTry, LivePath.tried]
  | slash l r ihl _ =>
    intro hb e
    simp only [LivePath.byChildren, Bool.and_eq_true] at hb
    simp only [LivePath.start, PathGen.toTry, LivePath.tried, start_rem l hb.1]
  | filter l p ih => intro hb e; simp only [LivePath.start, PathGen.toTry, LivePath.tried, ih hb]

theorem start_gen {h0 : Heap} {e0 : Id} : ∀ (P : LivePath), P.byChildren = true → ∀ (x : Id) (n : Nat),
    Reachable h0 [e0] x → upTimes h0 n x = some e0 → GenOf h0 e0 P (P.start x) (n + P.levels) := by
  intro P
  induction P with
  | step a t =>
    intro hb x n hx hn
    have ha : a = .child := by simpa [LivePath.byChildren] using hb
    subst ha
    exact .step hx hn
  | slash l r ihl _ =>
    intro hb x n hx hn
    simp only [LivePath.byChildren, Bool.and_eq_true] at hb
    have := GenOf.left (r := r) (ihl hb.1 x n hx hn)
    rw [Nat.add_assoc] at this
    exact this
  | filter l p ih => intro hb x n hx hn; exact .filter (ih hb x n hx hn)

theorem holding_sublist (h : Heap) (p : Nat → Heap → Id → Bool) : ∀ (l : List Id) (k : Nat),
    (holding h p k l).Sublist l
  | [], _ => .slnil
  | y :: ys, k => by
    simp only [holding]
    split
    · exact (holding_sublist h p ys (k + 1)).cons_cons y
    · exact (holding_sublist h p ys (k + 1)).cons y

/-- Where the nodes at the end of a path are. -/
theorem tried_place {h0 : Heap} {q : Option Id} {e0 : Id} {tree : Node} (hr : Rep h0 q e0 tree) : ∀ (P : LivePath) (x : Id),
    Reachable h0 [e0] x → (∀ c ∈ P.tried h0 x, Reachable h0 [e0] c ∧ upTimes h0 P.levels c = some x) ∧
      (P.found h0 x).Sublist (P.tried h0 x) := by
  intro P
  induction P with
  | step a t =>
    intro x hx
    refine ⟨fun c hc => ⟨.child hx hc, ?_⟩, List.filter_sublist⟩
    simp only [LivePath.levels, upTimes, (rep_kids hr hx).2 c hc]
    rfl
  | slash l r ihl ihr =>
    intro x hx
    refine ⟨?_, ?_⟩
    · intro c hc
      simp only [LivePath.tried, List.mem_flatMap] at hc
      obtain ⟨m, hm, hc⟩ := hc
      obtain ⟨h1, h2⟩ := (ihl x hx).1 m ((ihl x hx).2.subset hm)
      obtain ⟨h3, h4⟩ := (ihr m h1).1 c hc
      refine ⟨h3, ?_⟩
      simp only [LivePath.levels]
      rw [Nat.add_comm, upTimes_add h0 _ _ c m h4, h2]
    · have : ∀ (L : List Id), (∀ m ∈ L, Reachable h0 [e0] m) → (L.flatMap (r.found h0)).Sublist (L.flatMap (r.tried h0)) := by
        intro L
        induction L with
        | nil => intro _; exact .slnil
        | cons m L ih =>
          intro hL
          simp only [List.flatMap_cons]
          exact (ihr m (hL m (by simp))).2.append (ih fun m' hm' => hL m' (by simp [hm']))
      exact this _ fun m hm => ((ihl x hx).1 m ((ihl x hx).2.subset hm)).1
  | filter l p ih =>
    intro x hx
    exact ⟨(ih x hx).1, (holding_sublist h0 p _ 0).trans (ih x hx).2⟩

theorem toTry_place {h0 : Heap} {q : Option Id} {e0 : Id} {tree : Node} (hr : Rep h0 q e0 tree) {P : LivePath} {g : PathGen}
    {d : Nat} (hg : GenOf h0 e0 P g d) : (∀ c ∈ g.toTry h0, Reachable h0 [e0] c ∧ upTimes h0 d c = some e0) ∧
      (g.rem h0).Sublist (g.toTry h0) := by
  have key : ∀ {r : LivePath} {g : PathGen} {n : Nat},
      ((∀ c ∈ g.toTry h0, Reachable h0 [e0] c ∧ upTimes h0 n c = some e0) ∧ (g.rem h0).Sublist (g.toTry h0)) →
      (∀ c ∈ (g.rem h0).flatMap (r.tried h0), Reachable h0 [e0] c ∧ upTimes h0 (n + r.levels) c = some e0) ∧
      ((g.rem h0).flatMap (r.found h0)).Sublist ((g.rem h0).flatMap (r.tried h0)) := by
    intro r g n ih
    have hL : ∀ m ∈ g.rem h0, Reachable h0 [e0] m ∧ upTimes h0 n m = some e0 := fun m hm => ih.1 m (ih.2.subset hm)
    generalize g.rem h0 = L at hL
    refine ⟨?_, ?_⟩
    · intro c hc
      obtain ⟨m, hm, hc⟩ := List.mem_flatMap.1 hc
      obtain ⟨h1, h2⟩ := hL m hm
      obtain ⟨h3, h4⟩ := (tried_place hr r m h1).1 c hc
      exact ⟨h3, by rw [Nat.add_comm, upTimes_add h0 _ _ c m h4, h2]⟩
    · induction L with
      | nil => exact .slnil
      | cons m L ihL =>
        simp only [List.flatMap_cons]
        exact (tried_place hr r m (hL m (by simp)).1).2.append (ihL fun m' hm' => hL m' (by simp [hm']))
  induction hg with
  | @step t x k n hx hn =>
    refine ⟨?_, List.filter_sublist⟩
    intro c hc
    have hc' : c ∈ h0.children x := List.mem_of_mem_drop hc
    refine ⟨.child hx hc', ?_⟩
    rw [upTimes, (rep_kids hr hx).2 c hc']
    exact hn
  | left _ ih => exact key ih
  | right _ _ ih1 ih2 =>
    obtain ⟨k1, k2⟩ := key ih1
    refine ⟨?_, ih2.2.append k2⟩
    intro c hc
    rcases List.mem_append.1 hc with hc | hc
    · exact ih2.1 c hc
    · exact k1 c hc
  | filter _ ih => exact ⟨ih.1, (holding_sublist h0 _ _ _).trans ih.2⟩

/-- A node looks as it did, also to the predicates. -/
def LooksSame (PS : List (Nat → Heap → Id → Bool)) (h0 h : Heap) (i : Id) : Prop :=
  SameNode h0 h i ∧ ∀ p ∈ PS, ∀ k, p k h i = p k h0 i

theorem same_takes {h0 h : Heap} {i : Id} (hs : SameNode h0 h i) (t : Test) : t.takes h i = t.takes h0 i ∧
    t.live h i = t.live h0 i ∧ h.isElemB i = h0.isElemB i := by
  obtain ⟨_, hl⟩ := hs
  have h1 : h.isElemB i = h0.isElemB i := by
    simp only [Heap.isElemB]
    cases ho : h.obj i with
    | none => cases ho' : h0.obj i with
      | none => rfl
      | some o' => rw [ho, ho'] at hl; cases hl
    | some o => cases ho' : h0.obj i with
      | none => rw [ho, ho'] at hl; cases hl
      | some o' =>
        rw [ho, ho'] at hl
        cases o <;> cases o' <;> simp_all [Obj.label]
  have h2 : t.live h i = t.live h0 i := by
    simp only [Test.live]
    cases ho : h.obj i with
    | none => cases ho' : h0.obj i with
      | none => rfl
      | some o' => rw [ho, ho'] at hl; cases hl
    | some o => cases ho' : h0.obj i with
      | none => rw [ho, ho'] at hl; cases hl
      | some o' =>
        rw [ho, ho'] at hl
        cases t <;> cases o <;> cases o' <;> simp_all [Obj.label]
  exact ⟨by simp only [Test.takes, h1, h2], h2, h1⟩

/-- `next` of a path, in memory that differs only at places it will not look at. -/
theorem next_of {h0 h : Heap} {q : Option Id} {e0 : Id} {tree : Node} (hr : Rep h0 q e0 tree)
    {PS : List (Nat → Heap → Id → Bool)} : ∀ (P : LivePath), P.byChildren = true → (∀ p ∈ P.preds, p ∈ PS) →
    ∀ (g : PathGen) (d : Nat), GenOf h0 e0 P g d →
    (∀ i n, Reachable h0 [e0] i → upTimes h0 n i = some e0 → n < d → LooksSame PS h0 h i) →
    (∀ i ∈ g.toTry h0, LooksSame PS h0 h i) →
    (g.rem h0 = [] ∧ PathNext h g .finished) ∨ ∃ y g' pre, g.rem h0 = y :: g'.rem h0 ∧ PathNext h g (.give y g') ∧
      GenOf h0 e0 P g' d ∧ g.toTry h0 = pre ++ y :: g'.toTry h0 := by
  intro P
  induction P with
  | step a t =>
    intro _ _ g d hg hd ht
    cases hg with
    | @step _ x k n hx hn =>
      obtain ⟨hch, _⟩ := (hd x n hx hn (Nat.lt_succ_self n)).1
      have main : ∀ (l : List Id) (k : Nat), (h0.children x).drop k = l → (∀ i ∈ l, LooksSame PS h0 h i) →
          (l.filter (t.takes h0) = [] ∧ PathNext h (.step t (.child x k)) .finished) ∨ ∃ y k' pre,
            l.filter (t.takes h0) = y :: ((h0.children x).drop k').filter (t.takes h0) ∧
            PathNext h (.step t (.child x k)) (.give y (.step t (.child x k'))) ∧ l = pre ++ y :: (h0.children x).drop k' := by
        intro l
        induction l with
        | nil =>
          intro k hk _
          left
          refine ⟨rfl, .finished ?_⟩
          have : (h0.children x)[k]? = none := by
            rw [List.getElem?_eq_none_iff]
            have := congrArg List.length hk
            simp only [List.length_drop, List.length_nil] at this
            omega
          simp [pathRound, axisRound, hch, this]
        | cons c l ih =>
          intro k hk hl
          have hc : (h0.children x)[k]? = some c := by
            have := congrArg List.head? hk
            simpa [List.head?_drop] using this
          have hk1 : (h0.children x).drop (k + 1) = l := by
            have := congrArg List.tail hk
            simpa [List.tail_drop] using this
          obtain ⟨s1, s2, s3⟩ := same_takes (hl c (by simp)).1 t
          have hround : pathRound h (.step t (.child x k)) =
              if t.takes h0 c then .give c (.step t (.child x (k + 1))) else .pass (.step t (.child x (k + 1))) := by
            rw [← s1]
            simp only [pathRound, axisRound, hch, hc, Test.takes, Test.out]
            rcases Bool.eq_false_or_eq_true t.isName with e1 | e1 <;>
              rcases Bool.eq_false_or_eq_true (h.isElemB c) with e2 | e2 <;>
              rcases Bool.eq_false_or_eq_true (t.live h c) with e3 | e3 <;> simp [e1, e2, e3]
          by_cases htk : t.takes h0 c = true
          · right
            refine ⟨c, k + 1, [], ?_, .give ?_, ?_⟩
            · simp [htk, hk1]
            · rw [hround, if_pos htk]
            · simp [hk1]
          · rcases ih (k + 1) hk1 (fun i hi => hl i (by simp [hi])) with ⟨h1, h2⟩ | ⟨y, k', pre, h1, h2, h3⟩
            · left
              exact ⟨by simp [htk, h1], .pass (by rw [hround, if_neg htk]) h2⟩
            · right
              refine ⟨y, k', c :: pre, ?_, .pass (by rw [hround, if_neg htk]) h2, ?_⟩
              · simp only [List.filter_cons, htk]
                exact h1
              · rw [h3]; rfl
      rcases main _ k rfl ht with ⟨h1, h2⟩ | ⟨y, k', pre, h1, h2, h3⟩
      · exact .inl ⟨h1, h2⟩
      · exact .inr ⟨y, .step t (.child x k'), pre, h1, h2, .step hx hn, h3⟩
  | slash l r ihl ihr =>
    intro hb hp g d hg hd ht
    simp only [LivePath.byChildren, Bool.and_eq_true] at hb
    simp only [LivePath.preds, List.mem_append] at hp
    have hpos := levels_pos r
    -- the left operand is asked
    have atLeft : ∀ (m : Nat) (gl : PathGen) (n : Nat), d = n + r.levels → GenOf h0 e0 l gl n → (gl.rem h0).length ≤ m →
        (∀ i ∈ (gl.rem h0).flatMap (r.tried h0), LooksSame PS h0 h i) →
        ((gl.rem h0).flatMap (r.found h0) = [] ∧ PathNext h (.left gl r) .finished) ∨ ∃ y g' pre,
          (gl.rem h0).flatMap (r.found h0) = y :: g'.rem h0 ∧ PathNext h (.left gl r) (.give y g') ∧
          GenOf h0 e0 (.slash l r) g' d ∧ (gl.rem h0).flatMap (r.tried h0) = pre ++ y :: g'.toTry h0 := by
      intro m
      induction m with
      | zero =>
        intro gl n hdn hgl hm hts
        have hnil : gl.rem h0 = [] := List.eq_nil_of_length_eq_zero (Nat.le_zero.1 hm)
        rcases ihl hb.1 (fun p hp' => hp p (.inl hp')) gl n hgl (fun i k hi hk hlt => hd i k hi hk (by omega))
          (fun i hi => hd i n ((toTry_place hr hgl).1 i hi).1 ((toTry_place hr hgl).1 i hi).2 (by omega)) with
          ⟨_, h2⟩ | ⟨y, g', pre, h1, _⟩
        · left
          exact ⟨by rw [hnil]; rfl, next_left_end h2 rfl⟩
        · rw [hnil] at h1; cases h1
      | succ m ih =>
        intro gl n hdn hgl hm hts
        rcases ihl hb.1 (fun p hp' => hp p (.inl hp')) gl n hgl (fun i k hi hk hlt => hd i k hi hk (by omega))
          (fun i hi => hd i n ((toTry_place hr hgl).1 i hi).1 ((toTry_place hr hgl).1 i hi).2 (by omega)) with
          ⟨h1, h2⟩ | ⟨y, gl', pre, h1, h2, h3, h4⟩
        · left
          exact ⟨by rw [h1]; rfl, next_left_end h2 rfl⟩
        · have hy := (toTry_place hr hgl).1 y (by rw [h4]; simp)
          have hgr := start_gen (h0 := h0) (e0 := e0) r hb.2 y n hy.1 hy.2
          rw [h1] at hts hm
          simp only [List.flatMap_cons, List.mem_append] at hts
          rcases ihr hb.2 (fun p hp' => hp p (.inr hp')) (r.start y) d (hdn ▸ hgr) hd
            (fun i hi => hts i (.inl (by rwa [start_toTry r hb.2] at hi))) with ⟨k1, k2⟩ | ⟨z, g', pre', k1, k2, k3, k4⟩
          · have hm' : (gl'.rem h0).length ≤ m := by simp only [List.length_cons] at hm; omega
            rw [start_rem r hb.2] at k1
            rcases ih gl' n hdn h3 hm' (fun i hi => hts i (.inr hi)) with ⟨j1, j2⟩ | ⟨z, g', pre', j1, j2, j3, j4⟩
            · left
              rw [h1, List.flatMap_cons, k1, j1]
              exact ⟨rfl, next_left h2 rfl (next_right_end k2 rfl j2)⟩
            · right
              refine ⟨z, g', r.tried h0 y ++ pre', ?_, next_left h2 rfl (next_right_end k2 rfl j2), j3, ?_⟩
              · rw [h1, List.flatMap_cons, k1, j1]; rfl
              · rw [h1, List.flatMap_cons, j4, List.append_assoc]
          · right
            rw [start_rem r hb.2] at k1
            rw [start_toTry r hb.2] at k4
            refine ⟨z, .right gl' r g', pre', ?_, next_left h2 rfl (next_right k2 rfl), ?_, ?_⟩
            · rw [h1, List.flatMap_cons, k1]; rfl
            · rw [hdn] at k3 ⊢; exact .right h3 k3
            · rw [h1, List.flatMap_cons, k4, List.append_assoc]; rfl
    cases hg with
    | left hgl => exact atLeft _ _ _ rfl hgl (Nat.le_refl _) ht
    | @right _ _ gl gr n hgl hgr =>
      have ht' : ∀ i, i ∈ gr.toTry h0 ∨ i ∈ (gl.rem h0).flatMap (r.tried h0) → LooksSame PS h0 h i :=
        fun i hi => ht i (List.mem_append.2 hi)
      rcases ihr hb.2 (fun p hp' => hp p (.inr hp')) gr _ hgr hd (fun i hi => ht' i (.inl hi)) with
        ⟨k1, k2⟩ | ⟨z, g', pre', k1, k2, k3, k4⟩
      · rcases atLeft _ gl n rfl hgl (Nat.le_refl _) (fun i hi => ht' i (.inr hi)) with ⟨j1, j2⟩ | ⟨z, g', pre', j1, j2, j3, j4⟩
        · left
          exact ⟨by simp only [PathGen.rem, k1, j1]; rfl, next_right_end k2 rfl j2⟩
        · right
          refine ⟨z, g', gr.toTry h0 ++ pre', ?_, next_right_end k2 rfl j2, j3, ?_⟩
          · simp only [PathGen.rem, k1, j1]; rfl
          · simp only [PathGen.toTry, j4, List.append_assoc]
      · right
        refine ⟨z, .right gl r g', pre', ?_, next_right k2 rfl, .right hgl k3, ?_⟩
        · simp only [PathGen.rem, k1]; rfl
        · simp only [PathGen.toTry, k4, List.append_assoc]; rfl
  | filter l p ih =>
    intro hb hp g d hg hd ht
    simp only [LivePath.preds, List.mem_cons] at hp
    cases hg with
    | @filter _ _ g k _ hg =>
      have main : ∀ (m : Nat) (g : PathGen) (k : Nat), (g.rem h0).length ≤ m → GenOf h0 e0 l g d →
          (∀ i ∈ g.toTry h0, LooksSame PS h0 h i) →
          (holding h0 p k (g.rem h0) = [] ∧ PathNext h (.filter g p k) .finished) ∨ ∃ y g' pre,
            holding h0 p k (g.rem h0) = y :: g'.rem h0 ∧ PathNext h (.filter g p k) (.give y g') ∧
            GenOf h0 e0 (.filter l p) g' d ∧ g.toTry h0 = pre ++ y :: g'.toTry h0 := by
        intro m
        induction m with
        | zero =>
          intro g k hm hg hts
          have hnil : g.rem h0 = [] := List.eq_nil_of_length_eq_zero (Nat.le_zero.1 hm)
          rcases ih hb (fun p' hp' => hp p' (.inr hp')) g d hg hd hts with ⟨h1, h2⟩ | ⟨y, g', pre, h1, _⟩
          · left
            exact ⟨by rw [h1]; rfl, next_filter_end h2 rfl⟩
          · rw [hnil] at h1; cases h1
        | succ m ihm =>
          intro g k hm hg hts
          rcases ih hb (fun p' hp' => hp p' (.inr hp')) g d hg hd hts with ⟨h1, h2⟩ | ⟨y, g', pre, h1, h2, h3, h4⟩
          · left
            exact ⟨by rw [h1]; rfl, next_filter_end h2 rfl⟩
          · have hpy := (hts y (by rw [h4]; simp)).2 p (hp p (.inl rfl)) (k + 1)
            rw [h1]
            simp only [holding]
            by_cases hpp : p (k + 1) h0 y = true
            · right
              rw [if_pos hpp]
              exact ⟨y, .filter g' p (k + 1), pre, rfl, next_filter_yes h2 rfl (hpy.trans hpp), .filter h3, h4⟩
            · rw [if_neg hpp]
              have hpp' : p (k + 1) h y = false := by rw [hpy]; simpa using hpp
              have hm' : (g'.rem h0).length ≤ m := by rw [h1] at hm; simp only [List.length_cons] at hm; omega
              rcases ihm g' (k + 1) hm' h3 (fun i hi => hts i (by rw [h4]; simp [hi])) with
                ⟨j1, j2⟩ | ⟨z, g'', pre', j1, j2, j3, j4⟩
              · exact .inl ⟨j1, next_filter_no h2 rfl hpp' j2⟩
              · exact .inr ⟨z, g'', pre ++ y :: pre', j1, next_filter_no h2 rfl hpp' j2, j3, by rw [h4, j4]; simp⟩
      exact main _ g k (Nat.le_refl _) hg ht

/-- No node twice at the end of a path. -/
theorem tried_nodup {h0 : Heap} {q : Option Id} {e0 : Id} {tree : Node} (hr : Rep h0 q e0 tree) : ∀ (P : LivePath) (x : Id),
    Reachable h0 [e0] x → (P.tried h0 x).Nodup := by
  intro P
  induction P with
  | step a t => intro x hx; exact (rep_kids hr hx).1
  | slash l r ihl ihr =>
    intro x hx
    have hL : ∀ m ∈ l.found h0 x, Reachable h0 [e0] m :=
      fun m hm => ((tried_place hr l x hx).1 m ((tried_place hr l x hx).2.subset hm)).1
    have hn : (l.found h0 x).Nodup := (ihl x hx).sublist (tried_place hr l x hx).2
    simp only [LivePath.tried]
    generalize l.found h0 x = L at hL hn
    induction L with
    | nil => exact List.nodup_nil
    | cons m L ih =>
      rw [List.nodup_cons] at hn
      simp only [List.flatMap_cons, List.nodup_append]
      refine ⟨ihr m (hL m (by simp)), ih (fun m' hm' => hL m' (by simp [hm'])) hn.2, ?_⟩
      rintro a ha b hb rfl
      obtain ⟨m', hm', hb⟩ := List.mem_flatMap.1 hb
      have e1 := ((tried_place hr r m (hL m (by simp))).1 a ha).2
      have e2 := ((tried_place hr r m' (hL m' (by simp [hm']))).1 a hb).2
      rw [e1] at e2
      cases e2
      exact hn.1 hm'
  | filter l p ih => intro x hx; exact ih x hx

end Amara
