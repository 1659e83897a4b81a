import Verif.Spec.XLive
import Verif.Lemmas.DocOrder
/-
Lemmas for Props/XLive.
-/
namespace Amara

theorem allBelow_append {h : Heap} {cs l : List Id} (h1 : AllBelow h cs l) {ds m : List Id} (h2 : AllBelow h ds m) :
    AllBelow h (cs ++ ds) (l ++ m) := by
  induction h1 with
  | nil => exact h2
  | cons ha _ _ ih =>
    rw [List.cons_append, List.cons_append, List.append_assoc]
    exact .cons ha ih

theorem allBelow_kept {h h' : Heap} {cs l : List Id} (hb : AllBelow h cs l) :
    (∀ i ∈ l, h'.children i = h.children i) → AllBelow h' cs l := by
  induction hb with
  | nil => intro _; exact .nil
  | @cons c cs l l' _ _ ih1 ih2 =>
    intro hk
    refine .cons ?_ (ih2 fun i hi => hk i (by simp [hi]))
    rw [hk c (by simp)]
    exact ih1 fun i hi => hk i (by simp [hi])

theorem allBelow_heads {h : Heap} {cs l : List Id} (hb : AllBelow h cs l) : ∀ c ∈ cs, c ∈ l := by
  induction hb with
  | nil => intro c hc; cases hc
  | cons _ _ _ ih =>
    intro c hc
    rcases List.mem_cons.1 hc with rfl | hc
    · simp
    · simp [ih c hc]

theorem allBelow_closed {h : Heap} {cs l : List Id} (hb : AllBelow h cs l) : ∀ i ∈ l, ∀ c ∈ h.children i, c ∈ l := by
  induction hb with
  | nil => intro i hi; cases hi
  | @cons c cs l l' h1 _ ih1 ih2 =>
    intro i hi d hd
    simp only [List.mem_cons, List.mem_append] at hi
    rcases hi with rfl | hi | hi
    · simp [allBelow_heads h1 d hd]
    · simp [ih1 i hi d hd]
    · simp [ih2 i hi d hd]

/-- Everything in the list is in the first list or a child of something in it. -/
theorem allBelow_parent {h : Heap} {cs l : List Id} (hb : AllBelow h cs l) : ∀ i ∈ l, i ∈ cs ∨ ∃ p ∈ l, i ∈ h.children p := by
  induction hb with
  | nil => intro i hi; cases hi
  | @cons c cs l l' h1 _ ih1 ih2 =>
    intro i hi
    simp only [List.mem_cons, List.mem_append] at hi
    rcases hi with rfl | hi | hi
    · simp
    · rcases ih1 i hi with hm | ⟨p, hp, hm⟩
      · exact .inr ⟨c, by simp, hm⟩
      · exact .inr ⟨p, by simp [hp], hm⟩
    · rcases ih2 i hi with hm | ⟨p, hp, hm⟩
      · exact .inl (by simp [hm])
      · exact .inr ⟨p, by simp [hp], hm⟩

theorem allBelow_reach {h : Heap} {roots cs l : List Id} (hb : AllBelow h cs l) :
    (∀ c ∈ cs, Reachable h roots c) → ∀ i ∈ l, Reachable h roots i := by
  induction hb with
  | nil => intro _ i hi; cases hi
  | @cons c cs l l' h1 _ ih1 ih2 =>
    intro hc i hi
    simp only [List.mem_cons, List.mem_append] at hi
    have htc := hc c (by simp)
    rcases hi with rfl | hi | hi
    · exact htc
    · exact ih1 (fun d hd => .child htc hd) i hi
    · exact ih2 (fun d hd => hc d (by simp [hd])) i hi

theorem allBelow_exists {h : Heap} :
    (∀ (t : Node) (i : Id) (p : Option Id), Rep h p i t → ∃ l, AllBelow h (h.children i) l) ∧
    (∀ (ts : List Node) (par : Id) (cs : List Id), RepList h par cs ts → ∃ l, AllBelow h cs l) := by
  apply Node.induct
  case elem =>
    intro n as cs ih i p hr
    obtain ⟨cs', q, h1, h2, h3, h4⟩ := hr
    obtain ⟨l, hl⟩ := ih i cs' h4
    have hc : h.children i = cs' := by simp [Heap.children, h1, Obj.kids]
    exact ⟨l, hc ▸ hl⟩
  case text =>
    intro s i p hr
    obtain ⟨q, h1, h2⟩ := hr
    have hc : h.children i = [] := by simp [Heap.children, h1, Obj.kids]
    exact ⟨[], by rw [hc]; exact .nil⟩
  case nil =>
    intro par cs hr
    cases hr
    exact ⟨[], .nil⟩
  case cons =>
    intro t ts iht ihts par cs hr
    obtain ⟨c, r, rfl, h1, h2⟩ := hr
    obtain ⟨l1, b1⟩ := iht c _ h1
    obtain ⟨l2, b2⟩ := ihts par r h2
    exact ⟨_, .cons b1 b2⟩

/-! ### no node is listed twice -/

theorem rep_find {h : Heap} {q : Option Id} {e : Id} {tree : Node} (hr : Rep h q e tree) {i : Id}
    (hi : Reachable h [e] i) : ∃ p n, Rep h p i n := by
  induction hi with
  | root hm =>
    rw [List.mem_singleton] at hm
    subst hm
    exact ⟨_, _, hr⟩
  | child _ hc ih =>
    obtain ⟨p, n, h1⟩ := ih
    obtain ⟨t', h3⟩ := (rep_children h1).2.2 _ hc
    exact ⟨_, _, h3⟩

theorem rep_kids {h : Heap} {q : Option Id} {e : Id} {tree : Node} (hr : Rep h q e tree) {i : Id}
    (hi : Reachable h [e] i) : (h.children i).Nodup ∧ ∀ c ∈ h.children i, h.xmlParent c = some i := by
  obtain ⟨p, n, h1⟩ := rep_find hr hi
  refine ⟨(rep_children h1).2.1, fun c hc => ?_⟩
  obtain ⟨t', h3⟩ := (rep_children h1).2.2 c hc
  exact (rep_children h3).1

theorem allBelow_up {h : Heap} {T : Id → Prop} (hT : ∀ i, T i → ∀ c ∈ h.children i, T c ∧ h.xmlParent c = some i)
    {cs l : List Id} (hb : AllBelow h cs l) : (∀ c ∈ cs, T c) → ∀ x ∈ l, T x ∧ ∃ c ∈ cs, ∃ k, upTimes h k x = some c := by
  induction hb with
  | nil => intro _ x hx; cases hx
  | @cons c cs l l' _ _ ih1 ih2 =>
    intro hc x hx
    have htc := hc c (by simp)
    simp only [List.mem_cons, List.mem_append] at hx
    rcases hx with rfl | hx | hx
    · exact ⟨htc, x, by simp, 0, rfl⟩
    · obtain ⟨h1, d, hd, k, hk⟩ := ih1 (fun d hd => (hT c htc d hd).1) x hx
      refine ⟨h1, c, by simp, k + 1, ?_⟩
      rw [upTimes_add h k 1 x d hk, upTimes, (hT c htc d hd).2]
      rfl
    · obtain ⟨h1, d, hd, k, hk⟩ := ih2 (fun d hd => hc d (by simp [hd])) x hx
      exact ⟨h1, d, by simp [hd], k, hk⟩

theorem allBelow_nodup {h : Heap} {T : Id → Prop} {t : Id} (ht : h.xmlParent t = none)
    (hT : ∀ i, T i → ∀ c ∈ h.children i, T c ∧ h.xmlParent c = some i) (hN : ∀ i, T i → (h.children i).Nodup)
    {cs l : List Id} (hb : AllBelow h cs l) : cs.Nodup → (∀ c ∈ cs, T c) → ∀ d, (∀ c ∈ cs, upTimes h d c = some t) →
      l.Nodup := by
  induction hb with
  | nil => intro _ _ _ _; exact List.nodup_nil
  | @cons c cs l l' hb1 hb2 ih1 ih2 =>
    intro hn hc d hd
    rw [List.nodup_cons] at hn
    have htc := hc c (by simp)
    have hdc := hd c (by simp)
    have hkid : ∀ e ∈ h.children c, T e := fun e he => (hT c htc e he).1
    have n1 := ih1 (hN c htc) hkid (d + 1) (by
      intro e he
      rw [upTimes, (hT c htc e he).2]
      exact hdc)
    have n2 := ih2 hn.2 (fun e he => hc e (by simp [he])) d (fun e he => hd e (by simp [he]))
    have u1 : ∀ x ∈ l, ∃ k, upTimes h (k + 1) x = some c := by
      intro x hx
      obtain ⟨_, e, he, k, hk⟩ := allBelow_up hT hb1 hkid x hx
      refine ⟨k, ?_⟩
      rw [upTimes_add h k 1 x e hk, upTimes, (hT c htc e he).2]
      rfl
    have u2 : ∀ x ∈ l', ∃ e ∈ cs, ∃ k, upTimes h k x = some e := fun x hx =>
      (allBelow_up hT hb2 (fun e he => hc e (by simp [he])) x hx).2
    rw [List.nodup_cons, List.mem_append, List.nodup_append]
    refine ⟨?_, n1, n2, ?_⟩
    · rintro (hx | hx)
      · obtain ⟨k, hk⟩ := u1 c hx
        have := upTimes_add h _ d c c hk
        rw [hdc] at this
        have := upTimes_unique ht _ _ _ this hdc
        omega
      · obtain ⟨e, he, k, hk⟩ := u2 c hx
        have := upTimes_add h _ d c e hk
        rw [hd e (by simp [he])] at this
        have := upTimes_unique ht _ _ _ this hdc
        have hk0 : k = 0 := by omega
        subst hk0
        cases hk
        exact hn.1 he
    · rintro x hx y hy rfl
      obtain ⟨k, hk⟩ := u1 x hx
      obtain ⟨e, he, k', hk'⟩ := u2 x hy
      have a1 := upTimes_add h _ d x c hk
      have a2 := upTimes_add h _ d x e hk'
      rw [hdc] at a1
      rw [hd e (by simp [he])] at a2
      have := upTimes_unique ht _ _ _ a1 a2
      have hkk : k' = k + 1 := by omega
      subst hkk
      rw [hk] at hk'
      cases hk'
      exact hn.1 he

/-- What is below an element of a tree: no node twice, and not the element itself. -/
theorem below_element {h : Heap} {t e : Id} {tree : Node} (hr : Rep h none t tree) (he : Reachable h [t] e) {l : List Id}
    (hl : AllBelow h (h.children e) l) : (e :: l).Nodup := by
  have ht : h.xmlParent t = none := (rep_children hr).1
  have hT : ∀ i, Reachable h [t] i → ∀ c ∈ h.children i, Reachable h [t] c ∧ h.xmlParent c = some i :=
    fun i hi c hc => ⟨.child hi hc, (rep_reach hr hi).2.2 c hc⟩
  have hkid : ∀ c ∈ h.children e, Reachable h [t] c := fun c hc => .child he hc
  obtain ⟨d, hd⟩ := (rep_reach hr he).1
  have hup : ∀ c ∈ h.children e, upTimes h (d + 1) c = some t := by
    intro c hc
    rw [upTimes, (hT e he c hc).2]
    exact hd
  rw [List.nodup_cons]
  refine ⟨?_, allBelow_nodup ht hT (fun i hi => (rep_reach hr hi).2.1) hl (rep_reach hr he).2.1 hkid (d + 1) hup⟩
  intro hm
  obtain ⟨_, c, hc, k, hk⟩ := allBelow_up hT hl hkid e hm
  have := upTimes_add h _ (d + 1) e c hk
  rw [hup c hc] at this
  have := upTimes_unique ht _ _ _ this hd
  omega

/-! ### the node test -/

theorem live_of_label {h h' : Heap} {i : Id} (t : Test) (hl : (h'.obj i).map Obj.label = (h.obj i).map Obj.label) :
    t.live h' i = t.live h i := by
  cases t with
  | star => rfl
  | node => rfl
  | name n =>
    simp only [Test.live]
    cases h1 : h.obj i with
    | none =>
      cases h2 : h'.obj i with
      | none => rfl
      | some o => rw [h1, h2] at hl; cases hl
    | some o =>
      cases h2 : h'.obj i with
      | none => rw [h1, h2] at hl; cases hl
      | some o' =>
        rw [h1, h2] at hl
        cases o <;> cases o' <;> simp_all [Obj.label]
  | text =>
    simp only [Test.live]
    cases h1 : h.obj i with
    | none =>
      cases h2 : h'.obj i with
      | none => rfl
      | some o => rw [h1, h2] at hl; cases hl
    | some o =>
      cases h2 : h'.obj i with
      | none => rw [h1, h2] at hl; cases hl
      | some o' =>
        rw [h1, h2] at hl
        cases o <;> cases o' <;> simp_all [Obj.label]

/-- `next` in the loop of `descendant`: the first node still to come that passes the test. -/
theorem todo_next {t : Test} {h : Heap} {g : AxisGen} {r : AxisOut} (hn : AxisNext t h g r) : ∀ (todo l : List Id),
    g = .todo todo → AllBelow h todo l →
    (r = .finished ∧ ∀ i ∈ l, t.live h i = false) ∨
    ∃ pre y rest todo', r = .give y (.todo todo') ∧ l = pre ++ y :: rest ∧ (∀ i ∈ pre, t.live h i = false) ∧
      t.live h y = true ∧ AllBelow h todo' rest := by
  induction hn with
  | @give g y g' hr =>
    rintro todo l rfl hb
    cases hb with
    | nil => cases hr
    | @cons c cs m m' h1 h2 =>
      rw [axisRound, Test.out] at hr
      by_cases hl : t.live h c = true
      · rw [if_pos hl] at hr
        cases hr
        exact .inr ⟨[], y, m ++ m', _, rfl, rfl, (fun _ hi => by cases hi), hl, allBelow_append h1 h2⟩
      · rw [if_neg hl] at hr; cases hr
  | finished hr =>
    rintro todo l rfl hb
    cases hb with
    | nil => exact .inl ⟨rfl, fun _ hi => by cases hi⟩
    | @cons c cs m m' h1 h2 =>
      rw [axisRound, Test.out] at hr
      by_cases hl : t.live h c = true
      · rw [if_pos hl] at hr; cases hr
      · rw [if_neg hl] at hr; cases hr
  | raised hr =>
    rintro todo l rfl hb
    cases hb with
    | nil => cases hr
    | @cons c cs m m' h1 h2 =>
      rw [axisRound, Test.out] at hr
      by_cases hl : t.live h c = true
      · rw [if_pos hl] at hr; cases hr
      · rw [if_neg hl] at hr; cases hr
  | pass hr _ ih =>
    rintro todo l rfl hb
    cases hb with
    | nil => cases hr
    | @cons c cs m m' h1 h2 =>
      rw [axisRound, Test.out] at hr
      by_cases hl : t.live h c = true
      · rw [if_pos hl] at hr; cases hr
      · rw [if_neg hl] at hr
        cases hr
        rcases ih _ _ rfl (allBelow_append h1 h2) with ⟨e1, e2⟩ | ⟨pre, y, rest, todo', e1, e2, e3, e4, e5⟩
        · refine .inl ⟨e1, fun i hi => ?_⟩
          rcases List.mem_cons.1 hi with rfl | hi
          · simpa using hl
          · exact e2 i hi
        · refine .inr ⟨c :: pre, y, rest, todo', e1, by rw [e2]; rfl, fun i hi => ?_, e4, e5⟩
          rcases List.mem_cons.1 hi with rfl | hi
          · simpa using hl
          · exact e3 i hi

/-- There is a next. -/
theorem todo_next_exists (t : Test) (h : Heap) : ∀ (n : Nat) (todo l : List Id), l.length ≤ n → AllBelow h todo l →
    ∃ r, AxisNext t h (.todo todo) r := by
  intro n
  induction n with
  | zero =>
    intro todo l hn hb
    cases hb with
    | nil => exact ⟨_, .finished rfl⟩
    | cons h1 h2 => simp at hn
  | succ n ih =>
    intro todo l hn hb
    cases hb with
    | nil => exact ⟨_, .finished rfl⟩
    | @cons c cs m m' h1 h2 =>
      by_cases hl : t.live h c = true
      · exact ⟨_, .give (by rw [axisRound, Test.out, if_pos hl])⟩
      · obtain ⟨r, hr⟩ := ih _ _ (by simpa using hn) (allBelow_append h1 h2)
        exact ⟨r, .pass (by rw [axisRound, Test.out, if_neg hl]) hr⟩

end Amara
