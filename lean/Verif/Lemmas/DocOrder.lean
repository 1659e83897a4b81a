import Verif.Spec.DocOrder
import Verif.Props.Gen
/-
Lemmas for Props/DocOrder.
-/
namespace Amara

/-! ### sorting by number -/

theorem insertNum_sorted {α} (k : Nat) (x : α) (l : List (Nat × α)) (h : l.Pairwise (fun a b => a.1 ≤ b.1)) :
    (insertNum k x l).Perm ((k, x) :: l) ∧ (insertNum k x l).Pairwise (fun a b => a.1 ≤ b.1) := by
  induction l with
  | nil => exact ⟨.refl _, List.pairwise_singleton _ _⟩
  | cons y l ih =>
    obtain ⟨k', y⟩ := y
    have hc := List.pairwise_cons.1 h
    rw [insertNum]
    by_cases hk : k' ≤ k
    · rw [if_pos hk]
      obtain ⟨h1, h2⟩ := ih hc.2
      refine ⟨(h1.cons _).trans (.swap _ _ _), List.pairwise_cons.2 ⟨?_, h2⟩⟩
      intro b hb
      rcases List.mem_cons.1 ((h1.mem_iff).1 hb) with rfl | hb
      · exact hk
      · exact hc.1 b hb
    · rw [if_neg hk]
      refine ⟨.refl _, List.pairwise_cons.2 ⟨?_, h⟩⟩
      intro b hb
      rcases List.mem_cons.1 hb with rfl | hb
      · show k ≤ k'; omega
      · have := hc.1 b hb
        show k ≤ b.1
        simp only at this
        omega

theorem sortNum_sorted {α} (l : List (Nat × α)) :
    (l.foldl (fun acc kx => insertNum kx.1 kx.2 acc) []).Perm l ∧
    (l.foldl (fun acc kx => insertNum kx.1 kx.2 acc) []).Pairwise (fun a b => a.1 ≤ b.1) := by
  have aux : ∀ (l acc : List (Nat × α)), acc.Pairwise (fun a b => a.1 ≤ b.1) →
      (l.foldl (fun acc kx => insertNum kx.1 kx.2 acc) acc).Perm (acc ++ l) ∧
      (l.foldl (fun acc kx => insertNum kx.1 kx.2 acc) acc).Pairwise (fun a b => a.1 ≤ b.1) := by
    intro l
    induction l with
    | nil => intro acc h; exact ⟨by simp, h⟩
    | cons x l ih =>
      intro acc h
      obtain ⟨h1, h2⟩ := insertNum_sorted x.1 x.2 acc h
      obtain ⟨h3, h4⟩ := ih _ h2
      refine ⟨h3.trans ((h1.append_right l).trans ?_), h4⟩
      exact (List.perm_middle (a := x) (l₁ := acc) (l₂ := l)).symm
  simpa using aux l [] .nil

theorem mapM_numbered (m : Numbers) : ∀ xs : List ONode, (∀ x ∈ xs, ∃ k, m.of x = some k) →
    ∃ ks : List (Nat × ONode), (xs.mapM fun x => (m.of x).map fun k => (k, x)) = some ks ∧ ks.map Prod.snd = xs ∧
      ∀ kx ∈ ks, m.of kx.2 = some kx.1 := by
  intro xs
  induction xs with
  | nil => intro _; exact ⟨[], rfl, rfl, fun _ h => by cases h⟩
  | cons x xs ih =>
    intro h
    obtain ⟨k, hk⟩ := h x (by simp)
    obtain ⟨ks, h1, h2, h3⟩ := ih (fun y hy => h y (by simp [hy]))
    refine ⟨(k, x) :: ks, by rw [List.mapM_cons, hk, h1]; rfl, by rw [List.map_cons, h2], ?_⟩
    intro kx hkx
    rcases List.mem_cons.1 hkx with rfl | hkx
    · exact hk
    · exact h3 kx hkx

theorem mapM_unnumbered (m : Numbers) : ∀ xs : List ONode, (∃ x ∈ xs, m.of x = none) →
    (xs.mapM fun x => (m.of x).map fun k => (k, x)) = none := by
  intro xs
  induction xs with
  | nil => rintro ⟨x, hx, _⟩; cases hx
  | cons y xs ih =>
    rintro ⟨x, hx, hn⟩
    rw [List.mapM_cons]
    rcases List.mem_cons.1 hx with rfl | hx
    · rw [hn]; rfl
    · rw [ih ⟨x, hx, hn⟩]
      cases m.of y <;> rfl

theorem goUp_sublist {m : Numbers} {o o' : List ONode} (h : GoUp m o) (hs : o'.Sublist o) : GoUp m o' :=
  ⟨fun x hx => h.1 x (hs.subset hx), h.2.sublist hs⟩

theorem goUp_before {m : Numbers} {order : List ONode} (h : GoUp m order) {a b : ONode} (hb : Before order a b) :
    ∃ p q, m.of a = some p ∧ m.of b = some q ∧ p < q := by
  obtain ⟨u, v, rfl, ha, hb⟩ := hb
  obtain ⟨p, hp⟩ := h.1 a (by simp [ha])
  obtain ⟨q, hq⟩ := h.1 b (by simp [hb])
  exact ⟨p, q, hp, hq, (List.pairwise_append.1 h.2).2.2 a ha b hb p q hp hq⟩

theorem sort_arranged {m : Numbers} {order xs : List ONode} (h : GoUp m order) (hx : ∀ x ∈ xs, x ∈ order) :
    ∃ zs, sortNumbered m xs = some zs ∧ Arranged order xs zs := by
  obtain ⟨ks, h1, h2, h3⟩ := mapM_numbered m xs (fun x hm => h.1 x (hx x hm))
  obtain ⟨h4, h5⟩ := sortNum_sorted ks
  refine ⟨_, by rw [sortNumbered, h1]; rfl, ?_, ?_⟩
  · have := h4.map Prod.snd
    rwa [h2] at this
  · rw [List.pairwise_map]
    refine List.Pairwise.imp_of_mem ?_ h5
    rintro ⟨k1, a⟩ ⟨k2, b⟩ ha hb hle hlt
    obtain ⟨p, q, hp, hq, hpq⟩ := goUp_before h hlt
    have e1 := h3 _ ((h4.mem_iff).1 ha)
    have e2 := h3 _ ((h4.mem_iff).1 hb)
    simp only at e1 e2 hle hp hq
    rw [e1] at hq; rw [e2] at hp
    cases hq; cases hp
    omega

/-! ### numbering -/

theorem numberRest_spec (h : Heap) : ∀ (l : List Id) (n : Nat) (g : DescGen) (k : Nat) (m : Numbers), Pending h g l →
    l.length ≤ n → ∃ m', numberRest h n g k m = some m' ∧ m'.root = m.root ∧ (∀ i, i ∉ l → m'.obj i = m.obj i) ∧
      (l.Nodup → ∀ (j : Nat) i, l[j]? = some i → m'.obj i = some (k + 1 + j)) := by
  intro l
  induction l with
  | nil =>
    intro n g k m hp _
    rcases descNext_pending h _ g [] (Nat.le_refl _) hp with ⟨h1, _⟩ | ⟨y, g', l', _, h2, _⟩
    · exact ⟨m, by unfold numberRest; rw [h1], rfl, fun _ _ => rfl, fun _ j i hj => by simp at hj⟩
    · cases h2
  | cons x l ih =>
    intro n g k m hp hn
    rcases descNext_pending h _ g (x :: l) (Nat.le_refl _) hp with ⟨_, h2⟩ | ⟨y, g', l', h1, h2, h3⟩
    · cases h2
    · cases h2
      cases n with
      | zero => simp at hn
      | succ n =>
        obtain ⟨m', e1, e2, e3, e4⟩ := ih n g' (k + 1) (m.put x (k + 1)) h3 (by simpa using hn)
        refine ⟨m', by unfold numberRest; rw [h1]; exact e1, e2, ?_, ?_⟩
        · intro i hi
          simp only [List.mem_cons, not_or] at hi
          rw [e3 i hi.2]
          simp [Numbers.put, hi.1]
        · intro hd j i hj
          rw [List.nodup_cons] at hd
          cases j with
          | zero =>
            simp only [List.getElem?_cons_zero, Option.some.injEq] at hj
            subst hj
            rw [e3 x hd.1]
            simp [Numbers.put]
          | succ j =>
            rw [List.getElem?_cons_succ] at hj
            rw [e4 hd.2 j i hj]
            congr 1
            omega

theorem numberRest_more {h : Heap} : ∀ (n : Nat) (g : DescGen) (k : Nat) (m m' : Numbers) (n' : Nat), n ≤ n' →
    numberRest h n g k m = some m' → numberRest h n' g k m = some m' := by
  intro n
  induction n with
  | zero =>
    intro g k m m' n' _ hnr
    unfold numberRest at hnr ⊢
    cases hg : descNext h g with
    | none => rw [hg] at hnr; exact hnr
    | some y => rw [hg] at hnr; cases hnr
  | succ n ih =>
    intro g k m m' n' hn hnr
    unfold numberRest at hnr ⊢
    cases hg : descNext h g with
    | none => rw [hg] at hnr; exact hnr
    | some y =>
      rw [hg] at hnr
      cases n' with
      | zero => omega
      | succ n' => exact ih _ _ _ _ n' (by omega) hnr

theorem pairwise_of_index {α} {R : α → α → Prop} : ∀ (l : List α),
    (∀ (i j : Nat) a b, i < j → l[i]? = some a → l[j]? = some b → R a b) → l.Pairwise R := by
  intro l h
  rw [List.pairwise_iff_getElem]
  intro i j hi hj hij
  exact h i j _ _ hij (List.getElem?_eq_getElem hi) (List.getElem?_eq_getElem hj)

/-- Numbering a tree from its top. -/
theorem number_goUp (h : Heap) (t : Id) (ids : List Id) (n k : Nat) (m : Numbers) (hb : Below h (h.children t) ids)
    (hd : (t :: ids).Nodup) (hn : ids.length ≤ n) : ∃ m', numberRest h n (descGen t) k (m.put t k) = some m' ∧
      m'.root = m.root ∧ GoUp m' ((t :: ids).map .obj) ∧ (∀ i ∈ t :: ids, ∃ j, m'.obj i = some j ∧ k ≤ j) ∧
      ∀ i, i ∉ t :: ids → m'.obj i = m.obj i := by
  rw [List.nodup_cons] at hd
  have hp : Pending h (descGen t) ids := ⟨ids, [], by simpa using hb, rfl, by simp⟩
  obtain ⟨m', e1, e2, e3, e4⟩ := numberRest_spec h ids n (descGen t) k (m.put t k) hp hn
  have h0 : m'.obj t = some k := by rw [e3 t hd.1]; simp [Numbers.put]
  have key : ∀ (j : Nat) i, (t :: ids)[j]? = some i → m'.obj i = some (k + j) := by
    intro j i hj
    cases j with
    | zero =>
      simp only [List.getElem?_cons_zero, Option.some.injEq] at hj
      subst hj; exact h0
    | succ j =>
      rw [List.getElem?_cons_succ] at hj
      rw [e4 hd.2 j i hj]; congr 1; omega
  have num : ∀ i ∈ t :: ids, ∃ j, m'.obj i = some (k + j) := by
    intro i hi
    obtain ⟨j, hj⟩ := List.mem_iff_getElem?.1 hi
    exact ⟨j, key j i hj⟩
  refine ⟨m', e1, e2, ⟨?_, ?_⟩, fun i hi => (num i hi).elim fun j hj => ⟨_, hj, by omega⟩, ?_⟩
  · intro x hx
    obtain ⟨i, hi, rfl⟩ := List.mem_map.1 hx
    obtain ⟨j, hj⟩ := num i hi
    exact ⟨_, hj⟩
  · rw [List.pairwise_map]
    refine pairwise_of_index _ ?_
    intro i j a b hij ha hb p q hp hq
    simp only [Numbers.of] at hp hq
    rw [key i a ha] at hp; rw [key j b hb] at hq
    cases hp; cases hq; omega
  · intro i hi
    simp only [List.mem_cons, not_or] at hi
    rw [e3 i hi.2]; simp [Numbers.put, hi.1]

/-! ### trees in memory -/

theorem upTimes_add (h : Heap) : ∀ (a b : Nat) (i j : Id), upTimes h a i = some j →
    upTimes h (a + b) i = upTimes h b j := by
  intro a
  induction a with
  | zero => intro b i j hij; cases hij; rw [Nat.zero_add]
  | succ a ih =>
    intro b i j hij
    rw [show a + 1 + b = (a + b) + 1 by omega, upTimes]
    rw [upTimes] at hij
    cases hp : h.xmlParent i with
    | none => rw [hp] at hij; cases hij
    | some p => rw [hp] at hij; exact ih b p j hij

theorem upTimes_unique {h : Heap} {t : Id} (ht : h.xmlParent t = none) : ∀ (a b : Nat) (i : Id),
    upTimes h a i = some t → upTimes h b i = some t → a = b := by
  intro a
  induction a with
  | zero =>
    intro b i ha hb
    cases ha
    cases b with
    | zero => rfl
    | succ b => rw [upTimes, ht] at hb; cases hb
  | succ a ih =>
    intro b i ha hb
    cases b with
    | zero => cases hb; rw [upTimes, ht] at ha; cases ha
    | succ b =>
      rw [upTimes] at ha hb
      cases hp : h.xmlParent i with
      | none => rw [hp] at ha; cases ha
      | some p =>
        rw [hp] at ha hb
        rw [ih b p ha hb]

theorem topOf_upTimes {h : Heap} {t : Id} (ht : h.xmlParent t = none) : ∀ (k n : Nat) (i : Id),
    upTimes h k i = some t → k ≤ n → topOf h n i = some t := by
  intro k
  induction k with
  | zero => intro n i hi _; cases hi; unfold topOf; rw [ht]
  | succ k ih =>
    intro n i hi hn
    rw [upTimes] at hi
    cases hp : h.xmlParent i with
    | none => rw [hp] at hi; cases hi
    | some p =>
      rw [hp] at hi
      cases n with
      | zero => omega
      | succ n => unfold topOf; rw [hp]; exact ih n p hi (by omega)

theorem topOf_unique {h : Heap} {t : Id} (ht : h.xmlParent t = none) : ∀ (k n : Nat) (i t' : Id),
    upTimes h k i = some t → topOf h n i = some t' → t' = t := by
  intro k
  induction k with
  | zero =>
    intro n i t' hi he
    cases hi
    unfold topOf at he
    rw [ht] at he
    exact (Option.some.inj he).symm
  | succ k ih =>
    intro n i t' hi he
    rw [upTimes] at hi
    cases hp : h.xmlParent i with
    | none => rw [hp] at hi; cases hi
    | some p =>
      rw [hp] at hi
      unfold topOf at he
      rw [hp] at he
      cases n with
      | zero => cases he
      | succ n => exact ih n p t' hi he

theorem repList_find {h : Heap} {par : Id} : ∀ (ts : List Node) (cs : List Id), RepList h par cs ts →
    ∀ c ∈ cs, ∃ t ∈ ts, Rep h (some par) c t := by
  intro ts
  induction ts with
  | nil => intro cs hr c hc; cases hr; cases hc
  | cons t ts ih =>
    intro cs hr c hc
    obtain ⟨c', r, rfl, h1, h2⟩ := hr
    rcases List.mem_cons.1 hc with rfl | hc
    · exact ⟨t, by simp, h1⟩
    · obtain ⟨t', ht', hr'⟩ := ih r h2 c hc
      exact ⟨t', by simp [ht'], hr'⟩

theorem rep_children {h : Heap} {p : Option Id} {i : Id} {t : Node} (hr : Rep h p i t) :
    h.xmlParent i = p ∧ (h.children i).Nodup ∧ ∀ c ∈ h.children i, ∃ t', Rep h (some i) c t' := by
  cases t with
  | text s =>
    obtain ⟨q, h1, h2⟩ := hr
    have hc : h.children i = [] := by simp [Heap.children, h1, Obj.kids]
    rw [hc]
    exact ⟨h2, List.nodup_nil, fun c hc => by cases hc⟩
  | elem n as ts =>
    obtain ⟨cs, q, h1, h2, h3, h4⟩ := hr
    have hc : h.children i = cs := by simp [Heap.children, h1, Obj.kids]
    rw [hc]
    refine ⟨h2, h3, fun c hc => ?_⟩
    obtain ⟨t', _, hr'⟩ := repList_find ts cs h4 c hc
    exact ⟨t', hr'⟩

/-- Every node of a tree leads up to its top, and child lists agree with the parent links. -/
theorem rep_reach {h : Heap} {t : Id} {tree : Node} (hr : Rep h none t tree) {i : Id} (hi : Reachable h [t] i) :
    (∃ k, upTimes h k i = some t) ∧ (h.children i).Nodup ∧ ∀ c ∈ h.children i, h.xmlParent c = some i := by
  have : (∃ p n, Rep h p i n) ∧ ∃ k, upTimes h k i = some t := by
    induction hi with
    | root hm =>
      rw [List.mem_singleton] at hm
      subst hm
      exact ⟨⟨_, _, hr⟩, 0, rfl⟩
    | child _ hc ih =>
      obtain ⟨⟨p, n, h1⟩, k, h2⟩ := ih
      obtain ⟨t', h3⟩ := (rep_children h1).2.2 _ hc
      refine ⟨⟨_, _, h3⟩, k + 1, ?_⟩
      rw [upTimes, (rep_children h3).1]
      exact h2
  obtain ⟨⟨p, n, h1⟩, h2⟩ := this
  refine ⟨h2, (rep_children h1).2.1, fun c hc => ?_⟩
  obtain ⟨t', h3⟩ := (rep_children h1).2.2 c hc
  exact (rep_children h3).1

theorem below_up {h : Heap} {T : Id → Prop} (hT : ∀ i, T i → ∀ c ∈ h.children i, T c ∧ h.xmlParent c = some i)
    {cs l : List Id} (hb : Below h cs l) : (∀ c ∈ cs, T c) → ∀ x ∈ l, T x ∧ ∃ c ∈ cs, ∃ k, upTimes h k x = some c := by
  induction hb with
  | nil => intro _ x hx; cases hx
  | @text c cs l _ _ ih =>
    intro hc x hx
    obtain ⟨h1, d, hd, k, hk⟩ := ih (fun d hd => hc d (by simp [hd])) x hx
    exact ⟨h1, d, by simp [hd], k, hk⟩
  | @elem c cs l l' _ _ _ ih1 ih2 =>
    intro hc x hx
    have htc := hc c (by simp)
    simp only [List.mem_cons, List.mem_append] at hx
    rcases hx with rfl | hx | hx
    · exact ⟨htc, x, by simp, 0, rfl⟩
    · obtain ⟨h1, d, hd, k, hk⟩ := ih1 (fun d hd => (hT c htc d hd).1) x hx
      refine ⟨h1, c, by simp, k + 1, ?_⟩
      rw [upTimes_add h k 1 x d hk, upTimes, (hT c htc d hd).2]
      rfl
    · obtain ⟨h1, d, hd, k, hk⟩ := ih2 (fun d hd => hc d (by simp [hd])) x hx
      exact ⟨h1, d, by simp [hd], k, hk⟩

theorem below_nodup {h : Heap} {T : Id → Prop} {t : Id} (ht : h.xmlParent t = none)
    (hT : ∀ i, T i → ∀ c ∈ h.children i, T c ∧ h.xmlParent c = some i) (hN : ∀ i, T i → (h.children i).Nodup)
    {cs l : List Id} (hb : Below h cs l) : cs.Nodup → (∀ c ∈ cs, T c) → ∀ d, (∀ c ∈ cs, upTimes h d c = some t) →
      l.Nodup := by
  induction hb with
  | nil => intro _ _ _ _; exact List.nodup_nil
  | @text c cs l _ _ ih =>
    intro hn hc d hd
    exact ih (List.nodup_cons.1 hn).2 (fun e he => hc e (by simp [he])) d (fun e he => hd e (by simp [he]))
  | @elem c cs l l' _ hb1 hb2 ih1 ih2 =>
    intro hn hc d hd
    rw [List.nodup_cons] at hn
    have htc := hc c (by simp)
    have hdc := hd c (by simp)
    have hkid : ∀ e ∈ h.children c, T e := fun e he => (hT c htc e he).1
    have n1 := ih1 (hN c htc) hkid (d + 1) (by
      intro e he
      rw [upTimes, (hT c htc e he).2]
      exact hdc)
    have n2 := ih2 hn.2 (fun e he => hc e (by simp [he])) d (fun e he => hd e (by simp [he]))
    have u1 : ∀ x ∈ l, ∃ k, upTimes h (k + 1) x = some c := by
      intro x hx
      obtain ⟨_, e, he, k, hk⟩ := below_up hT hb1 hkid x hx
      refine ⟨k, ?_⟩
      rw [upTimes_add h k 1 x e hk, upTimes, (hT c htc e he).2]
      rfl
    have u2 : ∀ x ∈ l', ∃ e ∈ cs, ∃ k, upTimes h k x = some e := fun x hx =>
      (below_up hT hb2 (fun e he => hc e (by simp [he])) x hx).2
    rw [List.nodup_cons, List.mem_append, List.nodup_append]
    refine ⟨?_, n1, n2, ?_⟩
    · rintro (hx | hx)
      · obtain ⟨k, hk⟩ := u1 c hx
        have := upTimes_add h _ d c c hk
        rw [hdc] at this
        have := upTimes_unique ht _ _ _ this hdc
        omega
      · obtain ⟨e, he, k, hk⟩ := u2 c hx
        have := upTimes_add h _ d c e hk
        rw [hd e (by simp [he])] at this
        have := upTimes_unique ht _ _ _ this hdc
        have hk0 : k = 0 := by omega
        subst hk0
        cases hk
        exact hn.1 he
    · rintro x hx y hy rfl
      obtain ⟨k, hk⟩ := u1 x hx
      obtain ⟨e, he, k', hk'⟩ := u2 x hy
      have a1 := upTimes_add h _ d x c hk
      have a2 := upTimes_add h _ d x e hk'
      rw [hdc] at a1
      rw [hd e (by simp [he])] at a2
      have := upTimes_unique ht _ _ _ a1 a2
      have hkk : k' = k + 1 := by omega
      subst hkk
      rw [hk] at hk'
      cases hk'
      exact hn.1 he

/-- In a tree, no element is listed twice. -/
theorem elements_nodup {h : Heap} {t : Id} {tree : Node} (hr : Rep h none t tree) {l : List Id}
    (hl : ElementsOf h t l) : l.Nodup := by
  obtain ⟨ids, hb, rfl⟩ := hl
  have ht : h.xmlParent t = none := (rep_children hr).1
  have hT : ∀ i, Reachable h [t] i → ∀ c ∈ h.children i, Reachable h [t] c ∧ h.xmlParent c = some i :=
    fun i hi c hc => ⟨.child hi hc, (rep_reach hr hi).2.2 c hc⟩
  have htt : Reachable h [t] t := .root (by simp)
  have hkid : ∀ c ∈ h.children t, Reachable h [t] c := fun c hc => .child htt hc
  have hup : ∀ c ∈ h.children t, upTimes h 1 c = some t := by
    intro c hc
    rw [upTimes, (hT t htt c hc).2]
    rfl
  rw [List.nodup_cons]
  refine ⟨?_, below_nodup ht hT (fun i hi => (rep_reach hr hi).2.1) hb (rep_reach hr htt).2.1 hkid 1 hup⟩
  intro hm
  obtain ⟨_, c, hc, k, hk⟩ := below_up hT hb hkid t hm
  have := upTimes_add h _ 1 t c hk
  rw [hup c hc] at this
  have := upTimes_unique ht _ _ _ this (show upTimes h 0 t = some t from rfl)
  omega

end Amara
