import Verif.Model.DocOrderThreads
import Verif.Lemmas.DocOrder
/-
Invariants of unions evaluated by several threads.
-/
namespace Amara

/-! ### schedules -/

theorem uworld_run_inv {h : Heap} {d : Id} (I : Numbers → UCall → Prop) (J : Numbers → Prop)
    (own : ∀ m c, J m → I m c → J (c.step h d m).1 ∧ I (c.step h d m).1 (c.step h d m).2)
    (other : ∀ m c c', J m → I m c → I m c' → I (c.step h d m).1 c') :
    ∀ (sched : List Nat) (w : UWorld), J w.nums → (∀ c ∈ w.calls, I w.nums c) →
      J (w.run h d sched).nums ∧ ∀ c ∈ (w.run h d sched).calls, I (w.run h d sched).nums c := by
  intro sched
  induction sched with
  | nil => intro w h1 h2; exact ⟨h1, h2⟩
  | cons k sched ih =>
    intro w h1 h2
    have key : J (w.step h d k).nums ∧ ∀ c ∈ (w.step h d k).calls, I (w.step h d k).nums c := by
      rw [UWorld.step]
      cases hk : w.calls[k]? with
      | none => exact ⟨h1, h2⟩
      | some c =>
        have hc := List.mem_of_getElem? hk
        refine ⟨(own _ c h1 (h2 c hc)).1, ?_⟩
        intro c' hc'
        rcases List.mem_or_eq_of_mem_set hc' with hc' | rfl
        · exact other _ c c' h1 (h2 c hc) (h2 c' hc')
        · exact (own _ c h1 (h2 c hc)).2
    exact ih _ key.1 key.2

theorem ustep_same {h : Heap} {d : Id} {m : Numbers} {c : UCall} :
    (c.step h d m).2.ctx = c.ctx ∧ (c.step h d m).2.sel = c.sel := by
  obtain ⟨ctx, sel, ph⟩ := c
  cases ph with
  | fresh => exact ⟨rfl, rfl⟩
  | climb i => simp only [UCall.step]; cases h.xmlParent i <;> exact ⟨rfl, rfl⟩
  | atRoot => exact ⟨rfl, rfl⟩
  | docElem => exact ⟨rfl, rfl⟩
  | number g k =>
    simp only [UCall.step]
    cases descNext h g with
    | none => exact ⟨rfl, rfl⟩
    | some p => obtain ⟨y, g'⟩ := p; exact ⟨rfl, rfl⟩
  | read rest got =>
    cases rest with
    | nil => exact ⟨rfl, rfl⟩
    | cons x rest => simp only [UCall.step]; cases m.of x <;> exact ⟨rfl, rfl⟩
  | done r => exact ⟨rfl, rfl⟩

theorem urun_same {h : Heap} {d : Id} (sched : List Nat) (w : UWorld) (k : Nat) :
    (w.run h d sched).calls[k]?.map (fun c => (c.ctx, c.sel)) = w.calls[k]?.map (fun c => (c.ctx, c.sel)) := by
  induction sched generalizing w with
  | nil => rfl
  | cons j sched ih =>
    rw [UWorld.run, List.foldl_cons]
    refine (ih (w.step h d j)).trans ?_
    rw [UWorld.step]
    cases hj : w.calls[j]? with
    | none => rfl
    | some c =>
      simp only
      by_cases hk : j = k
      · subst hk
        rw [List.getElem?_set_self (by
          rcases Nat.lt_or_ge j w.calls.length with h1 | h1
          · exact h1
          · rw [List.getElem?_eq_none h1] at hj; cases hj), hj]
        simp [ustep_same]
      · rw [List.getElem?_set_ne hk]

/-! ### what the numbers will be -/

/-- The right numbers: those of the elements of `order`, from `base`. -/
def rightNums (base : Nat) (order : List Id) (root : Option Nat) : Numbers :=
  ⟨root, fun i => (order.findIdx? (· == i)).map (base + ·)⟩

theorem findIdx_at {l : List Id} (hd : l.Nodup) {j : Nat} {i : Id} (h : l[j]? = some i) :
    l.findIdx? (· == i) = some j := by
  rw [List.findIdx?_eq_some_iff_getElem]
  obtain ⟨h1, h2⟩ := List.getElem?_eq_some_iff.1 h
  refine ⟨h1, by simp [h2], ?_⟩
  intro k hk he
  have he : l[k] = i := by simpa using he
  exact (List.pairwise_iff_getElem.1 hd) k j (by omega) h1 hk (he.trans h2.symm)

theorem rightNums_obj {base : Nat} {order : List Id} {root : Option Nat} (hd : order.Nodup) {j : Nat} {i : Id}
    (h : order[j]? = some i) : (rightNums base order root).obj i = some (base + j) := by
  simp [rightNums, findIdx_at hd h]

theorem rightNums_none {base : Nat} {order : List Id} {root : Option Nat} {i : Id}
    (h : i ∉ order) : (rightNums base order root).obj i = none := by
  simp only [rightNums, Option.map_eq_none_iff, List.findIdx?_eq_none_iff]
  intro x hx
  simp only [beq_eq_false_iff_ne]
  rintro rfl
  exact h hx

theorem rightNums_goUp {base : Nat} {order : List Id} {root : Option Nat} (hd : order.Nodup) :
    GoUp (rightNums base order root) (order.map .obj) := by
  constructor
  · intro x hx
    obtain ⟨i, hi, rfl⟩ := List.mem_map.1 hx
    obtain ⟨j, hj⟩ := List.mem_iff_getElem?.1 hi
    exact ⟨_, rightNums_obj hd hj⟩
  · rw [List.pairwise_map]
    refine pairwise_of_index _ ?_
    intro i j a b hij ha hb p q hp hq
    simp only [Numbers.of] at hp hq
    rw [rightNums_obj hd ha] at hp; rw [rightNums_obj hd hb] at hq
    cases hp; cases hq; omega

theorem rightNums_goUp_root {order : List Id} (hd : order.Nodup) :
    GoUp (rightNums 1 order (some 0)) (.root :: order.map .obj) := by
  have h0 := rightNums_goUp (base := 1) (root := some 0) hd
  refine ⟨?_, List.pairwise_cons.2 ⟨?_, h0.2⟩⟩
  · intro x hx
    rcases List.mem_cons.1 hx with rfl | hx
    · exact ⟨0, rfl⟩
    · exact h0.1 x hx
  · intro x hx p q hp hq
    obtain ⟨i, hi, rfl⟩ := List.mem_map.1 hx
    obtain ⟨j, hj⟩ := List.mem_iff_getElem?.1 hi
    simp only [Numbers.of] at hp hq
    rw [rightNums_obj hd hj] at hq
    cases hp; cases hq; omega

/-- Every number there is, is the right one. -/
def NumsOk (full m : Numbers) : Prop := ∀ x, m.of x = none ∨ m.of x = full.of x

theorem numsOk_put {full m : Numbers} (hm : NumsOk full m) {i : Id} {k : Nat} (h : full.obj i = some k) :
    NumsOk full (m.put i k) := by
  intro x
  cases x with
  | root => exact hm .root
  | attr e => exact .inl rfl
  | obj j =>
    by_cases hj : j = i
    · subst hj; exact .inr (by simp [Numbers.of, Numbers.put, h])
    · have := hm (.obj j)
      simpa [Numbers.of, Numbers.put, hj] using this

/-- `number g k`: what is left of the order gets the right numbers. -/
def NumberOk (h : Heap) (full : Numbers) (g : DescGen) (k : Nat) : Prop :=
  ∃ l, Pending h g l ∧ ∀ (j : Nat) i, l[j]? = some i → full.obj i = some (k + 1 + j)

/-- An evaluation that writes only right numbers and has read only right numbers.  `T` are the nodes it may climb from,
`rt` is whether it may start at the root. -/
def CallOk (h : Heap) (full : Numbers) (T : Id → Prop) (rt : Prop) (c : UCall) : Prop :=
  match c.phase with
  | .fresh => match c.ctx with
    | .root => rt
    | .obj i => T i
    | .attr e => T e
  | .climb i => T i
  | .atRoot => rt
  | .docElem => rt
  | .number g k => NumberOk h full g k
  | .read rest got => c.sel = got.map Prod.snd ++ rest ∧ ∀ kx ∈ got, full.of kx.2 = some kx.1
  | .done none => True
  | .done (some zs) => sortNumbered full c.sel = some zs

theorem mapM_got (full : Numbers) : ∀ got : List (Nat × ONode), (∀ kx ∈ got, full.of kx.2 = some kx.1) →
    ((got.map Prod.snd).mapM fun x => (full.of x).map fun k => (k, x)) = some got := by
  intro got
  induction got with
  | nil => intro _; rfl
  | cons kx got ih =>
    intro hg
    rw [List.map_cons, List.mapM_cons, hg kx (by simp), ih (fun y hy => hg y (by simp [hy]))]
    rfl

theorem callOk_own {h : Heap} {d : Id} {full : Numbers} {T : Id → Prop} {rt : Prop} {m : Numbers} {c : UCall}
    (hT : ∀ i, T i → (∃ p, h.xmlParent i = some p ∧ T p) ∨
      h.xmlParent i = none ∧ full.obj i = some 0 ∧ NumberOk h full (descGen i) 0)
    (hR : rt → full.root = some 0 ∧ full.obj d = some 1 ∧ NumberOk h full (descGen d) 1)
    (hm : NumsOk full m) (hc : CallOk h full T rt c) :
    NumsOk full (c.step h d m).1 ∧ CallOk h full T rt (c.step h d m).2 := by
  obtain ⟨ctx, sel, ph⟩ := c
  cases ph with
  | fresh =>
    refine ⟨hm, ?_⟩
    simp only [UCall.step]
    by_cases hs : (m.of ctx).isSome
    · rw [if_pos hs]
      exact ⟨by simp, fun kx hk => by cases hk⟩
    · rw [if_neg hs]
      cases ctx with
      | root => exact hc
      | obj i => exact hc
      | attr e => exact hc
  | climb i =>
    simp only [UCall.step]
    rcases hT i hc with ⟨p, h1, h2⟩ | ⟨h1, h2, h3⟩
    · rw [h1]; exact ⟨hm, h2⟩
    · rw [h1]; exact ⟨numsOk_put hm h2, h3⟩
  | atRoot =>
    refine ⟨?_, hc⟩
    intro x
    cases x with
    | root => exact .inr (hR hc).1.symm
    | obj i => exact hm (.obj i)
    | attr e => exact .inl rfl
  | docElem => exact ⟨numsOk_put hm (hR hc).2.1, (hR hc).2.2⟩
  | number g k =>
    obtain ⟨l, h1, h2⟩ := hc
    simp only [UCall.step]
    rcases descNext_pending h _ g l (Nat.le_refl _) h1 with ⟨h3, rfl⟩ | ⟨y, g', l', h3, rfl, h4⟩
    · rw [h3]; exact ⟨hm, by simp, fun kx hk => by cases hk⟩
    · rw [h3]
      refine ⟨numsOk_put hm (by simpa using h2 0 y rfl), l', h4, ?_⟩
      intro j i hj
      rw [h2 (j + 1) i (by rw [List.getElem?_cons_succ]; exact hj)]
      congr 1; omega
  | read rest got =>
    obtain ⟨h1, h2⟩ := hc
    cases rest with
    | nil =>
      refine ⟨hm, ?_⟩
      simp only [List.append_nil] at h1
      simp only [UCall.step, CallOk, h1, sortNumbered]
      rw [mapM_got full got h2]
      rfl
    | cons x rest =>
      simp only [UCall.step]
      cases hx : m.of x with
      | none => exact ⟨hm, trivial⟩
      | some k =>
        refine ⟨hm, by simpa using h1, ?_⟩
        intro kx hk
        rcases List.mem_append.1 hk with hk | hk
        · exact h2 kx hk
        · rw [List.mem_singleton] at hk
          subst hk
          rcases hm x with h3 | h3
          · rw [h3] at hx; cases hx
          · rw [← h3, hx]
  | done r => exact ⟨hm, hc⟩

/-- The last form of the invariant: whatever the schedule. -/
theorem callOk_run {h : Heap} {d : Id} {full : Numbers} {T : Id → Prop} {rt : Prop}
    (hT : ∀ i, T i → (∃ p, h.xmlParent i = some p ∧ T p) ∨
      h.xmlParent i = none ∧ full.obj i = some 0 ∧ NumberOk h full (descGen i) 0)
    (hR : rt → full.root = some 0 ∧ full.obj d = some 1 ∧ NumberOk h full (descGen d) 1)
    (sched : List Nat) (w : UWorld) (hm : NumsOk full w.nums) (hc : ∀ c ∈ w.calls, CallOk h full T rt c) :
    NumsOk full (w.run h d sched).nums ∧ ∀ c ∈ (w.run h d sched).calls, CallOk h full T rt c :=
  uworld_run_inv (fun _ c => CallOk h full T rt c) (NumsOk full) (fun _ _ h1 h2 => callOk_own hT hR h1 h2)
    (fun _ _ _ _ _ h3 => h3) sched w hm hc

/-! ### the tree -/

theorem numberOk_top {h : Heap} {t : Id} {ids : List Id} (hb : Below h (h.children t) ids) (hd : (t :: ids).Nodup)
    (base : Nat) (root : Option Nat) : (rightNums base (t :: ids) root).obj t = some base ∧
      NumberOk h (rightNums base (t :: ids) root) (descGen t) base := by
  refine ⟨by simpa using rightNums_obj (base := base) (root := root) hd (j := 0) (i := t) rfl, ids,
    ⟨ids, [], by simpa using hb, rfl, by simp⟩, ?_⟩
  intro j i hj
  rw [rightNums_obj hd (j := j + 1) (by rw [List.getElem?_cons_succ]; exact hj)]
  congr 1; omega

theorem reach_climb {h : Heap} {t : Id} {tree : Node} (hr : Rep h none t tree) {i : Id} (hi : Reachable h [t] i) :
    (∃ p, h.xmlParent i = some p ∧ Reachable h [t] p) ∨ i = t ∧ h.xmlParent i = none := by
  cases hi with
  | root hm => rw [List.mem_singleton] at hm; subst hm; exact .inr ⟨rfl, (rep_children hr).1⟩
  | child hp hc => exact .inl ⟨_, (rep_reach hr hp).2.2 _ hc, hp⟩

theorem reach_hT {h : Heap} {t : Id} {tree : Node} (hr : Rep h none t tree) {ids : List Id}
    (hb : Below h (h.children t) ids) (hd : (t :: ids).Nodup) (root : Option Nat) : ∀ i, Reachable h [t] i →
      (∃ p, h.xmlParent i = some p ∧ Reachable h [t] p) ∨
      h.xmlParent i = none ∧ (rightNums 0 (t :: ids) root).obj i = some 0 ∧
        NumberOk h (rightNums 0 (t :: ids) root) (descGen i) 0 := by
  intro i hi
  rcases reach_climb hr hi with h1 | ⟨rfl, h2⟩
  · exact .inl h1
  · exact .inr ⟨h2, numberOk_top hb hd 0 root⟩

/-! ### evaluations that number the tree themselves -/

/-- An evaluation at a node that is never numbered. -/
def OwnOk (h : Heap) (order : List Id) (m : Numbers) (c : UCall) : Prop :=
  match c.phase with
  | .number g _ => ∃ l, Pending h g l ∧ ∀ i ∈ order, i ∉ l → (m.obj i).isSome
  | .read rest _ => (∀ i ∈ order, (m.obj i).isSome) ∧ ∀ x ∈ rest, x ∈ c.sel
  | .done r => r ≠ none
  | .docElem => False
  | .atRoot => False
  | _ => True

/-- Numbers are not taken away. -/
theorem ustep_keeps {h : Heap} {d : Id} {m : Numbers} {c : UCall} {i : Id} (hi : (m.obj i).isSome) :
    (((c.step h d m).1).obj i).isSome := by
  have hput : ∀ j k, ((m.put j k).obj i).isSome := by
    intro j k
    simp only [Numbers.put]
    split
    · rfl
    · exact hi
  obtain ⟨ctx, sel, ph⟩ := c
  cases ph with
  | fresh => exact hi
  | climb j => simp only [UCall.step]; cases h.xmlParent j with
    | none => exact hput _ _
    | some p => exact hi
  | atRoot => exact hi
  | docElem => exact hput _ _
  | number g k =>
    simp only [UCall.step]
    cases descNext h g with
    | none => exact hi
    | some p => obtain ⟨y, g'⟩ := p; exact hput _ _
  | read rest got =>
    cases rest with
    | nil => exact hi
    | cons x rest => simp only [UCall.step]; cases m.of x <;> exact hi
  | done r => exact hi

theorem ownOk_other {h : Heap} {d : Id} {order : List Id} {m : Numbers} {c c' : UCall} (hc : OwnOk h order m c') :
    OwnOk h order (c.step h d m).1 c' := by
  obtain ⟨ctx, sel, ph⟩ := c'
  cases ph with
  | number g k => obtain ⟨l, h1, h2⟩ := hc; exact ⟨l, h1, fun i hi hl => ustep_keeps (h2 i hi hl)⟩
  | read rest got => exact ⟨fun i hi => ustep_keeps (hc.1 i hi), hc.2⟩
  | done r => exact hc
  | fresh => trivial
  | climb i => trivial
  | atRoot => exact hc
  | docElem => exact hc

theorem ownOk_own {h : Heap} {d t : Id} {ids : List Id} {T : Id → Prop} {m : Numbers} {c : UCall}
    (hT : ∀ i, T i → (∃ p, h.xmlParent i = some p ∧ T p) ∨ i = t) (hb : Below h (h.children t) ids)
    (hctx : m.of c.ctx = none) (hroot : c.ctx ≠ .root) (hsel : ∀ x ∈ c.sel, ∃ i ∈ t :: ids, x = .obj i)
    (hcl : ∀ i, c.phase = .climb i → T i) (hc : OwnOk h (t :: ids) m c) :
    OwnOk h (t :: ids) (c.step h d m).1 (c.step h d m).2 := by
  obtain ⟨ctx, sel, ph⟩ := c
  cases ph with
  | fresh =>
    simp only at hctx
    simp only [UCall.step, hctx, Option.isSome_none, Bool.false_eq_true, if_false]
    cases ctx with
    | root => exact (hroot rfl).elim
    | obj i => trivial
    | attr e => trivial
  | climb i =>
    simp only [UCall.step]
    cases hp : h.xmlParent i with
    | some p => trivial
    | none =>
      rcases hT i (hcl i rfl) with ⟨p, h1, _⟩ | rfl
      · rw [h1] at hp; cases hp
      · refine ⟨ids, ⟨ids, [], by simpa using hb, rfl, by simp⟩, ?_⟩
        intro j hj hn
        rcases List.mem_cons.1 hj with rfl | hj
        · simp [Numbers.put]
        · exact (hn hj).elim
  | atRoot => exact hc.elim
  | docElem => exact hc.elim
  | number g k =>
    obtain ⟨l, h1, h2⟩ := hc
    simp only [UCall.step]
    rcases descNext_pending h _ g l (Nat.le_refl _) h1 with ⟨h3, rfl⟩ | ⟨y, g', l', h3, rfl, h4⟩
    · rw [h3]; exact ⟨fun i hi => h2 i hi (by simp), fun x hx => hx⟩
    · rw [h3]
      refine ⟨l', h4, ?_⟩
      intro i hi hn
      by_cases hy : i = y
      · simp [Numbers.put, hy]
      · simp only [Numbers.put, if_neg hy]
        exact h2 i hi (by simp [hy, hn])
  | read rest got =>
    obtain ⟨h1, h2⟩ := hc
    cases rest with
    | nil => simp [UCall.step, OwnOk]
    | cons x rest =>
      obtain ⟨i, hi, rfl⟩ := hsel x (h2 x (by simp))
      obtain ⟨k, hk⟩ := Option.isSome_iff_exists.1 (h1 i hi)
      simp only [UCall.step, Numbers.of, hk]
      exact ⟨h1, fun y hy => h2 y (by simp [hy])⟩
  | done r => exact hc

/-! ### every evaluation ends -/

/-- At most this many steps are left. -/
def StepsLeft (h : Heap) (t : Id) (size : Nat) (c : UCall) (n : Nat) : Prop :=
  match c.phase with
  | .fresh => match c.ctx with
    | .root => size + c.sel.length + 5 ≤ n
    | .obj i => ∃ k, upTimes h k i = some t ∧ k + size + c.sel.length + 4 ≤ n
    | .attr i => ∃ k, upTimes h k i = some t ∧ k + size + c.sel.length + 4 ≤ n
  | .climb i => ∃ k, upTimes h k i = some t ∧ k + size + c.sel.length + 3 ≤ n
  | .atRoot => size + c.sel.length + 4 ≤ n
  | .docElem => size + c.sel.length + 3 ≤ n
  | .number g _ => ∃ l, Pending h g l ∧ l.length + c.sel.length + 2 ≤ n
  | .read rest _ => rest.length + 1 ≤ n
  | .done _ => True

theorem stepsLeft_own {h : Heap} {t : Id} {ids : List Id} (ht : h.xmlParent t = none)
    (hb : Below h (h.children t) ids) (m : Numbers) (c : UCall) (n : Nat) (hc : StepsLeft h t ids.length c (n + 1)) :
    StepsLeft h t ids.length (c.step h t m).2 n := by
  have hp : Pending h (descGen t) ids := ⟨ids, [], by simpa using hb, rfl, by simp⟩
  obtain ⟨ctx, sel, ph⟩ := c
  cases ph with
  | fresh =>
    simp only [UCall.step]
    by_cases hs : (m.of ctx).isSome
    · rw [if_pos hs]
      cases ctx with
      | root => simp only [StepsLeft] at hc ⊢; omega
      | obj i => obtain ⟨k, _, h2⟩ := hc; simp only [StepsLeft]; simp only at h2; omega
      | attr i => obtain ⟨k, _, h2⟩ := hc; simp only [StepsLeft]; simp only at h2; omega
    · rw [if_neg hs]
      cases ctx with
      | root => simp only [StepsLeft, UPhase.start] at hc ⊢; omega
      | obj i => obtain ⟨k, h1, h2⟩ := hc; exact ⟨k, h1, by simp only at h2 ⊢; omega⟩
      | attr i => obtain ⟨k, h1, h2⟩ := hc; exact ⟨k, h1, by simp only at h2 ⊢; omega⟩
  | climb i =>
    obtain ⟨k, h1, h2⟩ := hc
    simp only at h2
    simp only [UCall.step]
    cases k with
    | zero =>
      cases h1
      rw [ht]
      exact ⟨ids, hp, by simp only; omega⟩
    | succ k =>
      rw [upTimes] at h1
      cases hx : h.xmlParent i with
      | none => rw [hx] at h1; cases h1
      | some p => rw [hx] at h1; exact ⟨k, h1, by simp only; omega⟩
  | atRoot => simp only [StepsLeft, UCall.step] at hc ⊢; omega
  | docElem =>
    simp only [StepsLeft] at hc
    exact ⟨ids, hp, by simp only [UCall.step]; omega⟩
  | number g k =>
    obtain ⟨l, h1, h2⟩ := hc
    simp only [UCall.step]
    rcases descNext_pending h _ g l (Nat.le_refl _) h1 with ⟨h3, rfl⟩ | ⟨y, g', l', h3, rfl, h4⟩
    · rw [h3]; simp only [StepsLeft]; simp only [List.length_nil] at h2; omega
    · rw [h3]; exact ⟨l', h4, by simp only [List.length_cons] at h2 ⊢; omega⟩
  | read rest got =>
    cases rest with
    | nil => trivial
    | cons x rest =>
      simp only [UCall.step]
      cases m.of x with
      | none => trivial
      | some k => simp only [StepsLeft, List.length_cons] at hc ⊢; omega
  | done r => trivial

theorem stepsLeft_zero {h : Heap} {t : Id} {size : Nat} {c : UCall} (hc : StepsLeft h t size c 0) :
    ∃ r, c.phase = .done r := by
  obtain ⟨ctx, sel, ph⟩ := c
  cases ph with
  | fresh => cases ctx <;> simp [StepsLeft] at hc
  | climb i => simp [StepsLeft] at hc
  | atRoot => simp [StepsLeft] at hc
  | docElem => simp [StepsLeft] at hc
  | number g k => simp [StepsLeft] at hc
  | read rest got => simp [StepsLeft] at hc
  | done r => exact ⟨r, rfl⟩

theorem udone_stays {h : Heap} {d : Id} (sched : List Nat) (w : UWorld) (k : Nat) {c : UCall} {r}
    (hk : w.calls[k]? = some c) (hr : c.phase = .done r) : (w.run h d sched).calls[k]? = some c := by
  induction sched generalizing w with
  | nil => exact hk
  | cons j sched ih =>
    refine ih (w.step h d j) ?_
    rw [UWorld.step]
    cases hj : w.calls[j]? with
    | none => exact hk
    | some c' =>
      simp only
      by_cases e : j = k
      · subst e
        rw [hk] at hj; cases hj
        have hl : j < w.calls.length := by
          rcases Nat.lt_or_ge j w.calls.length with h1 | h1
          · exact h1
          · rw [List.getElem?_eq_none h1] at hk; cases hk
        rw [List.getElem?_set_self hl]
        obtain ⟨ctx, sel, ph⟩ := c
        cases hr
        rfl
      · rw [List.getElem?_set_ne e]; exact hk

theorem stepsLeft_run {h : Heap} {t : Id} {ids : List Id} (ht : h.xmlParent t = none)
    (hb : Below h (h.children t) ids) : ∀ (sched : List Nat) (w : UWorld) (k : Nat) (c : UCall) (n : Nat),
      w.calls[k]? = some c → StepsLeft h t ids.length c n → n ≤ sched.count k →
      ∃ c' r, (w.run h t sched).calls[k]? = some c' ∧ c'.phase = .done r := by
  intro sched
  induction sched with
  | nil =>
    intro w k c n hk hs hn
    simp only [List.count_nil, Nat.le_zero] at hn
    subst hn
    obtain ⟨r, hr⟩ := stepsLeft_zero hs
    exact ⟨c, r, hk, hr⟩
  | cons j sched ih =>
    intro w k c n hk hs hn
    have hl : k < w.calls.length := by
      rcases Nat.lt_or_ge k w.calls.length with h1 | h1
      · exact h1
      · rw [List.getElem?_eq_none h1] at hk; cases hk
    cases n with
    | zero =>
      obtain ⟨r, hr⟩ := stepsLeft_zero hs
      exact ⟨c, r, udone_stays _ w k hk hr, hr⟩
    | succ n =>
      by_cases e : j = k
      · subst e
        rw [List.count_cons_self] at hn
        refine ih (w.step h t j) j (c.step h t w.nums).2 n ?_ (stepsLeft_own ht hb _ c n hs) (by omega)
        rw [UWorld.step, hk]
        exact List.getElem?_set_self hl
      · rw [List.count_cons_of_ne (fun h => e h)] at hn
        refine ih (w.step h t j) k c (n + 1) ?_ hs hn
        rw [UWorld.step]
        cases hj : w.calls[j]? with
        | none => exact hk
        | some c' => simp only; rw [List.getElem?_set_ne e]; exact hk

end Amara
