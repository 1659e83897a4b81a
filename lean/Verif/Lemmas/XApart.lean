import Verif.Spec.XApart
/-
Evaluation keeps to a set of objects that is closed under children and parents (C154).
-/
namespace Amara

variable {F : Type}

/-- The same results, all of them inside. -/
def Held (S : Id → Prop) (r r' : Mem.Res F) : Prop := r' = r ∧ ∀ y ∈ r.items, y.Inside S

section
variable (fo : FloatOps F) {S : Id → Prop} {h h' : Heap} (hs : Enclosed S h) (ha : SameOn S h h')

theorem held_empty {t : Tail} : Held S (⟨[], t⟩ : Mem.Res F) ⟨[], t⟩ := ⟨rfl, fun y hy => by cases hy⟩

theorem held_one {x : Mem.Item F} (hx : x.Inside S) : Held S (.one x) (.one x) :=
  ⟨rfl, fun y hy => by rw [List.mem_singleton.1 hy]; exact hx⟩

theorem held_append {a b a' b' : Mem.Res F} (h1 : Held S a a') (h2 : Held S b b') : Held S (a.append b) (a'.append b') := by
  obtain ⟨rfl, h1⟩ := h1
  obtain ⟨rfl, h2⟩ := h2
  refine ⟨rfl, fun y hy => ?_⟩
  unfold Mem.Res.append at hy
  split at hy
  · rcases List.mem_append.1 hy with hy | hy
    · exact h1 y hy
    · exact h2 y hy
  · exact h1 y hy

theorem held_bindList {f f' : Mem.Item F → Mem.Res F} (hf : ∀ x, x.Inside S → Held S (f x) (f' x)) (t : Tail) :
    ∀ {xs : List (Mem.Item F)}, (∀ x ∈ xs, x.Inside S) → Held S (Mem.Res.bindList f t xs) (Mem.Res.bindList f' t xs)
  | [], _ => held_empty
  | x :: xs, hx => held_append (hf x (hx x (List.mem_cons_self ..))) (held_bindList hf t fun y hy => hx y (List.mem_cons_of_mem _ hy))

theorem held_bind {a a' : Mem.Res F} {f f' : Mem.Item F → Mem.Res F} (h1 : Held S a a') (hf : ∀ x, x.Inside S → Held S (f x) (f' x)) :
    Held S (a.bind f) (a'.bind f') := by
  obtain ⟨rfl, h1⟩ := h1
  exact held_bindList hf _ h1

theorem held_need {a a' : Mem.Res F} {f f' : Mem.Item F → Mem.Res F} (h1 : Held S a a') (hf : ∀ x, x.Inside S → Held S (f x) (f' x)) :
    Held S (a.need f) (a'.need f') := by
  obtain ⟨rfl, h1⟩ := h1
  rcases a' with ⟨xs, t⟩
  cases xs with
  | nil => cases t <;> exact held_empty
  | cons x xs => exact hf x (h1 x (List.mem_cons_self ..))

theorem held_orDefault {a a' : Mem.Res F} {d : Mem.Item F} (hd : d.Inside S) {f f' : Mem.Item F → Mem.Res F} (h1 : Held S a a')
    (hf : ∀ x, x.Inside S → Held S (f x) (f' x)) : Held S (a.orDefault d f) (a'.orDefault d f') := by
  obtain ⟨rfl, h1⟩ := h1
  rcases a' with ⟨xs, t⟩
  cases xs with
  | nil => cases t <;> first | exact hf d hd | exact held_empty
  | cons x xs => exact hf x (h1 x (List.mem_cons_self ..))

section
include ha

theorem apart_textOf {x : Mem.Item F} (hx : x.Inside S) : x.textOf h' = x.textOf h := by
  cases x <;> first | rfl | simp only [Mem.Item.textOf, (ha _ hx).1]

theorem apart_strOf {x : Mem.Item F} (hx : x.Inside S) : x.strOf h' = x.strOf h := by
  cases x <;> first | rfl | exact apart_textOf ha hx

theorem apart_truthy {x : Mem.Item F} (hx : x.Inside S) : x.truthy fo h' = x.truthy fo h := by
  have := apart_strOf ha hx
  cases x <;> simp only [Mem.Item.truthy, this]

theorem apart_orElse {x y : Mem.Item F} (hx : x.Inside S) : x.orElse fo h' y = x.orElse fo h y := by
  unfold Mem.Item.orElse
  rw [apart_truthy fo ha hx]

theorem apart_nameOf {x : Mem.Item F} (hx : x.Inside S) : x.nameOf h' = x.nameOf h := by
  cases x <;> first | rfl | simp only [Mem.Item.nameOf, (ha _ hx).1]

theorem apart_toBool {x : Mem.Item F} (hx : x.Inside S) : x.toBool fo h' = x.toBool fo h := by
  have := apart_strOf ha hx
  cases x <;> simp only [Mem.Item.toBool, this]

theorem apart_pyEq {x y : Mem.Item F} (hx : x.Inside S) (hy : y.Inside S) : x.pyEq fo h' y = x.pyEq fo h y := by
  unfold Mem.Item.pyEq
  rw [apart_strOf ha hx, apart_strOf ha hy]

theorem apart_pyRel {x y : Mem.Item F} (op : Rel) (hx : x.Inside S) (hy : y.Inside S) : x.pyRel fo h' op y = x.pyRel fo h op y := by
  unfold Mem.Item.pyRel
  rw [apart_strOf ha hx, apart_strOf ha hy]

theorem apart_children {i : Id} (hi : S i) : h'.children i = h.children i := by
  simp only [Heap.children, (ha i hi).1]

theorem apart_isElemB {i : Id} (hi : S i) : h'.isElemB i = h.isElemB i := by
  simp only [Heap.isElemB, (ha i hi).1]

theorem apart_compute (t : Test) {x : Mem.Item F} (hx : x.Inside S) : Mem.compute h' t x = Mem.compute h t x := by
  cases t with
  | star => rfl
  | name n =>
    cases x <;> first | rfl | skip
    simp only [Mem.compute, (ha _ hx).1]
  | node => simp only [Mem.compute, apart_strOf ha hx]
  | text => simp only [Mem.compute, apart_strOf ha hx]

end

theorem orElse_inside {x y : Mem.Item F} (hx : x.Inside S) (hy : y.Inside S) : (x.orElse fo h y).Inside S := by
  unfold Mem.Item.orElse
  split
  · exact hx
  · exact hy

theorem compute_inside {t : Test} {x : Mem.Item F} (hx : x.Inside S) : ∀ y ∈ Mem.compute h t x, y.Inside S := by
  have h1 : ∀ y ∈ [x], y.Inside S := fun y hy => by rw [List.mem_singleton.1 hy]; exact hx
  have h2 : ∀ y ∈ ([] : List (Mem.Item F)), y.Inside S := fun y hy => by cases hy
  unfold Mem.compute
  repeat' split
  all_goals first | exact h1 | exact h2

theorem map_obj_inside {is : List Id} (hi : ∀ i ∈ is, S i) : ∀ x ∈ (is.map .obj : List (Mem.Item F)), x.Inside S := by
  intro x hx
  obtain ⟨i, h1, rfl⟩ := List.mem_map.1 hx
  exact hi i h1

section
include ha

theorem held_visit (t : Test) {x : Mem.Item F} (hx : x.Inside S) {cs : List (Mem.Item F)} (hc : ∀ c ∈ cs, c.Inside S) (tl : Tail) :
    Held S ⟨Mem.visit fo h t x cs, tl⟩ ⟨Mem.visit fo h' t x cs, tl⟩ := by
  constructor
  · have : Mem.visit fo h' t x cs = Mem.visit fo h t x cs := by
      unfold Mem.visit
      induction cs with
      | nil => rfl
      | cons c cs ih =>
        have hcc := hc c (List.mem_cons_self ..)
        rw [List.flatMap_cons, List.flatMap_cons, apart_orElse fo ha hcc, apart_compute ha t (orElse_inside fo hcc hx),
          ih fun c hh => hc c (List.mem_cons_of_mem _ hh)]
    rw [this]
  · intro y hy
    obtain ⟨c, h1, h2⟩ := List.mem_flatMap.1 hy
    exact compute_inside (orElse_inside fo (hc c h1) hx) y h2

theorem held_compute (t : Test) {x : Mem.Item F} (hx : x.Inside S) : Held S ⟨Mem.compute h t x, .done⟩ ⟨Mem.compute h' t x, .done⟩ :=
  ⟨by rw [apart_compute ha t hx], compute_inside hx⟩

include hs

theorem apart_walk : ∀ (n : Nat) {is : List Id}, (∀ i ∈ is, S i) → Mem.walk h' n is = Mem.walk h n is ∧ ∀ i ∈ (Mem.walk h n is).1, S i
  | 0, [], _ => ⟨rfl, fun i hi => by cases hi⟩
  | n + 1, [], _ => ⟨rfl, fun i hi => by cases hi⟩
  | 0, _ :: _, _ => ⟨rfl, fun i hi => by cases hi⟩
  | n + 1, i :: r, hi => by
    have hi0 := hi i (List.mem_cons_self ..)
    obtain ⟨h1, h2⟩ := apart_walk n (is := h.children i ++ r) fun j hj => by
      rcases List.mem_append.1 hj with hj | hj
      · exact (hs i hi0).1 j hj
      · exact hi j (List.mem_cons_of_mem _ hj)
    simp only [Mem.walk, apart_children ha hi0, h1, true_and]
    intro j hj
    rcases List.mem_cons.1 hj with rfl | hj
    · exact hi0
    · exact h2 j hj

theorem apart_climb : ∀ (n : Nat) {o : Option Id}, (∀ i, o = some i → S i) →
    Mem.climb h' n o = Mem.climb h n o ∧ ∀ i ∈ (Mem.climb h n o).1, S i
  | 0, none, _ => ⟨rfl, fun i hi => by cases hi⟩
  | n + 1, none, _ => ⟨rfl, fun i hi => by cases hi⟩
  | 0, some _, _ => ⟨rfl, fun i hi => by cases hi⟩
  | n + 1, some i, hi => by
    have hi0 := hi i rfl
    obtain ⟨h1, h2⟩ := apart_climb n (o := h.xmlParent i) (hs i hi0).2
    simp only [Mem.climb, (ha i hi0).2, h1, true_and]
    intro j hj
    rcases List.mem_cons.1 hj with rfl | hj
    · exact hi0
    · exact h2 j hj

theorem apart_topOf : ∀ (n : Nat) {i : Id}, S i → topOf h' n i = topOf h n i ∧ ∀ t, topOf h n i = some t → S t
  | 0, i, hi => by
    unfold topOf
    rw [(ha i hi).2]
    cases h.xmlParent i with
    | none => exact ⟨rfl, fun t ht => by cases ht; exact hi⟩
    | some p => exact ⟨rfl, fun t ht => by cases ht⟩
  | n + 1, i, hi => by
    unfold topOf
    rw [(ha i hi).2]
    cases hp : h.xmlParent i with
    | none => exact ⟨rfl, fun t ht => by cases ht; exact hi⟩
    | some p => exact apart_topOf n ((hs i hi).2 p hp)

theorem held_getRoot (k : Nat) {x : Mem.Item F} (hx : x.Inside S) : Held S (x.getRoot h k) (x.getRoot h' k) := by
  cases x <;> simp only [Mem.Item.getRoot] <;> try exact held_empty
  · exact held_one hx
  · rename_i i
    obtain ⟨h1, h2⟩ := apart_topOf hs ha k hx
    rw [apart_isElemB ha hx, h1]
    split
    · cases ht : topOf h k i with
      | none => exact held_empty
      | some t => exact held_one (x := .root t) (h2 t ht)
    · exact held_empty

omit hs in
theorem apart_up {x : Mem.Item F} (hx : x.Inside S) : x.up h' = x.up h := by
  cases x <;> first | rfl | skip
  · simp only [Mem.Item.up, (ha _ hx).2]
  · simp only [Mem.Item.up, Heap.deref, (ha _ hx).1]

omit ha in
theorem up_inside {x : Mem.Item F} (hx : x.Inside S) {o : Option Id} (ho : x.up h = some o) : ∀ i, o = some i → S i := by
  rintro i rfl
  cases x <;> simp only [Mem.Item.up, Option.some.injEq, reduceCtorEq] at ho
  · exact (hs _ hx).2 i ho
  · simp only [Heap.deref] at ho
    split at ho
    · cases ho; exact hx
    · cases ho

omit hs in
theorem apart_kids {x : Mem.Item F} (hx : x.Inside S) : x.kids h' = x.kids h := by
  cases x <;> first | rfl | simp only [Mem.Item.kids, (ha _ hx).1]

omit ha in
theorem kids_inside {x : Mem.Item F} (hx : x.Inside S) {cs : List Id} (hk : x.kids h = some cs) : ∀ i ∈ cs, S i := by
  cases x with
  | root t =>
    cases hk
    intro i hi
    rw [List.mem_singleton.1 hi]
    exact hx
  | obj j =>
    intro i hi
    refine (hs j hx).1 i ?_
    simp only [Mem.Item.kids] at hk
    simp only [Heap.children, hk, Option.getD_some]
    exact hi
  | _ => cases hk

theorem apart_siblings {x : Mem.Item F} (hx : x.Inside S) : x.siblings h' = x.siblings h ∧
    ∀ cs ix, x.siblings h = .at cs ix → ∀ i ∈ cs, S i := by
  cases x with
  | obj i =>
    simp only [Mem.Item.siblings, (ha i hx).2]
    cases hp : h.xmlParent i with
    | none => exact ⟨rfl, fun cs ix hh => by cases hh⟩
    | some p =>
      have hp' := (hs i hx).2 p hp
      have hf : (h.children p).findIdx? (h'.pyEq i) = (h.children p).findIdx? (h.pyEq i) := by
        have hc := (hs p hp').1
        revert hc
        generalize h.children p = cs
        intro hc
        induction cs with
        | nil => rfl
        | cons c cs ih =>
          have : h'.pyEq i c = h.pyEq i c := by
            unfold Heap.pyEq
            rw [(ha i hx).1, (ha c (hc c (List.mem_cons_self ..))).1]
          rw [List.findIdx?_cons, List.findIdx?_cons, this, ih fun c hh => hc c (List.mem_cons_of_mem _ hh)]
      simp only [apart_children ha hp', hf, true_and]
      cases (h.children p).findIdx? (h.pyEq i) with
      | none => exact fun cs ix hh => by cases hh
      | some ix => exact fun cs ix' hh => by cases hh; exact (hs p hp').1
  | attr e a v =>
    simp only [Mem.Item.siblings, Heap.deref, (ha _ hx).1, true_and]
    intro cs ix hh
    split at hh <;> cases hh
  | _ => exact ⟨rfl, fun cs ix hh => by cases hh⟩

/-- Steps. -/
theorem held_step (k n : Nat) (a : Axis) (t : Test) {x : Mem.Item F} (hx : x.Inside S) :
    Held S (Mem.stepRes fo h k n a t x) (Mem.stepRes fo h' k n a t x) := by
  have hroot := held_getRoot hs ha k hx
  have hwalk : ∀ {is : List Id}, (∀ i ∈ is, S i) →
      Held S ⟨Mem.visit fo h t x ((Mem.walk h k is).1.map .obj), Mem.tailOf (Mem.walk h k is).2⟩
        ⟨Mem.visit fo h' t x ((Mem.walk h' k is).1.map .obj), Mem.tailOf (Mem.walk h' k is).2⟩ := by
    intro is hi
    obtain ⟨h1, h2⟩ := apart_walk hs ha k hi
    rw [h1]
    exact held_visit fo ha t hx (map_obj_inside h2) _
  obtain ⟨hsib, hsin⟩ := apart_siblings hs ha hx
  cases a with
  | self => exact held_compute ha t hx
  | child =>
    simp only [Mem.stepRes, apart_kids ha hx]
    cases hk : x.kids h with
    | none => exact held_empty
    | some cs =>
      have hc := kids_inside hs hx hk
      have hfil : cs.filter h'.isElemB = cs.filter h.isElemB := List.filter_congr fun i hi => apart_isElemB ha (hc i hi)
      simp only [hfil]
      refine held_visit fo ha t hx (map_obj_inside ?_) _
      intro i hi
      split at hi
      · exact hc i (List.mem_filter.1 hi).1
      · exact hc i hi
  | «attribute» =>
    simp only [Mem.stepRes]
    cases x with
    | obj i =>
      simp only [(ha i hx).1]
      cases h.obj i with
      | none => exact held_empty
      | some o =>
        cases o with
        | text _ _ => exact held_empty
        | elem m as cs q =>
          refine ⟨rfl, fun y hy => ?_⟩
          obtain ⟨kv, _, rfl⟩ := List.mem_map.1 hy
          exact hx
    | _ => exact held_empty
  | ancestor =>
    simp only [Mem.stepRes, apart_up ha hx]
    cases hu : x.up h with
    | none => exact held_empty
    | some y =>
      obtain ⟨h1, h2⟩ := apart_climb hs ha k (up_inside hs hx hu)
      simp only [h1]
      exact held_append (held_visit fo ha t hx (map_obj_inside h2) _) hroot
  | ancestorOrSelf =>
    simp only [Mem.stepRes, apart_up ha hx]
    refine held_append (held_compute ha t hx) ?_
    cases hu : x.up h with
    | none => exact held_empty
    | some y =>
      cases y with
      | none => exact held_empty
      | some i =>
        refine held_visit fo ha t hx ?_ _
        intro c hc
        rw [(List.mem_replicate.1 hc).2]
        exact up_inside hs hx hu i rfl
  | descendant =>
    simp only [Mem.stepRes, apart_kids ha hx]
    cases hk : x.kids h with
    | none => exact held_empty
    | some cs => exact hwalk (kids_inside hs hx hk)
  | descendantOrSelf =>
    simp only [Mem.stepRes, apart_kids ha hx]
    refine held_append (held_compute ha t hx) ?_
    cases hk : x.kids h with
    | none => exact held_empty
    | some cs => exact hwalk (kids_inside hs hx hk)
  | following =>
    simp only [Mem.stepRes, hsib]
    cases hh : x.siblings h with
    | noParent => exact held_empty
    | fail e => exact held_empty
    | «at» cs i => exact hwalk fun j hj => hsin cs i hh j (List.mem_of_mem_drop hj)
  | followingSibling =>
    simp only [Mem.stepRes, hsib]
    cases hh : x.siblings h with
    | noParent => exact held_empty
    | fail e => exact held_empty
    | «at» cs i => exact held_visit fo ha t hx (map_obj_inside fun j hj => hsin cs i hh j (List.mem_of_mem_drop hj)) _
  | parent =>
    simp only [Mem.stepRes, apart_up ha hx]
    cases hu : x.up h with
    | none => exact held_empty
    | some y =>
      cases y with
      | none => exact hroot
      | some i =>
        refine held_visit fo ha t hx ?_ _
        intro c hc
        rw [List.mem_singleton.1 hc]
        exact up_inside hs hx hu i rfl
  | preceding =>
    simp only [Mem.stepRes, hsib]
    cases x.siblings h <;> exact held_empty
  | precedingSibling =>
    simp only [Mem.stepRes, hsib]
    cases hh : x.siblings h with
    | noParent => exact held_empty
    | fail e => exact held_empty
    | «at» cs i =>
      refine held_visit fo ha t hx (map_obj_inside fun j hj => hsin cs i hh j ?_) _
      exact List.mem_of_mem_take (List.mem_reverse.1 hj)

/-! ### values, comparisons, unions -/

theorem apart_value : ∀ (n : Nat) {i : Id}, S i → Mem.value h' n i = Mem.value h n i
  | 0, _, _ => rfl
  | n + 1, i, hi => by
    simp only [Mem.value, (ha i hi).1]
    cases ho : h.obj i with
    | none => rfl
    | some o =>
      cases o with
      | text _ _ => rfl
      | elem m as cs q =>
        have hc : ∀ c ∈ cs, S c := fun c hc => (hs i hi).1 c (by simp only [Heap.children, ho]; exact hc)
        clear ho
        simp only []
        induction cs with
        | nil => rfl
        | cons c cs ih =>
          rw [List.flatMap_cons, List.flatMap_cons, apart_value n (hc c (List.mem_cons_self ..)),
            ih fun d hd => hc d (List.mem_cons_of_mem _ hd)]

theorem apart_strval (k : Nat) {x : Mem.Item F} (hx : x.Inside S) : x.strval h' k = x.strval h k := by
  cases x <;> first | rfl | exact apart_value hs ha k hx

theorem apart_toStr (k : Nat) {x : Mem.Item F} (hx : x.Inside S) : x.toStr fo h' k = x.toStr fo h k := by
  have := apart_strval hs ha k hx
  cases x <;> first | rfl | exact this

theorem held_toStrItem (k : Nat) {x : Mem.Item F} (hx : x.Inside S) : Held S (.one (x.toStrItem fo h k)) (.one (x.toStrItem fo h' k)) := by
  unfold Mem.Item.toStrItem
  rw [apart_strOf ha hx, apart_toStr fo hs ha k hx]
  split
  · exact held_one hx
  · exact held_one trivial

theorem held_toNum (k : Nat) {x : Mem.Item F} (hx : x.Inside S) : Held S (x.toNum fo h k) (x.toNum fo h' k) := by
  have ht := apart_toStr fo hs ha k hx
  have hp : Held S (match fo.parse (x.toStr fo h k) with | some f => Mem.Res.one (.float f) | none => .fail .value)
      (match fo.parse (x.toStr fo h' k) with | some f => .one (.float f) | none => .fail .value) := by
    rw [ht]
    cases fo.parse (x.toStr fo h k)
    · exact held_empty
    · exact held_one trivial
  cases x <;> first | exact held_one trivial | exact hp

theorem apart_atom (k : Nat) {x : Mem.Item F} (hx : x.Inside S) : x.atom h' k = x.atom h k ∧ (x.atom h k).Inside S := by
  unfold Mem.Item.atom
  rw [apart_strval hs ha k hx]
  refine ⟨rfl, ?_⟩
  split
  · trivial
  · exact hx

omit hs in
theorem apart_eqLoop {i : Mem.Item F} (hi : i.Inside S) (t : Tail) : ∀ {xs : List (Mem.Item F)}, (∀ x ∈ xs, x.Inside S) →
    Mem.eqLoop fo h' i t xs = Mem.eqLoop fo h i t xs
  | [], _ => rfl
  | x :: xs, hx => by
    simp only [Mem.eqLoop, apart_pyEq fo ha hi (hx x (List.mem_cons_self ..)),
      apart_eqLoop hi t fun y hy => hx y (List.mem_cons_of_mem _ hy)]

theorem held_eq (k : Nat) {l r l' r' : Mem.Res F} (hl : Held S l l') (hrr : Held S r r') :
    Held S (Mem.eqRes fo h k l r) (Mem.eqRes fo h' k l' r') := by
  obtain ⟨rfl, hl⟩ := hl
  obtain ⟨rfl, hrr⟩ := hrr
  rcases l' with ⟨xs, tl⟩
  cases xs with
  | nil =>
    simp only [Mem.eqRes]
    split
    · exact held_one trivial
    · exact held_empty
  | cons x xs =>
    obtain ⟨h1, h2⟩ := apart_atom hs ha k (hl x (List.mem_cons_self ..))
    simp only [Mem.eqRes, h1]
    rw [apart_eqLoop fo ha h2 _ hrr]
    cases Mem.eqLoop fo h (x.atom h k) r'.tail r'.items with
    | inl b => exact held_one trivial
    | inr t =>
      cases t
      · simp only []
        split
        · exact held_one trivial
        · exact held_empty
      all_goals exact held_empty

theorem apart_descNext : ∀ (n : Nat) (g : DescGen), genWork h g ≤ n → (∀ f ∈ g, S f.1) → descNext h' g = descNext h g ∧
    ∀ y g', descNext h g = some (y, g') → S y ∧ ∀ f ∈ g', S f.1 := by
  intro n
  induction n with
  | zero =>
    intro g hn hg
    cases g with
    | nil => unfold descNext; exact ⟨rfl, fun y g' hh => by cases hh⟩
    | cons f g =>
      simp [genWork] at hn
  | succ n ih =>
    intro g hn hg
    cases g with
    | nil => unfold descNext; exact ⟨rfl, fun y g' hh => by cases hh⟩
    | cons f st =>
      obtain ⟨e, j⟩ := f
      have he : S e := hg (e, j) (List.mem_cons_self ..)
      have hst : ∀ f ∈ st, S f.1 := fun f hf => hg f (List.mem_cons_of_mem _ hf)
      have hw : genWork h ((e, j) :: st) = ((h.children e).length - j + 1) + genWork h st := by
        simp [genWork]
      have e1 : descNext h ((e, j) :: st) = match (h.children e)[j]? with
          | none => descNext h st
          | some c => if h.isElemB c then some (c, (c, 0) :: (e, j + 1) :: st) else descNext h ((e, j + 1) :: st) := by
        rw [descNext]
        split <;> rename_i hh <;> simp only [hh]
      have e2 : descNext h' ((e, j) :: st) = match (h.children e)[j]? with
          | none => descNext h' st
          | some c => if h'.isElemB c then some (c, (c, 0) :: (e, j + 1) :: st) else descNext h' ((e, j + 1) :: st) := by
        rw [descNext]
        split <;> rename_i hh <;> rw [apart_children ha he] at hh <;> simp only [hh]
      rw [e1, e2]
      cases hc : (h.children e)[j]? with
      | none => exact ih st (by omega) hst
      | some c =>
        have hSc : S c := (hs e he).1 c (List.mem_of_getElem? hc)
        have hlt : j < (h.children e).length := (List.getElem?_eq_some_iff.1 hc).1
        have hst' : ∀ f ∈ (e, j + 1) :: st, S f.1 := by
          intro f hf
          rcases List.mem_cons.1 hf with rfl | hf
          · exact he
          · exact hst f hf
        simp only [apart_isElemB ha hSc]
        split
        · refine ⟨rfl, fun y g' hh => ?_⟩
          cases hh
          refine ⟨hSc, fun f hf => ?_⟩
          rcases List.mem_cons.1 hf with rfl | hf
          · exact hSc
          · exact hst' f hf
        · refine ih ((e, j + 1) :: st) ?_ hst'
          have : genWork h ((e, j + 1) :: st) = ((h.children e).length - (j + 1) + 1) + genWork h st := by simp [genWork]
          omega

theorem apart_numberRest : ∀ (n : Nat) (g : DescGen) (b : Nat) (m : Numbers), (∀ f ∈ g, S f.1) →
    numberRest h' n g b m = numberRest h n g b m
  | 0, g, b, m, hg => by
    obtain ⟨h1, _⟩ := apart_descNext hs ha _ g (Nat.le_refl _) hg
    unfold numberRest
    rw [h1]
  | n + 1, g, b, m, hg => by
    obtain ⟨h1, h2⟩ := apart_descNext hs ha _ g (Nat.le_refl _) hg
    unfold numberRest
    rw [h1]
    cases hd : descNext h g with
    | none => rfl
    | some yg => exact apart_numberRest n yg.2 (b + 1) _ (h2 yg.1 yg.2 hd).2

theorem apart_numbers (k : Nat) {x : Mem.Item F} (hx : x.Inside S) : x.numbers h' k = x.numbers h k := by
  have h0 : ∀ {t : Id}, S t → ∀ f ∈ descGen t, S f.1 := by
    intro t ht f hf
    rw [List.mem_singleton.1 hf]
    exact ht
  have hobj : ∀ {i : Id} {m : Numbers}, S i → ((topOf h' k i).bind fun t => numberRest h' k (descGen t) 0 (m.put t 0)) =
      (topOf h k i).bind fun t => numberRest h k (descGen t) 0 (m.put t 0) := by
    intro i m hi
    obtain ⟨h1, h2⟩ := apart_topOf hs ha k hi
    rw [h1]
    cases ht : topOf h k i with
    | none => rfl
    | some t => exact apart_numberRest hs ha k (descGen t) 0 _ (h0 (h2 t ht))
  cases x with
  | root t => exact apart_numberRest hs ha k (descGen t) 1 _ (h0 hx)
  | obj i => exact hobj hx
  | attr e a v => exact hobj hx
  | _ => rfl

omit hs ha in
theorem sorted_inside {ks : List (Nat × Mem.Item F)} (hk : ∀ y ∈ ks, y.2.Inside S) :
    ∀ y ∈ (ks.foldl (fun acc kx => insertNum kx.1 kx.2 acc) []).map (·.2), y.Inside S := by
  have hins : ∀ (b : Nat) (x : Mem.Item F) (acc : List (Nat × Mem.Item F)), x.Inside S → (∀ y ∈ acc, y.2.Inside S) →
      ∀ y ∈ insertNum b x acc, y.2.Inside S := by
    intro b x acc hx
    induction acc with
    | nil =>
      intro _ y hy
      rw [List.mem_singleton.1 hy]
      exact hx
    | cons a acc ih =>
      intro hacc y hy
      simp only [insertNum] at hy
      split at hy
      · rcases List.mem_cons.1 hy with rfl | hy
        · exact hacc _ (List.mem_cons_self ..)
        · exact ih (fun z hz => hacc z (List.mem_cons_of_mem _ hz)) y hy
      · rcases List.mem_cons.1 hy with rfl | hy
        · exact hx
        · exact hacc y hy
  have : ∀ (ks acc : List (Nat × Mem.Item F)), (∀ y ∈ ks, y.2.Inside S) → (∀ y ∈ acc, y.2.Inside S) →
      ∀ y ∈ ks.foldl (fun acc kx => insertNum kx.1 kx.2 acc) acc, y.2.Inside S := by
    intro ks
    induction ks with
    | nil => intro acc _ h2; exact h2
    | cons a ks ih =>
      intro acc h1 h2
      exact ih _ (fun y hy => h1 y (List.mem_cons_of_mem _ hy)) (hins _ _ _ (h1 a (List.mem_cons_self ..)) h2)
  intro y hy
  obtain ⟨z, h1, rfl⟩ := List.mem_map.1 hy
  exact this ks [] hk (fun y hy => by cases hy) z h1

omit hs ha in
theorem mapM_inside {g : Mem.Item F → Option Nat} : ∀ {xs : List (Mem.Item F)} {ks : List (Nat × Mem.Item F)}, (∀ x ∈ xs, x.Inside S) →
    (xs.mapM fun y : Mem.Item F => (g y).map fun a => (a, y)) = some ks → ∀ y ∈ ks, y.2.Inside S
  | [], ks, _, hk => by cases hk; intro y hy; cases hy
  | x :: xs, ks, hx, hk => by
    rw [List.mapM_cons] at hk
    cases hg : g x with
    | none => rw [hg] at hk; cases hk
    | some a =>
      cases hm : (xs.mapM fun y : Mem.Item F => (g y).map fun a => (a, y)) with
      | none => rw [hg, hm] at hk; cases hk
      | some ks' =>
        rw [hg, hm] at hk
        cases hk
        intro y hy
        rcases List.mem_cons.1 hy with rfl | hy
        · exact hx x (List.mem_cons_self ..)
        · exact mapM_inside (fun z hz => hx z (List.mem_cons_of_mem _ hz)) hm y hy

theorem held_union (k : Nat) {x : Mem.Item F} (hx : x.Inside S) {l r l' r' : Mem.Res F} (hl : Held S l l') (hrr : Held S r r') :
    Held S (Mem.unionRes h k x l r) (Mem.unionRes h' k x l' r') := by
  obtain ⟨rfl, hl⟩ := hl
  obtain ⟨rfl, hrr⟩ := hrr
  unfold Mem.unionRes
  rw [apart_numbers hs ha k hx]
  split
  · cases x.numbers h k with
    | none => exact held_empty
    | some m =>
      simp only []
      cases l'.tail <;> cases r'.tail <;> try exact held_empty
      simp only []
      cases hm : (l'.items ++ r'.items).mapM fun y : Mem.Item F => (x.order m y).map fun c => (c, y) with
      | none => exact held_empty
      | some ks =>
        refine ⟨rfl, sorted_inside (mapM_inside ?_ hm)⟩
        intro y hy
        rcases List.mem_append.1 hy with hy | hy
        · exact hl y hy
        · exact hrr y hy
  · exact held_empty

/-! ### predicates and functions -/

omit hs in
theorem apart_pred (pos : Nat) {r r' : Mem.Res F} (hr : Held S r r') : Mem.predHolds fo h' pos r' = Mem.predHolds fo h pos r := by
  obtain ⟨rfl, hr⟩ := hr
  rcases r' with ⟨xs, t⟩
  cases xs with
  | nil => cases t <;> rfl
  | cons x xs =>
    simp only [Mem.predHolds, Mem.Res.first]
    have := apart_toBool fo ha (hr x (List.mem_cons_self ..))
    cases x <;> simp only [] at * <;> first | rw [this] | rfl

omit hs ha in
theorem held_predLoop {f f' : Nat → Mem.Item F → Bool ⊕ Tail} (hf : ∀ pos x, x.Inside S → f' pos x = f pos x) (t : Tail) :
    ∀ {xs : List (Mem.Item F)}, (∀ x ∈ xs, x.Inside S) → ∀ pos, Held S (Mem.predLoop f t pos xs) (Mem.predLoop f' t pos xs)
  | [], _, _ => held_empty
  | x :: xs, hx, pos => by
    have hx0 := hx x (List.mem_cons_self ..)
    simp only [Mem.predLoop, hf pos x hx0]
    cases f pos x with
    | inr t => exact held_empty
    | inl b =>
      obtain ⟨h1, h2⟩ := held_predLoop hf t (fun y hy => hx y (List.mem_cons_of_mem _ hy)) (pos + 1)
      cases b with
      | false => exact ⟨h1, h2⟩
      | true =>
        simp only [h1]
        refine ⟨rfl, fun y hy => ?_⟩
        rcases List.mem_cons.1 hy with rfl | hy
        · exact hx0
        · exact h2 y hy

theorem held_strArg (k : Nat) {a a' : Mem.Res F} {f f' : Str → Mem.Res F} (h1 : Held S a a') (hf : ∀ s, Held S (f s) (f' s)) :
    Held S (Mem.strArg fo h k a f) (Mem.strArg fo h' k a' f') := by
  refine held_orDefault (d := .bool false) trivial h1 fun x hx => ?_
  rw [apart_toStr fo hs ha k hx]
  exact hf _

omit hs ha in
theorem ofLit_inside (y : Item F) : (Mem.ofLit y).Inside S := by
  cases y <;> trivial

theorem held_intArg (k : Nat) (e : Expr F) {f f' : Int → Mem.Res F} (hf : ∀ i, Held S (f i) (f' i)) :
    Held S (Mem.intArg fo h k e f) (Mem.intArg fo h' k e f') := by
  unfold Mem.intArg
  cases e with
  | lit x =>
    simp only []
    refine held_need (held_toNum fo hs ha k (ofLit_inside x)) fun v hv => ?_
    cases v <;> simp only [] <;> try exact held_empty
    · exact hf _
    · cases fo.trunc _
      · exact held_empty
      · exact hf _
    · exact hf _
  | _ => exact held_empty

/-- What the arguments of a function yield. -/
inductive HeldAll (S : Id → Prop) : List (Mem.Res F) → List (Mem.Res F) → Prop
  | nil : HeldAll S [] []
  | cons {a a' rs rs'} : Held S a a' → HeldAll S rs rs' → HeldAll S (a :: rs) (a' :: rs')

theorem held_str2 (k : Nat) {f f' : Str → Str → Mem.Res F} (hf : ∀ s u, Held S (f s u) (f' s u)) {rs rs' : List (Mem.Res F)}
    (hrs : HeldAll S rs rs') : Held S (Mem.fnStr2 fo h k f rs) (Mem.fnStr2 fo h' k f' rs') := by
  unfold Mem.fnStr2
  cases hrs with
  | nil => exact held_empty
  | cons h1 hrs =>
    cases hrs with
    | nil => exact held_empty
    | cons h2 hrs =>
      cases hrs with
      | nil => exact held_strArg fo hs ha k h1 fun s => held_strArg fo hs ha k h2 fun u => hf s u
      | cons _ _ => exact held_empty

omit hs ha in
theorem held_args {g g' : List (Mem.Res F) → Mem.Res F} (h0 : Held S (g []) (g' [])) (h1 : ∀ a a', Held S a a' → Held S (g [a]) (g' [a']))
    (h2 : ∀ a b l a' b' l', Held S (g (a :: b :: l)) (g' (a' :: b' :: l'))) {rs rs' : List (Mem.Res F)} (hrs : HeldAll S rs rs') :
    Held S (g rs) (g' rs') := by
  cases hrs with
  | nil => exact h0
  | cons ha hrs =>
    cases hrs with
    | nil => exact h1 _ _ ha
    | cons _ _ => exact h2 _ _ _ _ _ _

omit hs ha in
theorem heldAll_length {rs rs' : List (Mem.Res F)} (h : HeldAll S rs rs') : rs'.length = rs.length := by
  induction h with
  | nil => rfl
  | cons _ _ ih => simp only [List.length_cons, ih]

omit hs ha in
theorem held_appendAll {rs rs' : List (Mem.Res F)} (h : HeldAll S rs rs') :
    Held S (rs.foldr Mem.Res.append Mem.Res.nil) (rs'.foldr Mem.Res.append Mem.Res.nil) := by
  induction h with
  | nil => exact held_empty
  | cons h1 _ ih => exact held_append h1 ih

/-- What an expression given as a text gives in the two memories. -/
def HeldDyn (S : Id → Prop) (d d' : Except XErr (Mem.Item F → Mem.Res F)) : Prop :=
  (∃ e, d = .error e ∧ d' = .error e) ∨ ∃ g g', d = .ok g ∧ d' = .ok g' ∧ ∀ x, x.Inside S → Held S (g x) (g' x)

theorem held_call (k : Nat) {dyn dyn' : Str → Except XErr (Mem.Item F → Mem.Res F)} (hdyn : ∀ s, HeldDyn S (dyn s) (dyn' s))
    {x : Mem.Item F} (hx : x.Inside S) (m : Str) (es : List (Expr F)) {rs rs' : List (Mem.Res F)} (hrs : HeldAll S rs rs') :
    Held S (Mem.callFn fo h k dyn x m es rs) (Mem.callFn fo h' k dyn' x m es rs') := by
  have hf : ∀ {t : Tail}, Held S (⟨[], t⟩ : Mem.Res F) ⟨[], t⟩ := held_empty
  have hb : ∀ b : Bool, Held S (.one (.bool b) : Mem.Res F) (.one (.bool b)) := fun b => held_one trivial
  have hst : ∀ s : Str, Held S (.one (.str s) : Mem.Res F) (.one (.str s)) := fun b => held_one trivial
  have hi : ∀ i : Int, Held S (.one (.int i) : Mem.Res F) (.one (.int i)) := fun b => held_one trivial
  have hconst : ∀ {r : Mem.Res F}, Held S r r → Held S (Mem.fnConst r rs) (Mem.fnConst r rs') := by
    intro r hr
    unfold Mem.fnConst
    cases hrs with
    | nil => exact hr
    | cons _ _ => exact hf
  have hpart : ∀ u c : Str, Held S (if u = [] then .fail .value else .one (.str c) : Mem.Res F)
      (if u = [] then .fail .value else .one (.str c)) := by
    intro u c
    split
    · exact hf
    · exact hst _
  unfold Mem.callFn
  by_cases hc0 : m = "name".toList
  · rw [if_pos hc0, if_pos hc0]
    refine held_args ?_ (fun a a' h1 => held_orDefault (d := .str []) trivial h1 fun y hy => ?_) (fun _ _ _ _ _ _ => hf) hrs
    · simp only [Mem.fnName]; rw [apart_nameOf ha hx]; exact hst _
    · rw [apart_nameOf ha hy]; exact hst _
  rw [if_neg hc0, if_neg hc0]
  by_cases hc1 : m = "last".toList
  · rw [if_pos hc1, if_pos hc1]
    exact hconst (hi _)
  rw [if_neg hc1, if_neg hc1]
  by_cases hc2 : m = "count".toList
  · rw [if_pos hc2, if_pos hc2]
    unfold Mem.fnCount
    cases hrs with
    | nil => exact hf
    | cons h1 hrs =>
      cases hrs with
      | nil =>
        obtain ⟨rfl, h1⟩ := h1
        simp only []
        split
        · exact hi _
        · exact held_empty
      | cons _ _ => exact hf
  rw [if_neg hc2, if_neg hc2]
  by_cases hc3 : m = "string".toList
  · rw [if_pos hc3, if_pos hc3]
    exact held_args (held_toStrItem fo hs ha k hx) (fun a a' h1 => held_orDefault (d := .str []) trivial h1 fun y hy =>
      held_toStrItem fo hs ha k hy) (fun _ _ _ _ _ _ => hf) hrs
  rw [if_neg hc3, if_neg hc3]
  by_cases hc4 : m = "concat".toList
  · rw [if_pos hc4, if_pos hc4]
    obtain ⟨h1, h2⟩ := held_appendAll hrs
    unfold Mem.concatRes
    simp only [h1]
    have : ((rs.foldr Mem.Res.append Mem.Res.nil).items.flatMap fun x => x.toStr fo h' k) =
        (rs.foldr Mem.Res.append Mem.Res.nil).items.flatMap fun x => x.toStr fo h k := by
      clear h1
      generalize (rs.foldr Mem.Res.append Mem.Res.nil).items = xs at h2
      induction xs with
      | nil => rfl
      | cons a _ ih =>
        rw [List.flatMap_cons, List.flatMap_cons, apart_toStr fo hs ha k (h2 a (List.mem_cons_self ..)),
          ih fun y hy => h2 y (List.mem_cons_of_mem _ hy)]
    rw [this]
    cases (rs.foldr Mem.Res.append Mem.Res.nil).tail
    · exact hst _
    all_goals exact held_empty
  rw [if_neg hc4, if_neg hc4]
  by_cases hc5 : m = "starts-with".toList
  · rw [if_pos hc5, if_pos hc5]
    exact held_str2 fo hs ha k (fun s t => hb _) hrs
  rw [if_neg hc5, if_neg hc5]
  by_cases hc6 : m = "contains".toList
  · rw [if_pos hc6, if_pos hc6]
    exact held_str2 fo hs ha k (fun s t => hb _) hrs
  rw [if_neg hc6, if_neg hc6]
  by_cases hc7 : m = "substring-before".toList
  · rw [if_pos hc7, if_pos hc7]
    exact held_str2 fo hs ha k (fun s t => hpart t _) hrs
  rw [if_neg hc7, if_neg hc7]
  by_cases hc8 : m = "substring-after".toList
  · rw [if_pos hc8, if_pos hc8]
    exact held_str2 fo hs ha k (fun s t => hpart t _) hrs
  rw [if_neg hc8, if_neg hc8]
  by_cases hc9 : m = "substring".toList
  · rw [if_pos hc9, if_pos hc9]
    unfold Mem.fnSubstring
    match es with
    | [e0, e1, e2] =>
      simp only []
      cases hrs with
      | nil => exact hf
      | cons h1 _ =>
        exact held_strArg fo hs ha k h1 fun s => held_intArg fo hs ha k e1 fun i => held_intArg fo hs ha k e2 fun j => hst _
    | [] => exact hf
    | [_] => exact hf
    | [_, _] => exact hf
    | _ :: _ :: _ :: _ :: _ => exact hf
  rw [if_neg hc9, if_neg hc9]
  by_cases hc10 : m = "string-length".toList
  · rw [if_pos hc10, if_pos hc10]
    refine held_args hf (fun a a' h1 => held_orDefault (d := .str []) trivial h1 fun y hy => ?_) (fun _ _ _ _ _ _ => hf) hrs
    rw [apart_strOf ha hy]
    cases y.strOf h
    · exact hf
    · exact hi _
  rw [if_neg hc10, if_neg hc10]
  by_cases hc11 : m = "boolean".toList
  · rw [if_pos hc11, if_pos hc11]
    refine held_args hf (fun a a' h1 => held_orDefault (d := .str []) trivial h1 fun y hy => ?_) (fun _ _ _ _ _ _ => hf) hrs
    rw [apart_toBool fo ha hy]; exact hb _
  rw [if_neg hc11, if_neg hc11]
  by_cases hc12 : m = "not".toList
  · rw [if_pos hc12, if_pos hc12]
    refine held_args hf (fun a a' h1 => held_orDefault (d := .str []) trivial h1 fun y hy => ?_) (fun _ _ _ _ _ _ => hf) hrs
    rw [apart_toBool fo ha hy]; exact hb _
  rw [if_neg hc12, if_neg hc12]
  by_cases hc13 : m = "true".toList
  · rw [if_pos hc13, if_pos hc13]
    exact hconst (hb _)
  rw [if_neg hc13, if_neg hc13]
  by_cases hc14 : m = "false".toList
  · rw [if_pos hc14, if_pos hc14]
    exact hconst (hb _)
  rw [if_neg hc14, if_neg hc14]
  by_cases hc15 : m = "number".toList
  · rw [if_pos hc15, if_pos hc15]
    exact held_args (hi _) (fun a a' h1 => held_orDefault (d := .str []) trivial h1 fun y hy => held_toNum fo hs ha k hy) (fun _ _ _ _ _ _ => hf) hrs
  rw [if_neg hc15, if_neg hc15]
  by_cases hc16 : m = "for-each".toList
  · rw [if_pos hc16, if_pos hc16]
    unfold Mem.fnForEach
    cases hrs with
    | nil => exact hf
    | cons h1 hrs =>
      cases hrs with
      | nil => exact hf
      | cons h2 hrs =>
        cases hrs with
        | nil =>
          refine held_strArg fo hs ha k h2 fun s => ?_
          rcases hdyn s with ⟨e, e1, e2⟩ | ⟨g, g', e1, e2, e3⟩
          · rw [e1, e2]; exact held_empty
          · rw [e1, e2]
            refine held_bind h1 fun y hy => ?_
            rw [apart_orElse fo ha hy]
            exact e3 _ (orElse_inside fo hy hx)
        | cons _ _ => exact hf
  rw [if_neg hc16, if_neg hc16]
  by_cases hc17 : m = "lookup".toList
  · rw [if_pos hc17, if_pos hc17]
    exact held_str2 fo hs ha k (fun s t => hf) hrs
  rw [if_neg hc17, if_neg hc17]
  by_cases hc18 : m = "normalize-space".toList ∨ m = "sum".toList ∨ m = "floor".toList ∨ m = "ceiling".toList ∨ m = "round".toList
  · rw [if_pos hc18, if_pos hc18]
    unfold Mem.fnTodo
    rw [heldAll_length hrs]
    split <;> exact hf
  rw [if_neg hc18, if_neg hc18]
  by_cases hc19 : m = "translate".toList ∨ m = "same-lang".toList
  · rw [if_pos hc19, if_pos hc19]
    unfold Mem.fnTodo
    rw [heldAll_length hrs]
    split <;> exact hf
  rw [if_neg hc19, if_neg hc19]
  exact hf

end

variable (k : Nat) {vars : Str → Option (Mem.Item F)} (hv : ∀ v x, vars v = some x → x.Inside S) (n : Nat)
  {dyn dyn' : Str → Except XErr (Mem.Item F → Mem.Res F)} (hdyn : ∀ s, HeldDyn S (dyn s) (dyn' s))
include hs ha hv hdyn

mutual
  theorem held_eval : ∀ (e : Expr F) (x : Mem.Item F), x.Inside S →
      Held S (Mem.eval fo h k vars n dyn e x) (Mem.eval fo h' k vars n dyn' e x)
    | .lit y, x, hx => by
      simp only [Mem.eval]
      exact held_one (ofLit_inside y)
    | .neg e, x, hx => by
      have ih := held_eval e x hx
      simp only [Mem.eval]
      obtain ⟨h1, h2⟩ := ih
      rw [h1]
      generalize Mem.eval fo h k vars n dyn e x = a
      rcases a with ⟨xs, tl⟩
      cases xs with
      | nil => cases tl <;> exact held_empty
      | cons _ _ => exact held_empty
    | .slash l r, x, hx => by
      simp only [Mem.eval]
      refine held_bind (held_eval l x hx) fun y hy => ?_
      rw [apart_orElse fo ha hy]
      exact held_eval r _ (orElse_inside fo hy hx)
    | .dslash l r, x, hx => by
      have ihr := held_eval r
      simp only [Mem.eval]
      refine held_bind (held_eval l x hx) fun y hy => ?_
      have hz := orElse_inside (h := h) fo hy hx
      rw [apart_orElse fo ha hy]
      cases r <;> first | exact ihr _ hz | exact held_step fo hs ha k n .descendantOrSelf _ hz
    | .union l r, x, hx => by
      simp only [Mem.eval]
      exact held_union hs ha k hx (held_eval l x hx) (held_eval r x hx)
    | .eq l r, x, hx => by
      simp only [Mem.eval]
      exact held_eq fo hs ha k (held_eval l x hx) (held_eval r x hx)
    | .ne l r, x, hx => by
      simp only [Mem.eval]
      refine held_need (held_eval l x hx) fun a h1 => held_need (held_eval r x hx) fun b h2 => ?_
      rw [apart_pyEq fo ha h1 h2]
      exact held_one trivial
    | .rel op l r, x, hx => by
      simp only [Mem.eval]
      refine held_need (held_eval l x hx) fun a h1 => held_need (held_eval r x hx) fun b h2 => ?_
      rw [apart_pyRel fo ha op h1 h2]
      cases a.pyRel fo h op b
      · exact held_empty
      · exact held_one trivial
    | .or l r, x, hx => by
      simp only [Mem.eval]
      refine held_need (held_eval l x hx) fun a h1 => ?_
      rw [apart_truthy fo ha h1]
      split
      · exact held_one h1
      · exact held_need (held_eval r x hx) fun b h2 => held_one h2
    | .and l r, x, hx => by
      simp only [Mem.eval]
      refine held_need (held_eval l x hx) fun a h1 => ?_
      rw [apart_truthy fo ha h1]
      split
      · exact held_need (held_eval r x hx) fun b h2 => held_one h2
      · exact held_one h1
    | .arith _ _ _, x, hx => by
      simp only [Mem.eval]
      exact held_empty
    | .abs none, x, hx => by
      simp only [Mem.eval]
      exact held_getRoot hs ha k hx
    | .abs (some r), x, hx => by
      simp only [Mem.eval]
      refine held_bind (held_getRoot hs ha k hx) fun y hy => held_append ?_ (held_eval r y hy)
      split
      · exact held_one hy
      · exact held_empty
    | .absAll r, x, hx => by
      simp only [Mem.eval]
      refine held_bind (held_getRoot hs ha k hx) fun y hy => held_append ?_ (held_append (held_eval r y hy) ?_)
      · split
        · exact held_one hy
        · exact held_empty
      · rw [apart_kids ha hy]
        cases hk : y.kids h with
        | none => exact held_empty
        | some cs =>
          obtain ⟨h1, h2⟩ := apart_walk hs ha k (kids_inside hs hy hk)
          simp only [h1]
          refine held_bindList (fun z hz => ?_) _ (map_obj_inside h2)
          rw [apart_orElse fo ha hz]
          exact held_eval r _ (orElse_inside fo hz hx)
    | .step a ts, x, hx => by
      simp only [Mem.eval]
      exact held_step fo hs ha k n a ts hx
    | .test ts, x, hx => by
      simp only [Mem.eval]
      exact held_compute ha ts hx
    | .pred l ps, x, hx => by
      simp only [Mem.eval]
      obtain ⟨h1, h2⟩ := held_eval l x hx
      rw [h1]
      refine held_predLoop (fun pos y hy => ?_) _ h2 1
      rw [apart_orElse fo ha hy]
      exact apart_preds ps pos _ (orElse_inside fo hy hx)
    | .dot, x, hx => by
      simp only [Mem.eval]
      exact held_one hx
    | .dotdot, x, hx => by
      simp only [Mem.eval]
      rw [apart_up ha hx]
      cases hu : x.up h with
      | none => exact held_empty
      | some o =>
        cases o with
        | none => exact held_getRoot hs ha k hx
        | some i => exact held_one (x := .obj i) (up_inside hs hx hu i rfl)
    | .var v, x, hx => by
      simp only [Mem.eval]
      cases hv' : vars v with
      | none => exact held_empty
      | some y => exact held_one (hv v y hv')
    | .call f as, x, hx => by
      simp only [Mem.eval]
      exact held_call fo hs ha k hdyn hx f as (held_evalArgs as x hx)
    | .seq es, x, hx => by
      simp only [Mem.eval]
      exact held_evalSeq es x hx
  theorem apart_preds : ∀ (ps : List (Expr F)) (pos : Nat) (x : Mem.Item F), x.Inside S →
      Mem.evalPreds fo h' k vars n dyn' pos ps x = Mem.evalPreds fo h k vars n dyn pos ps x
    | [], pos, x, hx => by simp only [Mem.evalPreds]
    | p :: ps, pos, x, hx => by
      simp only [Mem.evalPreds]
      rw [apart_pred fo ha pos (held_eval p x hx), apart_preds ps pos x hx]
  theorem held_evalArgs : ∀ (es : List (Expr F)) (x : Mem.Item F), x.Inside S →
      HeldAll S (Mem.evalArgs fo h k vars n dyn es x) (Mem.evalArgs fo h' k vars n dyn' es x)
    | [], x, hx => by simp only [Mem.evalArgs]; exact .nil
    | e :: es, x, hx => by
      simp only [Mem.evalArgs]
      exact .cons (held_eval e x hx) (held_evalArgs es x hx)
  theorem held_evalSeq : ∀ (es : List (Expr F)) (x : Mem.Item F), x.Inside S →
      Held S (Mem.evalSeq fo h k vars n dyn es x) (Mem.evalSeq fo h' k vars n dyn' es x)
    | [], x, hx => by simp only [Mem.evalSeq]; exact held_empty
    | e :: es, x, hx => by
      simp only [Mem.evalSeq]
      exact held_append (held_eval e x hx) (held_evalSeq es x hx)
end

omit hdyn in
theorem held_evalN (parse : Str → Except XErr (Expr F)) : ∀ (n : Nat) (e : Expr F) (x : Mem.Item F), x.Inside S →
    Held S (Mem.evalN fo h k parse vars n e x) (Mem.evalN fo h' k parse vars n e x)
  | 0, e, x, hx => by
    unfold Mem.evalN
    refine held_eval fo hs ha k hv 0 (fun s => ?_) e x hx
    cases parse s with
    | error er => exact .inl ⟨er, rfl, rfl⟩
    | ok g => exact .inr ⟨_, _, rfl, rfl, fun _ _ => held_empty⟩
  | n + 1, e, x, hx => by
    unfold Mem.evalN
    refine held_eval fo hs ha k hv (n + 1) (fun s => ?_) e x hx
    cases parse s with
    | error er => exact .inl ⟨er, rfl, rfl⟩
    | ok g => exact .inr ⟨_, _, rfl, rfl, fun y hy => held_evalN parse n g y hy⟩

end
end Amara
